import Verif.Calls
import Verif.ReIndex
/-
Model of table.go ReIndex running while other calls write the same table: ReIndex is cut into its effects on the database
(each deletion, opening the iterator, each commit), and the writers' calls come in between.
-/
namespace Bond
variable {T F : Type}

/-- Where `ReIndex` is (table.go:265-336): in the loop of deletions (267-275) with the indexes left; in the loop over the rows
(297-326) with the entries its iterator still has to deliver, the counter and the content of the batch; or returned. -/
inductive RePhase (T : Type)
  | del (left : List (Index T))
  | rows (left : List (Bytes × Bytes)) (counter : Nat) (ops : List WOp)
  | fin (err : Option Err)

/-- table.go:319-322, 328-331, batch.go:134-152: `Commit` of ReIndex's batch. An empty batch is not written. `ok`: pebble's
commit succeeds. `none`: error. -/
def reCommit (ok : Bool) (db : KV) (ops : List WOp) : Option KV :=
  if ops = [] then some db else if ok then some (db.apply ops) else none

/-- table.go:265-336 the next piece of `ReIndex`: one deletion (269-274), opening the iterator (282-287, its snapshot), one row
with the commit that follows it if the batch is full (297-325), or the last commit (328-335). -/
def Table.reStep (size : Nat) (t : Table T F) (idxs : List (Index T)) (ok : Bool) (db : KV) : RePhase T → KV × RePhase T
  | .del (idx :: left) =>
    if ok then (db.apply1 (.delRange [t.id, idx.id] [t.id, idx.id + 1]), .del left) else (db, .fin (some .commit))
  | .del [] =>
    (db, .rows (db.scan (keyPrefix t.id primaryIndexID []) (keySuccessor (keyPrefix t.id primaryIndexID []))) 0 [])
  | .rows ((_, v) :: left) counter ops =>
    match t.deser t.nil v with
    | none => (db, .fin (some .deser))
    | some tr =>
      let ops := ops ++ idxs.flatMap (fun idx => onInsert t idx tr)
      if counter + 1 ≥ size then
        match reCommit ok db ops with
        | some db => (db, .rows left 0 [])
        | none => (db, .fin (some .commit))
      else (db, .rows left (counter + 1) ops)
  | .rows [] _ ops =>
    match reCommit ok db ops with
    | some db => (db, .fin none)
    | none => (db, .fin (some .commit))
  | .fin e => (db, .fin e)

/-- What happens next: a piece of ReIndex, or a write call (table.go:338-789, table_unsafe.go:20-203) takes effect. A call is one
event, at the moment of its commit: what it reads before are rows, which ReIndex does not write (`run_sees_rows`). -/
inductive LiveEv (T : Type)
  | step (ok : Bool)
  | call (env : Env T) (c : WCall T)

/-- the database, the filter, where ReIndex is, and the calls that have returned, in order, with what they returned (table.go:265-336) -/
structure LiveSt (T F : Type) where
  db : KV
  filt : F
  phase : RePhase T
  res : List (WCall T × Option Err)

/-- table.go:265-336 and the write calls: one event -/
def Table.live1 (size : Nat) (t : Table T F) (idxs : List (Index T)) (s : LiveSt T F) : LiveEv T → LiveSt T F
  | .step ok => { s with db := (t.reStep size idxs ok s.db s.phase).1, phase := (t.reStep size idxs ok s.db s.phase).2 }
  | .call env c =>
    let out := t.run env s.db s.filt none c
    { db := out.db, filt := out.filt, phase := s.phase, res := s.res ++ [(c, out.err)] }

/-- a run of events (table.go:265-336 interleaved with table.go:338-789) -/
def Table.live (size : Nat) (t : Table T F) (idxs : List (Index T)) (evs : List (LiveEv T)) (s : LiveSt T F) : LiveSt T F :=
  evs.foldl (t.live1 size idxs) s

/-- table.go:265 `ReIndex` is called -/
def liveStart (db : KV) (f : F) (idxs : List (Index T)) : LiveSt T F := ⟨db, f, .del idxs, []⟩

end Bond
