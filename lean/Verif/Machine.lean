import Verif.Read
import Verif.Query
import Verif.Calls
/-
One goroutine that uses a table: calls without batch, and transactions (a read-write batch that is filled, read through, and
committed or closed), one after the other. Everything is put together from the model of the single calls.
-/
namespace Bond
variable {T F : Type}

/-- table.go:31-147 the calls on a table -/
inductive TCall (T : Type)
  | write (c : WCall T)
  | get (x : T)
  | getMany (pts : List T)
  | exist (x : T)
  | scan (reverse : Bool)
  | scanIndex (idx : Index T) (sel : Selector T) (reverse : Bool)
  | query (q : Query T)

/-- what a call returns (table.go:31-147, batch.go:134) -/
inductive Answer (T : Type)
  | done (e : Option Err)
  | row (r : Except Err T)
  | yes (b : Bool)
  | rows (l : List T) (e : Option Err)
deriving DecidableEq

/-- what is there (bond.go:125-136, table.go:126-148, batch.go:47-56): the database, the state of the filter, and the open batch -/
structure PWorld (F : Type) where
  db : KV
  filt : F
  batch : Option Batch

/-- one action: a call, given the open batch or not; BatchReadWrite (bond.go:290-292; an open batch is forgotten), Commit
(batch.go:134-152; the batch is not used after it) and Close of the batch (batch.go:97-105) -/
inductive PStep (T : Type)
  | call (env : Env T) (inBatch : Bool) (c : TCall T)
  | begin
  | commit (ok : Bool)
  | discard

/-- a scan that collects rows, as an answer (table.go:800-830) -/
def ScanOut.answer (o : ScanOut (List T)) : Answer T := .rows o.s o.err

/-- the result of a query, as an answer (query.go:131-150) -/
def queryAnswer : Except Err (List T) → Answer T
  | .ok l => .rows l none
  | .error e => .rows [] (some e)

/-- the result of a Get of several points, as an answer (table.go:800-830) -/
def manyAnswer : Except Err (List T) → Answer T
  | .ok l => .rows l none
  | .error e => .rows [] (some e)

/-- One read call (table.go:791-1000, query.go:131-150); `none`: `fuel` is not enough for the scan to end. -/
def Table.readCall (t : Table T F) (srt : (T → T → Bool) → List T → List T) (fuel : Nat) (env : Env T) (f : F) (db : KV) (ob : Option Batch) :
    TCall T → Option (Answer T)
  | .write _ => none
  | .get x => some (.row (t.getPoint f db ob x))
  | .getMany pts => some (manyAnswer (t.getMany env f db ob pts))
  | .exist x => some (.yes (t.exist f db ob x))
  | .scan reverse => (t.scan env f db ob reverse fuel []).map ScanOut.answer
  | .scanIndex idx sel reverse => (t.scanIndex env f db ob idx sel reverse fuel []).map ScanOut.answer
  | .query q => (q.execute t env srt f db ob fuel).map queryAnswer

/-- One action (table.go:338-1000, query.go:131-150, batch.go:97-152, bond.go:290-292). A call that is given the batch gets none if none is
open (a nil batch, table.go:343-350). -/
def Table.pstep (t : Table T F) (srt : (T → T → Bool) → List T → List T) (fuel : Nat) (w : PWorld F) :
    PStep T → Option (Answer T × PWorld F)
  | .call env inBatch (.write c) =>
    let out := t.run env w.db w.filt (if inBatch then w.batch else none) c
    some (.done out.err, { db := out.db, filt := out.filt, batch := if inBatch then out.batch else w.batch })
  | .call env inBatch c =>
    (t.readCall srt fuel env w.filt w.db (if inBatch then w.batch else none) c).map (fun a => (a, w))
  | .begin => some (.done none, { w with batch := some ⟨true, []⟩ })
  | .commit ok =>
    match w.batch with
    | none => some (.done none, w)
    | some b => some (.done (Batch.commit ok w.db b).2, { w with db := (Batch.commit ok w.db b).1, batch := none })
  | .discard => some (.done none, { w with batch := none })

/-- any number of actions (table.go:338-1000) -/
def Table.prun (t : Table T F) (srt : (T → T → Bool) → List T → List T) (fuel : Nat) : PWorld F → List (PStep T) →
    Option (List (Answer T) × PWorld F)
  | w, [] => some ([], w)
  | w, x :: l =>
    match t.pstep srt fuel w x with
    | none => none
    | some (a, w') => (t.prun srt fuel w' l).map (fun r => (a :: r.1, r.2))

end Bond
