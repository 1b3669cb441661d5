import Verif.Machine
import Verif.ReIndex
/-
A table whose indexes change over time: AddIndex and ReIndex between the other calls, new table objects with other indexes on the same
database, and processes that end during ReIndex. Put together from the models of the single calls.
-/
namespace Bond
variable {T F : Type}

/-- what is there: database, filter and open batch, and the mutex and registered indexes of the table object (table.go:134, 148) -/
structure EWorld (T F : Type) where
  w : PWorld F
  locks : LockedIndexes T

/-- one action: one of `PStep`; AddIndex (table.go:248-263); ReIndex (table.go:265-336), or the end of the process when `n` of its
durable operations are done; a new table object on the database (table.go:159-192 `NewTable`, which registers no index; the filter, if
any, is the one of before). `commitOk n`: the n-th durable operation succeeds. -/
inductive EStep (T : Type)
  | act (x : PStep T)
  | addIndex (idxs : List (Index T)) (reIndex : Bool) (commitOk : Nat → Bool)
  | reIndex (idxs : List (Index T)) (commitOk : Nat → Bool)
  | crash (idxs : List (Index T)) (commitOk : Nat → Bool) (n : Nat)
  | reopen

/-- ReIndex as an action (table.go:265-336) -/
def Table.reIndexStep (t : Table T F) (e : EWorld T F) (idxs : List (Index T)) (commitOk : Nat → Bool) : Answer T × EWorld T F :=
  let r := t.reIndex commitOk e.w.db idxs
  (.done r.err, { e with w := { e.w with db := r.db e.w.db } })

/-- One action (table.go:159-1000). The table's own list of indexes is not used, but those registered. `none`: the call waits forever for the
mutex (then also calls that do not ask for it are not made), or `fuel` is not enough for a scan to end. -/
def Table.estep (t : Table T F) (srt : (T → T → Bool) → List T → List T) (fuel : Nat) (e : EWorld T F) :
    EStep T → Option (Answer T × EWorld T F)
  | .act x =>
    match e.locks.read with
    | none => none
    | some reg => (({ t with indexes := reg } : Table T F).pstep srt fuel e.w x).map (fun r => (r.1, { e with w := r.2 }))
  | .addIndex idxs re commitOk =>
    match e.locks.addIndex idxs with
    | none => none
    | some (locks, true) => some (.done (some .alreadyExist), { e with locks := locks })
    | some (locks, false) =>
      if re then some (t.reIndexStep { e with locks := locks } idxs commitOk) else some (.done none, { e with locks := locks })
  | .reIndex idxs commitOk => some (t.reIndexStep e idxs commitOk)
  | .crash idxs commitOk n =>
    some (.done none,
      ⟨{ e.w with db := e.w.db.apply ((t.reIndex commitOk e.w.db idxs).commits.take n).flatten, batch := none }, ⟨false, []⟩⟩)
  | .reopen => some (.done none, ⟨{ e.w with batch := none }, ⟨false, []⟩⟩)

/-- any number of actions (table.go:159-1000) -/
def Table.erun (t : Table T F) (srt : (T → T → Bool) → List T → List T) (fuel : Nat) : EWorld T F → List (EStep T) →
    Option (List (Answer T) × EWorld T F)
  | e, [] => some ([], e)
  | e, x :: l =>
    match t.estep srt fuel e x with
    | none => none
    | some (a, e') => (t.erun srt fuel e' l).map (fun r => (a :: r.1, r.2))

end Bond
