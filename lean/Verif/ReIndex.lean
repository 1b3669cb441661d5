import Verif.Table
/-
Model of table.go AddIndex and ReIndex.
-/
namespace Bond
variable {T F : Type}

/-- Result of `ReIndex`: the durable commits in order (a crash leaves a prefix of them) and the error (table.go:265-336). -/
structure ROut where
  commits : List (List WOp)
  err : Option Err

/-- the database after the call (table.go:265-336) -/
def ROut.db (r : ROut) (db : KV) : KV := db.apply r.commits.flatten

/-- table.go:267-276 the loop that deletes the old entries of each index. `idx.IndexID + 1` is computed in `uint8` and
wraps at 255. `commitOk n` says whether the n-th durable operation of the call succeeds. -/
def Table.reIndexDelete (t : Table T F) (commitOk : Nat → Bool) : List (Index T) → List (List WOp) → ROut
  | [], commits => ⟨commits, none⟩
  | idx :: idxs, commits =>
    if commitOk commits.length then t.reIndexDelete commitOk idxs (commits ++ [[.delRange [t.id, idx.id] [t.id, idx.id + 1]]])
    else ⟨commits, some .commit⟩

/-- batch.go:134-152 `Commit` of a batch with the given content: an empty one is not committed -/
def commitStep (commitOk : Nat → Bool) (commits : List (List WOp)) (ops : List WOp) : ROut :=
  if ops = [] then ⟨commits, none⟩
  else if commitOk commits.length then ⟨commits ++ [ops], none⟩ else ⟨commits, some .commit⟩

/-- table.go:298-326 the loop over the rows and the final commit. `size` is `ReindexBatchSize`, `ops` the content of the
current batch. -/
def Table.reIndexLoop (t : Table T F) (commitOk : Nat → Bool) (size : Nat) (idxs : List (Index T)) :
    List (Bytes × Bytes) → Nat → List WOp → List (List WOp) → ROut
  | [], _, ops, commits => commitStep commitOk commits ops
  | (_, v) :: rest, counter, ops, commits =>
    match t.deser t.nil v with
    | none => ⟨commits, some .deser⟩
    | some tr =>
      let ops := ops ++ idxs.flatMap (fun idx => onInsert t idx tr)
      if counter + 1 ≥ size then
        match commitStep commitOk commits ops with
        | ⟨commits, none⟩ => t.reIndexLoop commitOk size idxs rest 0 [] commits
        | r => r
      else t.reIndexLoop commitOk size idxs rest (counter + 1) ops commits

/-- table.go:265-336 `ReIndex`. The iterator is created after the deletions and sees a snapshot. -/
def Table.reIndexBs (size : Nat) (t : Table T F) (commitOk : Nat → Bool) (db : KV) (idxs : List (Index T)) : ROut :=
  match t.reIndexDelete commitOk idxs [] with
  | ⟨commits, none⟩ =>
    let pre := keyPrefix t.id primaryIndexID []
    t.reIndexLoop commitOk size idxs ((db.apply commits.flatten).scan pre (keySuccessor pre)) 0 [] commits
  | r => r

/-- table.go:265-336 `ReIndex` -/
def Table.reIndex (t : Table T F) := t.reIndexBs reindexBatchSize

/-- The table's mutex and map of indexes (table.go:134, 148). `writeLocked`: the mutex is held for writing. -/
structure LockedIndexes (T : Type) where
  writeLocked : Bool
  indexes : List (Index T)

/-- table.go:250-256 the loop of `AddIndex`; `true`: returned with an error -/
def addIndexLoop : List (Index T) → List (Index T) → List (Index T) × Bool
  | [], reg => (reg, false)
  | idx :: idxs, reg => if reg.any (fun i => i.id == idx.id) then (reg, true) else addIndexLoop idxs (reg ++ [idx])

/-- table.go:248-263 `AddIndex` without reindexing. `none`: it waits for the mutex and no other call is running, so it
waits forever. The second component is `true` if it returned an error; then the mutex is still held (table.go:253). -/
def LockedIndexes.addIndex (s : LockedIndexes T) (idxs : List (Index T)) : Option (LockedIndexes T × Bool) :=
  if s.writeLocked then none
  else
    match addIndexLoop idxs s.indexes with
    | (reg, true) => some (⟨true, reg⟩, true)
    | (reg, false) => some (⟨false, reg⟩, false)

/-- table.go:339-342, 453-456, 578-581, 638-641, table_unsafe.go:25-28, 114-117, table.go:197-198, 233-234: the calls that take the mutex for
reading to get the list of indexes. `none`: waits forever. -/
def LockedIndexes.read (s : LockedIndexes T) : Option (List (Index T)) :=
  if s.writeLocked then none else some s.indexes

end Bond
