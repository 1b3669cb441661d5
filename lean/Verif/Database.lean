import Verif.Machine
/-
One goroutine that uses a whole database: several tables with records of different types, keys of the user, and transactions that
span all of them.
-/
namespace Bond

/-- the tables of a database, which may have different record types (bond.go:60-80, table.go:31-147) -/
structure Tables (ι : Type) where
  T : ι → Type
  F : ι → Type
  t : (i : ι) → Table (T i) (F i)

variable {ι : Type}

/-- what is there: the store, the filter of each table, and the open batch (bond.go:110-125, batch.go:40-58) -/
structure DWorld (A : Tables ι) where
  db : KV
  filt : (i : ι) → A.F i
  batch : Option Batch

/-- One action: a call on a table; Set, Delete or DeleteRange of a key of the user (bond.go:251-274), Get of one (bond.go:242-249),
each with the open batch or not; and the transaction as in `PStep`. `ok`: the store accepts the write. -/
inductive DStep (A : Tables ι)
  | call (i : ι) (env : Env (A.T i)) (inBatch : Bool) (c : TCall (A.T i))
  | write (ok inBatch : Bool) (o : WOp)
  | get (inBatch : Bool) (k : Bytes)
  | begin
  | commit (ok : Bool)
  | discard

/-- what an action returns (table.go:31-147, bond.go:242-273) -/
inductive DAnswer (A : Tables ι)
  | table (i : ι) (a : Answer (A.T i))
  | value (v : Option Bytes)
  | done (e : Option Err)

/-- bond.go:251-273, batch.go:98-108 a write of the user, in the batch or at once -/
def userWrite (ok : Bool) (o : WOp) (db : KV) : Option Batch → Option Err × KV × Option Batch
  | some b => (none, db, some { b with ops := b.ops ++ [o] })
  | none => if ok then (none, db.apply1 o, none) else (some .commit, db, none)

/-- bond.go:242-249, batch.go:94-96 a read of the user; a missing key is an error of its own (here no value) -/
def userGet (db : KV) (ob : Option Batch) (k : Bytes) : Except Err (Option Bytes) :=
  match readable db ob with
  | none => .error .notIndexed
  | some V => .ok (V.get k)

/-- one action (table.go:338-1000, bond.go:242-292, batch.go:97-152); `none`: `fuel` is not enough for a scan to end -/
def Tables.dstep [DecidableEq ι] (A : Tables ι) (srt : (i : ι) → (A.T i → A.T i → Bool) → List (A.T i) → List (A.T i)) (fuel : Nat) (w : DWorld A) :
    DStep A → Option (DAnswer A × DWorld A)
  | .call i env inBatch c =>
    ((A.t i).pstep (srt i) fuel ⟨w.db, w.filt i, w.batch⟩ (.call env inBatch c)).map (fun r =>
      (.table i r.1, { db := r.2.db, batch := r.2.batch, filt := fun j => if h : j = i then h ▸ r.2.filt else w.filt j }))
  | .write ok inBatch o =>
    let r := userWrite ok o w.db (if inBatch then w.batch else none)
    some (.done r.1, { w with db := r.2.1, batch := if inBatch then r.2.2 else w.batch })
  | .get inBatch k =>
    match userGet w.db (if inBatch then w.batch else none) k with
    | .error e => some (.done (some e), w)
    | .ok v => some (.value v, w)
  | .begin => some (.done none, { w with batch := some ⟨true, []⟩ })
  | .commit ok =>
    match w.batch with
    | none => some (.done none, w)
    | some b => some (.done (Batch.commit ok w.db b).2, { w with db := (Batch.commit ok w.db b).1, batch := none })
  | .discard => some (.done none, { w with batch := none })

/-- any number of actions (table.go:338-1000, bond.go:242-292, batch.go:97-152) -/
def Tables.drun [DecidableEq ι] (A : Tables ι) (srt : (i : ι) → (A.T i → A.T i → Bool) → List (A.T i) → List (A.T i)) (fuel : Nat) :
    DWorld A → List (DStep A) → Option (List (DAnswer A) × DWorld A)
  | w, [] => some ([], w)
  | w, x :: l =>
    match A.dstep srt fuel w x with
    | none => none
    | some (a, w') => (A.drun srt fuel w' l).map (fun r => (a :: r.1, r.2))

end Bond
