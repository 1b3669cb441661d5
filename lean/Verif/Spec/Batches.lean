import Verif.Batches
import Verif.Spec.History
import Verif.ConcurrentLemmas
/-
Specification: nothing happens on a batch before its commit; at the commit all that was asked of it is done at once, on a
new batch, which is then committed.
-/
namespace Bond
open Spec
variable {T F : Type}

/-- the database, the filter, what was asked of every open batch, and the final results so far -/
structure Spec.AtCommit (T F : Type) where
  db : KV
  filt : F
  asked : Nat → List ((Env T × WCall T) ⊕ List WOp)
  log : List Outcome

/-- a batch being filled while nothing else happens: its writes, the filter, the results of the calls -/
structure Spec.Filling (F : Type) where
  ops : List WOp
  filt : F
  res : List (Option Err)

/-- do one thing on a batch -/
def Spec.fill1 (t : Table T F) (rw : Bool) (db : KV) (s : Filling F) : (Env T × WCall T) ⊕ List WOp → Filling F
  | .inl (env, c) =>
    let o := t.run env db s.filt (some ⟨rw, s.ops⟩) c
    ⟨o.batchOps, o.filt, s.res ++ [o.err]⟩
  | .inr ops => { s with ops := s.ops ++ ops }

/-- do all that was asked of a batch, on a new one -/
def Spec.fill (t : Table T F) (rw : Bool) (db : KV) (f : F) (l : List ((Env T × WCall T) ⊕ List WOp)) : Filling F :=
  l.foldl (fill1 t rw db) ⟨[], f, []⟩

/-- one step -/
def Spec.atCommit1 (t : Table T F) (rw : Nat → Bool) (s : AtCommit T F) : BatchStep T → AtCommit T F
  | .call j env c => { s with asked := setBat s.asked j (s.asked j ++ [.inl (env, c)]) }
  | .put j ops => { s with asked := setBat s.asked j (s.asked j ++ [.inr ops]) }
  | .direct env c =>
    let o := t.run env s.db s.filt none c
    { s with db := o.db, filt := o.filt, log := s.log ++ [.direct o.err] }
  | .others ops => { s with db := s.db.apply ops }
  | .commit j ok =>
    let b := fill t (rw j) s.db s.filt (s.asked j)
    let r := Batch.commit ok s.db ⟨rw j, b.ops⟩
    { db := r.1, filt := b.filt, asked := setBat s.asked j [], log := s.log ++ [.commit j b.res r.2] }
  | .drop j => { s with asked := setBat s.asked j [] }

/-- all steps, with everything asked of a batch done at its commit -/
def Spec.atCommit (t : Table T F) (rw : Nat → Bool) (db : KV) (f : F) (l : List (BatchStep T)) : AtCommit T F :=
  l.foldl (atCommit1 t rw) ⟨db, f, fun _ => [], []⟩

/-- the keys of the rows given to the calls asked of a batch -/
def Spec.askedKeys (t : Table T F) (l : List ((Env T × WCall T) ⊕ List WOp)) : List Bytes :=
  l.flatMap (fun x => match x with
    | .inl (_, c) => c.keys t
    | .inr _ => [])

/-- writes outside the table -/
def Spec.OutsideOps (t : Table T F) (ops : List WOp) : Prop := ∀ o ∈ ops, ∀ k, o.touches k → Outside t k

/-- A step is allowed: the keys of a call are in no other open batch, `Q` holds of the call and what it sees, and others write
outside the table. -/
def Spec.Allowed (t : Table T F) (Q : Env T → KV → WCall T → Prop) (w : BatchWorld T F) : BatchStep T → Prop
  | .call j env c => env.OK t ∧ Q env (w.db.apply (w.bats j).ops) c ∧
      ∀ i, i ≠ j → ∀ k ∈ c.keys t, k ∉ askedKeys t (w.bats i).done
  | .put _ ops => OutsideOps t ops
  | .direct env c => env.OK t ∧ Q env w.db c ∧ ∀ i, ∀ k ∈ c.keys t, k ∉ askedKeys t (w.bats i).done
  | .others ops => OutsideOps t ops
  | .commit _ _ => True
  | .drop _ => True

/-- every step is allowed when it is done -/
def Spec.Isolated (t : Table T F) (rw : Nat → Bool) (Q : Env T → KV → WCall T → Prop) : BatchWorld T F → List (BatchStep T) → Prop
  | _, [] => True
  | w, x :: l => Allowed t Q w x ∧ Isolated t rw Q (t.batchStep rw w x) l

/-- Content of the table after the steps: a direct call that succeeded has its effect at once, the calls on a batch have theirs
when it is committed. The list has the results of direct calls and commits, `asked` the calls on the open batches. -/
def Spec.contentB (pk : T → Bytes) : List (BatchStep T) → List Outcome → (Nat → List (WCall T)) → Rows T → Rows T
  | [], _, _, m => m
  | .call j _ c :: l, os, a, m => contentB pk l os (setBat a j (a j ++ [c])) m
  | .put _ _ :: l, os, a, m => contentB pk l os a m
  | .others _ :: l, os, a, m => contentB pk l os a m
  | .drop j :: l, os, a, m => contentB pk l os (setBat a j []) m
  | .direct _ c :: l, os, a, m => contentB pk l os.tail a (if os.head? = some (.direct none) then effect pk m c else m)
  | .commit j _ :: l, os, a, m => contentB pk l os.tail (setBat a j [])
      (match os.head? with
        | some (.commit _ _ none) => (a j).foldl (effect pk) m
        | _ => m)

end Bond
