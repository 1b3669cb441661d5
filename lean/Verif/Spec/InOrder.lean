import Verif.Calls
/-
Specification: calls on a table run one after the other, each alone, mixed with writes by others.
-/
namespace Bond
open Spec
variable {T F : Type}

/-- database, filter, and the results of the calls run so far -/
structure Spec.SeqSt (F : Type) where
  db : KV
  filt : F
  res : List (Nat × Option Err)

/-- run one call alone (`Sum.inl i`: the `i`-th), or apply writes of somebody else -/
def Spec.seqStep (t : Table T F) (cs : List (Env T × WCall T)) (s : SeqSt F) : Nat ⊕ List WOp → SeqSt F
  | .inr ops => { s with db := s.db.apply ops }
  | .inl i =>
    match cs[i]? with
    | none => s
    | some c =>
      let out := t.run c.1 s.db s.filt none c.2
      { db := out.db, filt := out.filt, res := s.res ++ [(i, out.err)] }

/-- one after the other, in the order of the list -/
def Spec.inOrder (t : Table T F) (cs : List (Env T × WCall T)) (db : KV) (f : F) (order : List (Nat ⊕ List WOp)) : SeqSt F :=
  order.foldl (seqStep t cs) { db := db, filt := f, res := [] }

end Bond
