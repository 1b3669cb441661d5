import Verif.TransactionReads
import Verif.Spec.Transactions
/-
Specification: what a goroutine reads between its calls is what it would read if the tasks were carried out one after the other.
-/
namespace Bond
open Spec
variable {T F : Type}

/-- the goroutine has a batch, has made the first `n` of its calls, and is not in a call -/
def Spec.Between (t : Table T F) (th : TxThread T F) (rw : Bool) (l : List ((Env T × WCall T) ⊕ List WOp)) (fin : Option Bool) (n : Nat) : Prop :=
  th.task = .batch rw l fin ∧ th.acts = (l.drop n).flatMap (t.itemActs rw) ∧ th.ended = false

/-- task `i` has not ended -/
def Spec.Open (w : TxWorld T F) (i : Nat) : Prop := ∃ th, w.threads[i]? = some th ∧ th.ended = false

/-- the tasks that ended according to `log` one after the other, and then alone the first `n` items of task `i` -/
def Spec.alone (t : Table T F) (ks : List (Task T)) (db : KV) (f : F) (log : List (Nat ⊕ List WOp)) (i : Nat)
    (l : List ((Env T × WCall T) ⊕ List WOp)) (n : Nat) : BatchWorld T F :=
  t.batchRun (taskRw ks) (BatchWorld.start db f) (oneByOne ks log ++ (l.take n).map (itemStep i))

/-- no other task has the key of the record -/
def Spec.Private (t : Table T F) (ks : List (Task T)) (i : Nat) (x : T) : Prop :=
  ∀ j k, j ≠ i → ks[j]? = some k → t.key x ∉ taskKeys t k

end Bond
