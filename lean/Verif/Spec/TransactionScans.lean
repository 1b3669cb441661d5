import Verif.TransactionScans
import Verif.Spec.TransactionReads
import Verif.Spec.Machine
/-
Specification: a goroutine sees the rows of the transactions that have been committed, and on top of them what it has done itself.
-/
namespace Bond
open Spec
variable {T F : Type}

/-- the rows of the committed batches and successful direct calls, in the order in which they ended -/
def Spec.committedRows (t : Table T F) (ks : List (Task T)) (w : TxWorld T F) (m : Rows T) : Rows T :=
  contentB t.pk (oneByOne ks w.log) w.outs (fun _ => []) m

/-- on top of the committed rows, the first `n` items of a batch -/
def Spec.ownRows (t : Table T F) (l : List ((Env T × WCall T) ⊕ List WOp)) (n : Nat) (m : Rows T) : Rows T :=
  ((l.take n).filterMap Sum.getLeft?).foldl (fun m c => effect t.pk m c.2) m

end Bond
