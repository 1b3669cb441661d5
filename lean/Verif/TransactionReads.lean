import Verif.Transactions
/-
Get and Exist of a goroutine through its own batch, between the calls with which it fills the batch.
-/
namespace Bond
variable {T F : Type}

/-- the batch a goroutine gives to its calls (table.go:343-350) -/
def TxThread.batch (th : TxThread T F) : Option Batch :=
  match th.task with
  | .batch rw _ _ => some ⟨rw, th.st.pre⟩
  | .direct _ _ => none

/-- GetPoint of goroutine `i` with its batch, at this moment (table.go:836-886) -/
def TxWorld.get (t : Table T F) (w : TxWorld T F) (i : Nat) (x : T) : Except Err T :=
  t.getPoint w.filt w.db (w.threads[i]?.bind TxThread.batch) x

/-- Exist of goroutine `i` with its batch, at this moment (table.go:791-816) -/
def TxWorld.exist (t : Table T F) (w : TxWorld T F) (i : Nat) (x : T) : Bool :=
  t.exist w.filt w.db (w.threads[i]?.bind TxThread.batch) x

end Bond
