import Verif.TransactionReads
import Verif.Machine
/-
Any read call of a goroutine, with its own batch or without, between the calls with which it fills the batch.
-/
namespace Bond
variable {T F : Type}

/-- A read call of goroutine `i` at this moment, with its batch or without (table.go:791-1000, query.go:131-150). The call is one step; what
happens when others write during a scan is in LiveScan.lean. -/
def TxWorld.read (t : Table T F) (srt : (T → T → Bool) → List T → List T) (fuel : Nat) (w : TxWorld T F) (i : Nat) (inBatch : Bool) (env : Env T)
    (c : TCall T) : Option (Answer T) :=
  t.readCall srt fuel env w.filt w.db (if inBatch then w.threads[i]?.bind TxThread.batch else none) c

end Bond
