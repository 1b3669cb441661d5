import Verif.Database
import Verif.Spec.Machine
/-
Specification: a database is one map per table, and one for the keys of the user; a transaction is a copy of all of them, which
replaces them at its commit.
-/
namespace Bond
open Spec
variable {ι : Type}

/-- the maps -/
structure Spec.DMaps (A : Tables ι) where
  rows : (i : ι) → Maps (A.T i)
  own : Bytes → Option Bytes
  ownTx : Option (Bytes → Option Bytes)

/-- a write to the map of the user's keys -/
def Spec.change (u : Bytes → Option Bytes) : WOp → Bytes → Option Bytes
  | .set k v, k' => if k' = k then some v else u k'
  | .del k, k' => if k' = k then none else u k'
  | .delRange a b, k' => if ble a k' && blt k' b then none else u k'

/-- keys that belong to no table -/
def Spec.UserKey (A : Tables ι) (k : Bytes) : Prop := ∀ i, Outside (A.t i) k

/-- One action: its answer and the maps afterwards. -/
def Spec.DDoes (A : Tables ι) (s : DMaps A) : DStep A → DAnswer A → DMaps A → Prop
  | .call i env inBatch c, a, s' => ∃ ans, a = .table i ans ∧ Does (A.t i) (s.rows i) (.call env inBatch c) ans (s'.rows i) ∧
      (∀ j, j ≠ i → s'.rows j = s.rows j) ∧ s'.own = s.own ∧ s'.ownTx = s.ownTx
  | .write ok inBatch o, a, s' => s'.rows = s.rows ∧
      (match inBatch, s.ownTx with
       | true, some v => a = .done none ∧ s'.own = s.own ∧ s'.ownTx = some (change v o)
       | _, _ => (ok = true → a = .done none) ∧ s'.ownTx = s.ownTx ∧
          ((a = .done none ∧ s'.own = change s.own o) ∨ (a = .done (some .commit) ∧ s'.own = s.own)))
  | .get inBatch k, a, s' => a = .value ((if inBatch then s.ownTx.getD s.own else s.own) k) ∧ s' = s
  | .begin, a, s' => a = .done none ∧ s' = ⟨fun i => ⟨(s.rows i).stored, some (s.rows i).stored⟩, s.own, some s.own⟩
  | .commit ok, a, s' => (ok = true → a = .done none) ∧
      ((a = .done none ∧ s' = ⟨fun i => ⟨(s.rows i).tx.getD (s.rows i).stored, none⟩, s.ownTx.getD s.own, none⟩) ∨
       (a = .done (some .commit) ∧ s' = ⟨fun i => ⟨(s.rows i).stored, none⟩, s.own, none⟩))
  | .discard, a, s' => a = .done none ∧ s' = ⟨fun i => ⟨(s.rows i).stored, none⟩, s.own, none⟩

/-- any number of actions -/
inductive Spec.DBehaves (A : Tables ι) : DMaps A → List (DStep A) → List (DAnswer A) → DMaps A → Prop
  | nil {s : DMaps A} : DBehaves A s [] [] s
  | cons {s s' s'' : DMaps A} {x : DStep A} {l : List (DStep A)} {a : DAnswer A} {as : List (DAnswer A)} (h : DDoes A s x a s')
      (hl : DBehaves A s' l as s'') : DBehaves A s (x :: l) (a :: as) s''

/-- Documented use: calls on tables as in `Proper1`; the user's own reads and writes are of keys that belong to no table, and writes
without the transaction are made only if none is open. -/
def Spec.DProper1 (A : Tables ι) (s : DMaps A) : DStep A → Prop
  | .call i env inBatch c => Proper1 (A.t i) (s.rows i) (.call env inBatch c)
  | .write _ inBatch o => (s.ownTx.isSome → inBatch = true) ∧ ∀ k, o.touches k → UserKey A k
  | .get _ k => UserKey A k
  | _ => True

/-- Documented use, whatever the answers are. -/
def Spec.DProper (A : Tables ι) : DMaps A → List (DStep A) → Prop
  | _, [] => True
  | s, x :: l => DProper1 A s x ∧ ∀ a s', DDoes A s x a s' → DProper A s' l

end Bond
