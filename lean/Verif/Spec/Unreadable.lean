import Verif.Spec.Scans
import Verif.Spec.LiveScan
/-
Specification side of C91: a table in which some stored rows can no longer be decoded.
-/
namespace Bond
open Spec
variable {T F σ : Type}

/-- The stored bytes of the rows with a primary key in `bad` were replaced by bytes that cannot be decoded, in a table
that held the rows `m`; everything else is as it was. -/
structure Spec.Damaged (t : Table T F) (good V : KV) (m : Rows T) (bad : Bytes → Bool) : Prop where
  holds : Holds t good m
  same : ∀ k, (∀ pk, bad pk = true → k ≠ dataKey t.id pk) → V.get k = good.get k
  row : ∀ pk, bad pk = true → (m pk).isSome ∧ ∃ v, V.get (dataKey t.id pk) = some v ∧ ∀ o, t.deser o v = none

/-- Calling a callback once per row, in order, with what reading that row gives, until it asks to stop. -/
def Spec.runReads (f : σ → Bytes → Cb σ T) : List (Bytes × Except Err T) → σ → ScanOut σ
  | [], s => ⟨s, none⟩
  | (k, r) :: rest, s =>
    let (s', cont, err) := (f s k).run r
    if !cont || err.isSome then ⟨s', err⟩ else Spec.runReads f rest s'

/-- what reading a row gives when the rows `bad` cannot be decoded -/
def Spec.readOf (t : Table T F) (bad : Bytes → Bool) (x : T) : Except Err T := if bad (t.pk x) then .error .deser else .ok x

end Bond
