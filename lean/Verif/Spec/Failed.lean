import Verif.Spec.History
/-
Specification: what a write call that fails has done to its batch is what the same call with a part of the rows does.
-/
namespace Bond
open Spec
variable {T F : Type}

/-- `d` are some of the rows `trs`; if there are at most 5000, those with the least keys -/
def Spec.SomeRows (key : T → Bytes) (d trs : List T) : Prop :=
  ∃ r, (d ++ r).Perm trs ∧ (trs.length ≤ 5000 → ∀ x ∈ d, ∀ y ∈ r, ble (key x) (key y) = true)

/-- the call `c'` is the call `c` with a part of its rows: for Delete and the unsafe calls the first ones, for the others those with
the least keys of each slice of 5000 rows -/
def Spec.PartCall (key : T → Bytes) : WCall T → WCall T → Prop
  | .insert d, .insert trs => SomeRows key d trs
  | .update d, .update trs => SomeRows key d trs
  | .upsert oc d, .upsert oc' trs => oc = oc' ∧ SomeRows key d trs
  | .delete d, .delete trs => d <+: trs
  | .unsafeInsert d, .unsafeInsert trs => d <+: trs
  | .unsafeUpdate d olds, .unsafeUpdate trs olds' => olds = olds' ∧ d <+: trs
  | _, _ => False

/-- The calls `ds` are the calls `cs` with the results `es`: those that succeeded as they are, those that failed with a part of
their rows. -/
inductive Spec.Parts (key : T → Bytes) : List (WCall T) → List (WCall T) → List (Option Err) → Prop
  | nil : Parts key [] [] []
  | ok {c : WCall T} {ds cs : List (WCall T)} {es : List (Option Err)} (h : Parts key ds cs es) : Parts key (c :: ds) (c :: cs) (none :: es)
  | failed {d c : WCall T} {e : Err} {ds cs : List (WCall T)} {es : List (Option Err)} (hd : PartCall key d c) (h : Parts key ds cs es) :
      Parts key (d :: ds) (c :: cs) (some e :: es)

end Bond
