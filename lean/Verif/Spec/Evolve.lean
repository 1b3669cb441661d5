import Verif.Evolve
import Verif.Spec.Machine
/-
Specification: the map of C97; which indexes are registered; which indexes have the entries of exactly the stored rows; and which index
numbers have no entries at all.
-/
namespace Bond
open Spec
variable {T F : Type}

/-- `reg`: registered with the table object; `live`: the stored entries are those of the stored rows; `clean`: there are none -/
structure Spec.EMaps (T : Type) where
  maps : Maps T
  reg : List (Index T)
  live : Index T → Prop
  clean : UInt8 → Prop

/-- `t` with the given indexes -/
def Spec.withIndexes (t : Table T F) (l : List (Index T)) : Table T F := { t with indexes := l }

/-- the index can be used: its entries are those of the rows, or there are neither -/
def Spec.EMaps.Ready (s : EMaps T) (idx : Index T) : Prop := s.live idx ∨ (s.clean idx.id ∧ ∀ pk, s.maps.stored pk = none)

/-- the number is that of one of the indexes -/
def Spec.numbers (idxs : List (Index T)) (id : UInt8) : Prop := ∃ i ∈ idxs, i.id = id

/-- the action may change rows -/
def Spec.mayChange : PStep T → Bool
  | .call _ _ (.write _) => true
  | .commit _ => true
  | _ => false

/-- after ReIndex of `idxs`, which ended with or without error -/
def Spec.EMaps.reindexed (s : EMaps T) (idxs : List (Index T)) (ok : Prop) : EMaps T :=
  { s with live := fun i => (ok ∧ i ∈ idxs) ∨ (s.live i ∧ ¬ numbers idxs i.id), clean := fun id => s.clean id ∧ ¬ numbers idxs id }

/-- One action: its answer and what is there afterwards. Calls behave as a table with the registered indexes does (C97); they keep the
registered indexes, and if they may change rows no others. AddIndex and ReIndex never change rows; ReIndex fails only if the store does.
A new table object knows no indexes; what is stored remains. -/
def Spec.EDoes (t : Table T F) (s : EMaps T) : EStep T → Answer T → EMaps T → Prop
  | .act x, a, s' => Does (withIndexes t s.reg) s.maps x a s'.maps ∧ s'.reg = s.reg ∧
      s'.live = (fun i => i ∈ s.reg ∨ (s.live i ∧ mayChange x = false)) ∧
      s'.clean = (fun id => s.clean id ∧ (mayChange x = true → ¬ numbers s.reg id))
  | .addIndex idxs false _, a, s' => a = .done none ∧ s' = { s with reg := s.reg ++ idxs }
  | .addIndex idxs true commitOk, a, s' => ∃ e : Option Err, a = .done e ∧ ((∀ n, commitOk n = true) → e = none) ∧
      s' = { s.reindexed idxs (e = none) with reg := s.reg ++ idxs }
  | .reIndex idxs commitOk, a, s' => ∃ e : Option Err, a = .done e ∧ ((∀ n, commitOk n = true) → e = none) ∧ s' = s.reindexed idxs (e = none)
  | .crash idxs _ _, a, s' => a = .done none ∧ s' = { s.reindexed idxs False with maps := ⟨s.maps.stored, none⟩, reg := [] }
  | .reopen, a, s' => a = .done none ∧ s' = { s with maps := ⟨s.maps.stored, none⟩, reg := [] }

/-- any number of actions -/
inductive Spec.EBehaves (t : Table T F) : EMaps T → List (EStep T) → List (Answer T) → EMaps T → Prop
  | nil {s : EMaps T} : EBehaves t s [] [] s
  | cons {s s' s'' : EMaps T} {x : EStep T} {l : List (EStep T)} {a : Answer T} {as : List (Answer T)} (h : EDoes t s x a s')
      (hl : EBehaves t s' l as s'') : EBehaves t s (x :: l) (a :: as) s''

/-- Documented use: calls only if the registered indexes can be used; indexes are added and rebuilt when no transaction is open; their
numbers are new (see C37), not 0, and not 255 if they are rebuilt (see C36); ReIndex is given registered indexes. -/
def Spec.EProper1 (t : Table T F) (s : EMaps T) : EStep T → Prop
  | .act x => (∀ idx ∈ s.reg, s.Ready idx) ∧ Proper1 (withIndexes t s.reg) s.maps x
  | .addIndex idxs re _ => s.maps.tx = none ∧ ((s.reg ++ idxs).map Index.id).Nodup ∧
      ∀ i ∈ idxs, i.id ≠ 0 ∧ (re = true → i.id ≠ 0xFF) ∧ ∀ x, (i.key x).length < 2 ^ 32 ∧ (i.ord x).length < 2 ^ 32
  | .reIndex idxs _ | .crash idxs _ _ => s.maps.tx = none ∧ ∀ i ∈ idxs, i ∈ s.reg ∧ i.id ≠ 0xFF
  | .reopen => True

/-- Documented use, whatever the answers are. -/
def Spec.EProper (t : Table T F) : EMaps T → List (EStep T) → Prop
  | _, [] => True
  | s, x :: l => EProper1 t s x ∧ ∀ a s', EDoes t s x a s' → EProper t s' l

end Bond
