import Verif.Restart
import Verif.Spec.Machine
/-
Specification: the end of the process and the next start change nothing, except that an open transaction is lost; documented use is to
save the filter after the last write, or never.
-/
namespace Bond
open Spec
variable {T : Type}

/-- is something stored of the filter: nothing ever, all of it, or perhaps not all of it -/
inductive Spec.Kept
  | never
  | saved
  | changed
deriving DecidableEq

/-- the maps of C97, what is stored of the filter, and whether the last start went well -/
structure Spec.RMaps (T : Type) where
  maps : Maps T
  kept : Kept
  up : Bool

/-- the action is a write call on the table -/
def Spec.isWrite : PStep T → Bool
  | .call _ _ (.write _) => true
  | _ => false

/-- One action: its answer and the maps afterwards. The answers and the map of an action on the table are those of C97. Save fails only if a
write to its store fails. A start fails only if nothing of the filter is stored, and its store cannot be cleared or the table not be
scanned. -/
def Spec.RDoes (g : BloomCfg) (t : Table T g.F) (s : RMaps T) : RStep T → Answer T → RMaps T → Prop
  | .act x, a, s' => Does t s.maps x a s'.maps ∧ s'.up = s.up ∧ s'.kept = (if isWrite x && s.kept == .saved then .changed else s.kept)
  | .save setOk, a, s' => ∃ e : Option Err, a = .done e ∧ ((∀ n, setOk n = true) → e = none) ∧
      s' = { s with kept := if e.isNone then .saved else .changed }
  | .restart delOk scanOk, a, s' => ∃ e : Option Err, a = .done e ∧ (s.kept = .saved ∨ (delOk = true ∧ scanOk = true) → e = none) ∧
      s' = ⟨⟨s.maps.stored, none⟩, s.kept, e.isNone⟩

/-- any number of actions -/
inductive Spec.RBehaves (g : BloomCfg) (t : Table T g.F) : RMaps T → List (RStep T) → List (Answer T) → RMaps T → Prop
  | nil {s : RMaps T} : RBehaves g t s [] [] s
  | cons {s s' s'' : RMaps T} {x : RStep T} {l : List (RStep T)} {a : Answer T} {as : List (Answer T)} (h : RDoes g t s x a s')
      (hl : RBehaves g t s' l as s'') : RBehaves g t s (x :: l) (a :: as) s''

/-- Documented use: after a start that failed only another start; the process ends when nothing of the filter was ever stored, or after
a Save without error with no write since; and if the filter has to be made by a scan no row is below the empty record (see C40). -/
def Spec.RProper1 (g : BloomCfg) (t : Table T g.F) (s : RMaps T) : RStep T → Prop
  | .act x => s.up = true ∧ Proper1 t s.maps x
  | .save _ => s.up = true
  | .restart _ _ => s.kept ≠ .changed ∧ (s.kept = .never → ∀ pk x, s.maps.stored pk = some x → ble (t.pk t.empty) pk = true)

/-- Documented use, whatever the answers are. -/
def Spec.RProper (g : BloomCfg) (t : Table T g.F) : RMaps T → List (RStep T) → Prop
  | _, [] => True
  | s, x :: l => RProper1 g t s x ∧ ∀ a s', RDoes g t s x a s' → RProper g t s' l

end Bond
