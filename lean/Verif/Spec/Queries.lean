import Verif.Query
import Verif.Spec.Scans
/-
Specification side of the query properties.
-/
namespace Bond
open Spec
variable {T F : Type}

/-- offset and limit on a list (limit 0 = all) -/
def Spec.page {α : Type} (offset limit : Nat) (l : List α) : List α :=
  if limit = 0 then l.drop offset else (l.drop offset).take limit

/-- the filter of a query (none accepts all) -/
def Spec.accepts (q : Query T) (x : T) : Bool :=
  match q.filter with
  | some p => p x
  | none => true

/-- `less` is a strict weak order -/
structure Spec.StrictWeak (less : T → T → Bool) : Prop where
  irrefl : ∀ a, less a a = false
  trans : ∀ a b c, less a b = true → less b c = true → less a c = true
  incomp : ∀ a b c, less a b = false → less b c = false → less a c = false

/-- What Go's `sort.Slice` promises: for a strict weak order, a sorted permutation. -/
def Spec.SortSlice (srt : (T → T → Bool) → List T → List T) : Prop :=
  ∀ less, StrictWeak less → ∀ l, (srt less l).Perm l ∧ (srt less l).Pairwise (fun a b => less b a = false)

/-- `Execute` ends without an error and returns `rows`. -/
def Returns (t : Table T F) (env : Env T) (srt : (T → T → Bool) → List T → List T) (filt : F) (db : KV) (ob : Option Batch)
    (q : Query T) (rows : List T) : Prop :=
  ∃ N, ∀ fuel, N ≤ fuel → q.execute t env srt filt db ob fuel = some (.ok rows)

/-- A client that reads a query page by page: `exec a page` says that the query after row `a` (none: from the start) returns
`page`; the client stops at the first empty page and otherwise continues after the last row of the page. -/
inductive Spec.Pages (exec : Option T → List T → Prop) : Option T → List (List T) → Prop
  | stop {a} : exec a [] → Spec.Pages exec a []
  | more {a p x rest} : exec a (p ++ [x]) → Spec.Pages exec (some x) rest → Spec.Pages exec a ((p ++ [x]) :: rest)

end Bond
