import Verif.Bytes
/-
Model of the parts of pebble that bond uses (external dependency, see DESIGN.md "trusted base"):
an ordered map from byte strings to byte strings, atomic batches of writes, snapshots and range scans.
The map is kept as a strictly sorted list, so that equal contents are equal values.
-/
namespace Bond

/-- strictly increasing keys (pebble, bond.go:125) -/
def SortedKV (l : List (Bytes × Bytes)) : Prop := l.Pairwise (fun a b => blt a.1 b.1 = true)

/-- content of the store (pebble.DB, bond.go:92-232 `_db.pebble`) -/
structure KV where
  l : List (Bytes × Bytes)
  sorted : SortedKV l

namespace KV

/-- raw lookup (pebble, bond.go:242-249) -/
def getL (k : Bytes) : List (Bytes × Bytes) → Option Bytes
  | [] => none
  | (a, v) :: r => if a = k then some v else getL k r

/-- raw insertion keeping the list sorted (pebble, bond.go:251-257) -/
def setL (k v : Bytes) : List (Bytes × Bytes) → List (Bytes × Bytes)
  | [] => [(k, v)]
  | (a, w) :: r => if blt k a then (k, v) :: (a, w) :: r
                   else if a = k then (k, v) :: r
                   else (a, w) :: setL k v r

theorem setL_mem {k v : Bytes} {l : List (Bytes × Bytes)} {p : Bytes × Bytes} (h : p ∈ setL k v l) :
    p = (k, v) ∨ p ∈ l := by
  induction l with
  | nil => simp [setL] at h; exact Or.inl h
  | cons a r ih =>
    obtain ⟨a, w⟩ := a
    unfold setL at h
    split at h
    · simpa using h
    · split at h
      · simp only [List.mem_cons] at h ⊢; rcases h with h | h
        · exact Or.inl h
        · exact Or.inr (Or.inr h)
      · simp only [List.mem_cons] at h ⊢; rcases h with h | h
        · exact Or.inr (Or.inl h)
        · rcases ih h with h | h
          · exact Or.inl h
          · exact Or.inr (Or.inr h)

theorem setL_sorted (k v : Bytes) {l : List (Bytes × Bytes)} (h : SortedKV l) : SortedKV (setL k v l) := by
  induction l with
  | nil => simp [setL, SortedKV]
  | cons a r ih =>
    obtain ⟨a, w⟩ := a
    unfold SortedKV at h ih ⊢
    rw [List.pairwise_cons] at h
    unfold setL
    split
    · rename_i hk
      refine List.Pairwise.cons ?_ (List.Pairwise.cons h.1 h.2)
      intro p hp
      simp only [List.mem_cons] at hp
      rcases hp with rfl | hp
      · exact hk
      · exact blt_trans hk (h.1 p hp)
    · rename_i hk
      split
      · rename_i e; subst e
        exact List.Pairwise.cons h.1 h.2
      · rename_i hne
        refine List.Pairwise.cons ?_ (ih h.2)
        intro p hp
        rcases setL_mem hp with rfl | hp
        · rcases blt_tri a k with h' | h' | h'
          · exact h'
          · exact absurd h' hne
          · exact absurd h' hk
        · exact h.1 p hp

/-- `Get` of a point (pebble `DB.Get`); `none` is `pebble.ErrNotFound` (bond.go:242-249). -/
def get (s : KV) (k : Bytes) : Option Bytes := getL k s.l

/-- `Set` (bond.go:251-257) -/
def set (s : KV) (k v : Bytes) : KV := ⟨setL k v s.l, setL_sorted k v s.sorted⟩

/-- keep the entries whose key satisfies `p` (pebble, bond.go:259-273) -/
def filterKeys (s : KV) (p : Bytes → Bool) : KV := ⟨s.l.filter (fun e => p e.1), s.sorted.filter _⟩

/-- `Delete` (bond.go:259-265) -/
def del (s : KV) (k : Bytes) : KV := s.filterKeys (fun a => a != k)

/-- `DeleteRange [a, b)` (bond.go:267-273) -/
def delRange (s : KV) (a b : Bytes) : KV := s.filterKeys (fun k => !(ble a k && blt k b))

/-- empty store (bond.go:138) -/
def empty : KV := ⟨[], List.Pairwise.nil⟩

/-- the entries an iterator with bounds `[lo, hi)` visits, in order (bond.go:275-281) -/
def scan (s : KV) (lo hi : Bytes) : List (Bytes × Bytes) := s.l.filter (fun e => ble lo e.1 && blt e.1 hi)

end KV

/-- one write of a batch (batch.go:98-108) -/
inductive WOp
  | set (k v : Bytes)
  | del (k : Bytes)
  | delRange (a b : Bytes)
deriving DecidableEq, Repr

/-- effect of one write (bond.go:251-273, batch.go:98-108) -/
def KV.apply1 (s : KV) : WOp → KV
  | .set k v => s.set k v
  | .del k => s.del k
  | .delRange a b => s.delRange a b

/-- effect of an (atomically committed) list of writes, in order (bond.go:294-297, batch.go:134-152) -/
def KV.apply (s : KV) (ops : List WOp) : KV := ops.foldl KV.apply1 s

/-- The state of a `Batch` relevant to reads and writes (batch.go:47-81): `indexed` is
`BatchTypeReadWrite`, `ops` are the writes collected so far. -/
structure Batch where
  indexed : Bool
  ops : List WOp
deriving DecidableEq, Repr

namespace KV

theorem getL_of_mem {l : List (Bytes × Bytes)} (h : SortedKV l) {k v : Bytes} (hm : (k, v) ∈ l) :
    getL k l = some v := by
  induction l with
  | nil => simp at hm
  | cons a r ih =>
    obtain ⟨a, w⟩ := a
    unfold SortedKV at h ih
    rw [List.pairwise_cons] at h
    simp only [List.mem_cons, Prod.mk.injEq] at hm
    unfold getL
    rcases hm with ⟨rfl, rfl⟩ | hm
    · simp
    · have := blt_ne (h.1 _ hm)
      simp only [ne_eq] at this
      rw [if_neg this]; exact ih h.2 hm

theorem mem_of_getL {l : List (Bytes × Bytes)} {k v : Bytes} (h : getL k l = some v) : (k, v) ∈ l := by
  induction l with
  | nil => simp [getL] at h
  | cons a r ih =>
    obtain ⟨a, w⟩ := a
    unfold getL at h
    split at h
    · rename_i e; simp at h; subst e; subst h; simp
    · exact List.mem_cons_of_mem _ (ih h)

theorem get_eq_some_iff (s : KV) (k v : Bytes) : s.get k = some v ↔ (k, v) ∈ s.l :=
  ⟨mem_of_getL, getL_of_mem s.sorted⟩

theorem get_eq_none_iff (s : KV) (k : Bytes) : s.get k = none ↔ ∀ v, (k, v) ∉ s.l := by
  constructor
  · intro h v hv; rw [← get_eq_some_iff, h] at hv; simp at hv
  · intro h
    cases hg : s.get k with
    | none => rfl
    | some v => exact absurd ((get_eq_some_iff s k v).1 hg) (h v)

theorem getL_setL (k v k' : Bytes) {l : List (Bytes × Bytes)} (h : SortedKV l) :
    getL k' (setL k v l) = if k' = k then some v else getL k' l := by
  induction l with
  | nil => simp [setL, getL, eq_comm]
  | cons a r ih =>
    obtain ⟨a, w⟩ := a
    have hs := h
    unfold SortedKV at h ih
    rw [List.pairwise_cons] at h
    unfold setL
    split
    · rename_i hk
      by_cases e : k' = k
      · subst e; simp [getL]
      · rw [if_neg e]
        have : ∀ x y : List (Bytes × Bytes), getL k' ((k, v) :: x) = getL k' x := by
          intro x _; rw [getL, if_neg (fun x => e x.symm)]
        exact this _ []
    · split
      · rename_i hk e; subst e
        by_cases e : k' = a
        · subst e; simp [getL]
        · rw [if_neg e]; unfold getL; rw [if_neg (fun x => e x.symm), if_neg (fun x => e x.symm)]
      · rename_i hne
        unfold getL
        rw [ih h.2]
        by_cases e : k' = k
        · subst e; rw [if_neg hne, if_pos rfl, if_pos rfl]
        · rw [if_neg e, if_neg e]

theorem get_set (s : KV) (k v k' : Bytes) : (s.set k v).get k' = if k' = k then some v else s.get k' :=
  getL_setL k v k' s.sorted

theorem get_filterKeys (s : KV) (p : Bytes → Bool) (k : Bytes) :
    (s.filterKeys p).get k = if p k then s.get k else none := by
  cases hp : p k with
  | false =>
    simp only [Bool.false_eq_true, if_false]
    rw [get_eq_none_iff]
    intro v hv
    simp [filterKeys, hp] at hv
  | true =>
    simp only [if_true]
    cases hg : s.get k with
    | none =>
      rw [get_eq_none_iff] at hg ⊢
      intro v hv
      simp only [filterKeys, List.mem_filter] at hv
      exact hg v hv.1
    | some v =>
      rw [get_eq_some_iff] at hg ⊢
      simp only [filterKeys, List.mem_filter]
      exact ⟨hg, hp⟩

theorem get_del (s : KV) (k k' : Bytes) : (s.del k).get k' = if k' = k then none else s.get k' := by
  unfold del; rw [get_filterKeys]
  by_cases h : k' = k <;> simp [h]

theorem get_delRange (s : KV) (a b k : Bytes) :
    (s.delRange a b).get k = if ble a k = true ∧ blt k b = true then none else s.get k := by
  unfold delRange; rw [get_filterKeys]
  cases ble a k <;> cases blt k b <;> simp

@[simp] theorem get_empty (k : Bytes) : KV.empty.get k = none := rfl

theorem ext {s t : KV} (h : ∀ k, s.get k = t.get k) : s = t := by
  obtain ⟨l, hl⟩ := s
  obtain ⟨m, hm⟩ := t
  have : l = m := by
    have hiff : ∀ p, p ∈ l ↔ p ∈ m := by
      intro ⟨k, v⟩
      rw [← get_eq_some_iff ⟨l, hl⟩ k v, ← get_eq_some_iff ⟨m, hm⟩ k v, h k]
    clear h
    induction l generalizing m with
    | nil =>
      cases m with
      | nil => rfl
      | cons p m => have := (hiff p).2 (by simp); simp at this
    | cons p l ih =>
      cases m with
      | nil => have := (hiff p).1 (by simp); simp at this
      | cons q m =>
        unfold SortedKV at hl hm
        have hl' := List.pairwise_cons.1 hl
        have hm' := List.pairwise_cons.1 hm
        have hpq : p = q := by
          have h1 := (hiff p).1 (by simp)
          have h2 := (hiff q).2 (by simp)
          simp only [List.mem_cons] at h1 h2
          rcases h1 with h1 | h1
          · exact h1
          · rcases h2 with h2 | h2
            · exact h2.symm
            · have a := hm'.1 p h1
              have b := hl'.1 q h2
              rw [blt_asymm a] at b; simp at b
        subst hpq
        congr 1
        apply ih hl'.2 m hm'.2
        intro r
        have hr := hiff r
        simp only [List.mem_cons] at hr
        constructor
        · intro h
          rcases hr.1 (Or.inr h) with e | h'
          · subst e; have := hl'.1 r h; rw [blt_irrefl] at this; simp at this
          · exact h'
        · intro h
          rcases hr.2 (Or.inr h) with e | h'
          · subst e; have := hm'.1 r h; rw [blt_irrefl] at this; simp at this
          · exact h'
  subst this; rfl

theorem apply_nil (s : KV) : s.apply [] = s := rfl
theorem apply_cons (s : KV) (o : WOp) (ops : List WOp) : s.apply (o :: ops) = (s.apply1 o).apply ops := rfl
theorem apply_append (s : KV) (a b : List WOp) : s.apply (a ++ b) = (s.apply a).apply b := by
  simp [apply]

theorem mem_scan (s : KV) (lo hi k v : Bytes) :
    (k, v) ∈ s.scan lo hi ↔ s.get k = some v ∧ ble lo k = true ∧ blt k hi = true := by
  rw [get_eq_some_iff]; simp [scan]

theorem scan_sorted (s : KV) (lo hi : Bytes) : SortedKV (s.scan lo hi) := s.sorted.filter _

end KV

/-- two strictly sorted lists with the same elements are equal -/
theorem sortedKV_ext {l m : List (Bytes × Bytes)} (hl : SortedKV l) (hm : SortedKV m)
    (h : ∀ p, p ∈ l ↔ p ∈ m) : l = m := by
  have : (⟨l, hl⟩ : KV) = ⟨m, hm⟩ := by
    apply KV.ext
    intro k
    cases hg : KV.get ⟨l, hl⟩ k with
    | none =>
      symm; rw [KV.get_eq_none_iff] at hg ⊢
      intro v hv; exact hg v ((h _).2 hv)
    | some v =>
      symm; rw [KV.get_eq_some_iff] at hg ⊢
      exact (h _).1 hg
  exact congrArg KV.l this

end Bond
