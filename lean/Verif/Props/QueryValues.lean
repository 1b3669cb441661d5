import Verif.GoSlice
/-
Property C56: queries are values.
-/
namespace Bond
variable {E : Type}

/-- what clients can do: make a new query, or derive one from an existing query -/
inductive QOp (E : Type)
  | new
  | intersects (i : Nat) (xs : List E)

/-- effect of a step -/
def QOp.run (grow : Nat → Nat → Nat) (h : QHeap E) : QOp E → QHeap E
  | .new => h.new
  | .intersects i xs => h.intersects grow i xs

/-- what a step should do to the list of queries, as plain lists -/
def QOp.spec (ls : List (List E)) : QOp E → List (List E)
  | .new => ls ++ [[]]
  | .intersects i xs =>
    match ls[i]? with
    | none => ls
    | some l => ls ++ [l ++ xs]

/-- the slices are well formed -/
structure QHeap.WF (h : QHeap E) : Prop where
  bound : ∀ s ∈ h.qs, s.len ≤ s.cap
  arr : ∀ s ∈ h.qs, 0 < s.cap → ∃ a, h.heap[s.arr]? = some a ∧ s.cap ≤ a.length

/-- an element of a list with one element added is an old one or the added one -/
theorem getElem?_snoc {α : Type} {l : List α} {x y : α} {i : Nat} (h : (l ++ [x])[i]? = some y) :
    (i < l.length ∧ l[i]? = some y) ∨ (i = l.length ∧ y = x) := by
  rcases Nat.lt_trichotomy i l.length with hi | hi | hi
  · exact Or.inl ⟨hi, by rw [List.getElem?_append_left hi] at h; exact h⟩
  · subst hi
    rw [List.getElem?_append_right (Nat.le_refl _)] at h
    exact Or.inr ⟨rfl, by simpa using h.symm⟩
  · rw [List.getElem?_eq_none (by simp; omega)] at h; simp at h

/-- appending in place reads back the old elements and the new ones, and changes no slice that is not longer -/
theorem append_inplace {heap : GoHeap E} {s : GoSlice} {a : List (Option E)} (ha : heap[s.arr]? = some a) (hcap : s.cap ≤ a.length)
    {xs : List E} (hfit : s.len + xs.length ≤ s.cap) :
    let heap' : GoHeap E := heap.set s.arr (overwrite s.len (xs.map some) a)
    heap'.read { s with len := s.len + xs.length } = heap.read s ++ xs.map some ∧
    ∀ s' : GoSlice, (s'.arr = s.arr → s'.len ≤ s.len) → heap'.read s' = heap.read s' := by
  have hlt : s.arr < heap.length := by
    rcases Nat.lt_or_ge s.arr heap.length with h | h
    · exact h
    · rw [List.getElem?_eq_none h] at ha; simp at ha
  refine ⟨?_, ?_⟩
  · unfold GoHeap.read
    rw [List.getElem?_set_self hlt, ha]
    simp only [Option.getD_some, overwrite]
    have h1 : (a.take s.len ++ xs.map some).length = s.len + xs.length := by
      rw [List.length_append, List.length_take, List.length_map]; omega
    rw [← h1, List.take_left]
  · intro s' hs'
    unfold GoHeap.read
    by_cases he : s'.arr = s.arr
    · rw [he, List.getElem?_set_self hlt, ha]
      simp only [Option.getD_some, overwrite]
      have hle := hs' he
      rw [List.append_assoc, List.take_append_of_le_length (by rw [List.length_take]; omega), List.take_take,
        Nat.min_eq_left hle]
    · rw [List.getElem?_set_ne (Ne.symm he)]

/-- appending into a new array -/
theorem append_grow {heap : GoHeap E} {s : GoSlice} (hs : s.len = (heap.read s).length) (xs : List E) (grow : Nat → Nat → Nat) :
    let heap' : GoHeap E := heap ++ [heap.read s ++ xs.map some ++ List.replicate (grow s.cap (s.len + xs.length) - (s.len + xs.length)) none]
    heap'.read ⟨heap.length, s.len + xs.length, max (s.len + xs.length) (grow s.cap (s.len + xs.length))⟩ = heap.read s ++ xs.map some ∧
    ∀ s' : GoSlice, (s'.arr < heap.length ∨ s'.len = 0) → heap'.read s' = heap.read s' := by
  refine ⟨?_, ?_⟩
  · show GoHeap.read _ _ = _
    have : ((heap ++ [heap.read s ++ xs.map some ++ List.replicate (grow s.cap (s.len + xs.length) - (s.len + xs.length)) none])[heap.length]?) =
        some (heap.read s ++ xs.map some ++ List.replicate (grow s.cap (s.len + xs.length) - (s.len + xs.length)) none) := by simp
    unfold GoHeap.read at this ⊢
    rw [this]
    simp only [Option.getD_some]
    have h1 : (((heap[s.arr]?).getD []).take s.len ++ xs.map some).length = s.len + xs.length := by
      rw [List.length_append, List.length_map]; unfold GoHeap.read at hs; omega
    rw [← h1, List.take_left]
  · intro s' hs'
    unfold GoHeap.read
    rcases hs' with h | h
    · rw [List.getElem?_append_left h]
    · rw [h]; simp

/-- well-formed slices read back as many elements as they are long -/
theorem QHeap.WF.read_length {h : QHeap E} (wf : h.WF) {s : GoSlice} (hs : s ∈ h.qs) : (h.heap.read s).length = s.len := by
  unfold GoHeap.read
  have hb := wf.bound s hs
  by_cases hc : 0 < s.cap
  · obtain ⟨a, ha, hl⟩ := wf.arr s hs hc
    rw [ha, Option.getD_some, List.length_take]; omega
  · rw [List.length_take]; omega

/-- Deriving a query keeps the slices well formed. -/
theorem QHeap.wf_intersects {grow : Nat → Nat → Nat} {h : QHeap E} (wf : h.WF) (i : Nat) (xs : List E) :
    (h.intersects grow i xs).WF := by
  unfold QHeap.intersects
  split
  · exact wf
  · rename_i s hs
    have hmem : s ∈ h.qs := List.mem_of_getElem? hs
    unfold goAppend
    by_cases hfit : s.len + xs.length ≤ s.cap
    · rw [if_pos hfit]
      have hb := wf.bound s hmem
      constructor
      · intro s' hs'
        rw [List.mem_append] at hs'
        rcases hs' with hs' | hs'
        · exact wf.bound s' hs'
        · rw [List.mem_singleton] at hs'; subst hs'; exact hfit
      · intro s' hs' hc
        have key : ∀ s'' ∈ h.qs, 0 < s''.cap → ∃ a, (h.heap.set s.arr (overwrite s.len (xs.map some) ((h.heap[s.arr]?).getD [])))[s''.arr]? = some a ∧
            s''.cap ≤ a.length := by
          intro s'' hs'' hc''
          obtain ⟨a, ha, hl⟩ := wf.arr s'' hs'' hc''
          have hlt : s''.arr < h.heap.length := by
            rcases Nat.lt_or_ge s''.arr h.heap.length with h | h
            · exact h
            · rw [List.getElem?_eq_none h] at ha; simp at ha
          by_cases he : s.arr = s''.arr
          · refine ⟨_, by rw [he]; exact List.getElem?_set_self hlt, ?_⟩
            rw [ha]
            simp only [Option.getD_some, overwrite, List.length_append, List.length_take, List.length_drop, List.length_map]
            omega
          · exact ⟨a, by rw [List.getElem?_set_ne he]; exact ha, hl⟩
        rw [List.mem_append] at hs'
        rcases hs' with hs' | hs'
        · exact key s' hs' hc
        · rw [List.mem_singleton] at hs'; subst hs'
          exact key s hmem hc
    · rw [if_neg hfit]
      constructor
      · intro s' hs'
        rw [List.mem_append] at hs'
        rcases hs' with hs' | hs'
        · exact wf.bound s' hs'
        · rw [List.mem_singleton] at hs'; subst hs'; exact Nat.le_max_left _ _
      · intro s' hs' hc
        rw [List.mem_append] at hs'
        rcases hs' with hs' | hs'
        · obtain ⟨a, ha, hl⟩ := wf.arr s' hs' hc
          refine ⟨a, ?_, hl⟩
          have hlt : s'.arr < h.heap.length := by
            rcases Nat.lt_or_ge s'.arr h.heap.length with h | h
            · exact h
            · rw [List.getElem?_eq_none h] at ha; simp at ha
          rw [List.getElem?_append_left hlt]; exact ha
        · rw [List.mem_singleton] at hs'; subst hs'
          refine ⟨_, by simp; rfl, ?_⟩
          have := wf.read_length hmem
          simp only [List.length_append, List.length_map, List.length_replicate]
          omega

/-- What a derivation does: the new query has the old elements and the new ones. An existing query is unchanged unless it shares
the array and is longer than the one derived from. -/
theorem QHeap.intersects_view {grow : Nat → Nat → Nat} {h : QHeap E} (wf : h.WF) {i : Nat} {s : GoSlice} (hs : h.qs[i]? = some s)
    (xs : List E) :
    (h.intersects grow i xs).view h.qs.length = some (h.heap.read s ++ xs.map some) ∧
    ∀ j s', h.qs[j]? = some s' → (s.len + xs.length ≤ s.cap → s'.arr = s.arr → s'.len ≤ s.len) →
      (h.intersects grow i xs).view j = h.view j := by
  have hmem : s ∈ h.qs := List.mem_of_getElem? hs
  have hrl := wf.read_length hmem
  have hj : ∀ (j : Nat) (s' : GoSlice) (x : GoSlice), h.qs[j]? = some s' → (h.qs ++ [x])[j]? = some s' := by
    intro j s' x hj
    rw [List.getElem?_append_left]
    · exact hj
    · rcases Nat.lt_or_ge j h.qs.length with h' | h'
      · exact h'
      · rw [List.getElem?_eq_none h'] at hj; simp at hj
  unfold QHeap.view QHeap.intersects
  rw [hs]
  simp only
  unfold goAppend
  by_cases hfit : s.len + xs.length ≤ s.cap
  · rw [if_pos hfit]
    by_cases hc : 0 < s.cap
    · obtain ⟨a, ha, hl⟩ := wf.arr s hmem hc
      rw [ha]
      obtain ⟨h1, h2⟩ := append_inplace ha hl hfit
      simp only [Option.getD_some]
      refine ⟨?_, ?_⟩
      · rw [List.getElem?_append_right (Nat.le_refl _)]
        simp only [Nat.sub_self, List.getElem?_cons_zero, Option.map_some]
        rw [h1]
      · intro j s' hs' hcond
        rw [hj j s' _ hs', hs']
        simp only [Option.map_some]
        rw [h2 s' (hcond hfit)]
    · -- nothing to append
      have hx : xs = [] := List.length_eq_zero_iff.1 (by omega)
      have hl0 : s.len = 0 := by omega
      subst hx
      have e : ∀ l : List (Option E), overwrite s.len (([] : List E).map some) l = l := by
        intro l; simp [overwrite, hl0]
      rw [e]
      have e2 : h.heap.set s.arr ((h.heap[s.arr]?).getD []) = h.heap := by
        apply List.ext_getElem?
        intro n
        rw [List.getElem?_set]
        split
        · rename_i hn
          subst hn
          split
          · rename_i hlt; rw [List.getElem?_eq_getElem hlt]; rfl
          · rename_i hlt; rw [List.getElem?_eq_none (by omega)]
        · rfl
      rw [e2]
      refine ⟨by rw [List.getElem?_append_right (Nat.le_refl _)]; simp, ?_⟩
      intro j s' hs' _
      simp only
      rw [hj j s' _ hs', hs']
  · rw [if_neg hfit]
    obtain ⟨h1, h2⟩ := append_grow hrl.symm xs grow
    refine ⟨?_, ?_⟩
    · rw [List.getElem?_append_right (Nat.le_refl _)]
      simp only [Nat.sub_self, List.getElem?_cons_zero, Option.map_some]
      rw [h1]
    · intro j s' hs' _
      simp only
      rw [hj j s' _ hs', hs']
      simp only [Option.map_some]
      rw [h2 s']
      have hm' := List.mem_of_getElem? hs'
      by_cases hc : 0 < s'.cap
      · obtain ⟨a, ha, _⟩ := wf.arr s' hm' hc
        left
        rcases Nat.lt_or_ge s'.arr h.heap.length with h | h
        · exact h
        · rw [List.getElem?_eq_none h] at ha; simp at ha
      · right; have := wf.bound s' hm'; omega

/-! ## C56 -/

/-- the empty start -/
def QHeap.empty : QHeap E := ⟨[], []⟩

/-- C56 is false: from one query with three parts (whose slice has room for a fourth) two queries are derived; the second
derivation replaces the last part of the first. Growth by doubling as in the Go runtime. -/
theorem C56_refuted :
    let base := (((QHeap.empty (E := Nat)).new.intersects doubling 0 [1]).intersects doubling 1 [2]).intersects doubling 2 [3]
    let one := base.intersects doubling 3 [4]
    let two := one.intersects doubling 3 [5]
    one.view 4 = some [some 1, some 2, some 3, some 4] ∧ two.view 4 = some [some 1, some 2, some 3, some 5] := by
  decide

/-- C56, one step: deriving from a query whose slice is full, for example a query without Intersects, changes no existing query, and
gives the expected new one.
Missing for the full C56: slices with spare capacity from which two queries are derived, see `C56_refuted`. -/
theorem C56_full_partial {grow : Nat → Nat → Nat} {h : QHeap E} (wf : h.WF) {i : Nat} {s : GoSlice} (hs : h.qs[i]? = some s)
    (hfull : s.len = s.cap) (xs : List E) :
    (h.intersects grow i xs).view h.qs.length = some (h.heap.read s ++ xs.map some) ∧
    ∀ j < h.qs.length, (h.intersects grow i xs).view j = h.view j := by
  by_cases hx : xs = []
  · -- nothing appended: nothing changes at all
    subst hx
    obtain ⟨h1, h2⟩ := QHeap.intersects_view (grow := grow) wf hs []
    refine ⟨h1, fun j hj => ?_⟩
    have hmem : s ∈ h.qs := List.mem_of_getElem? hs
    unfold QHeap.view QHeap.intersects goAppend
    rw [hs]
    simp only [List.length_nil, Nat.add_zero]
    rw [if_pos (by omega)]
    simp only
    rw [List.getElem?_append_left hj, List.getElem?_eq_getElem hj]
    simp only [Option.map_some, Option.some.injEq]
    have e : ∀ l : List (Option E), overwrite s.len (([] : List E).map some) l = l := by
      intro l; simp [overwrite]
    rw [e]
    have e2 : h.heap.set s.arr ((h.heap[s.arr]?).getD []) = h.heap := by
      apply List.ext_getElem?
      intro n
      rw [List.getElem?_set]
      split
      · rename_i hn
        subst hn
        split
        · rename_i hlt; rw [List.getElem?_eq_getElem hlt]; rfl
        · rename_i hlt; rw [List.getElem?_eq_none (by omega)]
      · rfl
    rw [e2]
  · have hxl : 0 < xs.length := List.length_pos_iff.2 hx
    obtain ⟨h1, h2⟩ := QHeap.intersects_view (grow := grow) wf hs xs
    exact ⟨h1, fun j hj => h2 j _ (List.getElem?_eq_getElem hj) (fun hfit => by omega)⟩

/-- Derivations where no query is derived from twice: `used` are the queries derived from so far. -/
inductive Linear : List (QOp E) → List Nat → Nat → Prop
  | nil : Linear [] [] 0
  | new {ops used n} : Linear ops used n → Linear (ops ++ [.new]) used (n + 1)
  | derive {ops used n i xs} : Linear ops used n → i < n → i ∉ used → xs ≠ [] →
      Linear (ops ++ [.intersects i xs]) (i :: used) (n + 1)

/-- C56 for chains: as long as no query is derived from twice, after any number of steps every query, old or new, has exactly the
parts it was given, whatever capacities the runtime chooses.
Missing for the full C56: deriving twice from one query, see `C56_refuted`. -/
theorem C56_linear_partial (grow : Nat → Nat → Nat) {ops : List (QOp E)} {used : List Nat} {n : Nat} (hl : Linear ops used n) :
    let h := ops.foldl (QOp.run grow) QHeap.empty
    let ls := ops.foldl QOp.spec []
    ls.length = n ∧ ∀ i, h.view i = (ls[i]?).map (fun l => l.map some) := by
  -- invariant: an unused query is the longest on its array
  suffices H : let h := ops.foldl (QOp.run grow) (QHeap.empty (E := E))
      let ls := ops.foldl QOp.spec []
      h.WF ∧ h.qs.length = n ∧ ls.length = n ∧ (∀ i, h.view i = (ls[i]?).map (fun l => l.map some)) ∧
      ∀ i s, i ∉ used → h.qs[i]? = some s → ∀ k s', k ≠ i → h.qs[k]? = some s' → 0 < s'.cap → s'.arr = s.arr → 0 < s.cap → s'.len < s.len by
    exact ⟨H.2.2.1, H.2.2.2.1⟩
  induction hl with
  | nil => exact ⟨⟨by simp [QHeap.empty], by simp [QHeap.empty]⟩, rfl, rfl, by intro i; simp [QHeap.view, QHeap.empty], by simp [QHeap.empty]⟩
  | @new ops used n _ ih =>
    simp only at ih
    rw [List.foldl_append, List.foldl_append]
    obtain ⟨wf, h1, h2, h3, h4⟩ := ih
    generalize ops.foldl (QOp.run grow) (QHeap.empty (E := E)) = h at *
    generalize ops.foldl QOp.spec ([] : List (List E)) = ls at *
    simp only [List.foldl_cons, List.foldl_nil, QOp.run, QOp.spec, QHeap.new]
    refine ⟨⟨?_, ?_⟩, by simp [h1], by simp [h2], ?_, ?_⟩
    · intro s hs
      rw [List.mem_append, List.mem_singleton] at hs
      rcases hs with hs | rfl
      · exact wf.bound s hs
      · exact Nat.le_refl _
    · intro s hs hc
      rw [List.mem_append, List.mem_singleton] at hs
      rcases hs with hs | rfl
      · exact wf.arr s hs hc
      · simp at hc
    · intro i
      have := h3 i
      unfold QHeap.view at this ⊢
      simp only
      rcases Nat.lt_trichotomy i n with hi | hi | hi
      · rw [List.getElem?_append_left (by omega), List.getElem?_append_left (by omega)]; exact this
      · subst hi
        rw [List.getElem?_append_right (by omega), List.getElem?_append_right (by omega), h1, h2]
        simp [GoHeap.read]
      · rw [List.getElem?_eq_none (by simp; omega), List.getElem?_eq_none (by simp; omega)]; rfl
    · intro i s hu hs k s' hk hs' hc he hc'
      rcases getElem?_snoc hs' with ⟨_, hs'⟩ | ⟨_, rfl⟩
      · rcases getElem?_snoc hs with ⟨_, hs⟩ | ⟨_, rfl⟩
        · exact h4 i s hu hs k s' hk hs' hc he hc'
        · simp at hc'
      · simp at hc
  | @derive ops used n i xs _ hi hnu hx ih =>
    simp only at ih
    rw [List.foldl_append, List.foldl_append]
    obtain ⟨wf, h1, h2, h3, h4⟩ := ih
    generalize ops.foldl (QOp.run grow) (QHeap.empty (E := E)) = h at *
    generalize ops.foldl QOp.spec ([] : List (List E)) = ls at *
    simp only [List.foldl_cons, List.foldl_nil, QOp.run, QOp.spec]
    have hxl : 0 < xs.length := List.length_pos_iff.2 hx
    have hsi : h.qs[i]? = some (h.qs[i]'(by omega)) := List.getElem?_eq_getElem (by omega)
    generalize (h.qs[i]'(by omega)) = s at hsi
    have hmem : s ∈ h.qs := List.mem_of_getElem? hsi
    have hli : ls[i]? = some (ls[i]'(by omega)) := List.getElem?_eq_getElem (by omega)
    generalize (ls[i]'(by omega)) = l at hli
    rw [hli]
    obtain ⟨v1, v2⟩ := QHeap.intersects_view (grow := grow) wf hsi xs
    have hread : h.heap.read s = l.map some := by
      have := h3 i
      unfold QHeap.view at this
      rw [hsi, hli] at this
      simpa using this
    have hold : ∀ j < n, (h.intersects grow i xs).view j = h.view j := by
      intro j hj
      refine v2 j _ (List.getElem?_eq_getElem (by omega)) ?_
      intro hfit harr
      have hb := wf.bound s hmem
      have hc : 0 < s.cap := by omega
      by_cases hc' : 0 < (h.qs[j]'(by omega)).cap
      · by_cases hji : j = i
        · subst hji
          have : s = h.qs[j]'(by omega) := by rw [List.getElem?_eq_getElem (by omega)] at hsi; simpa using hsi.symm
          rw [this]; exact Nat.le_refl _
        · exact Nat.le_of_lt (h4 i s hnu hsi j _ hji (List.getElem?_eq_getElem (by omega)) hc' harr hc)
      · have := wf.bound _ (List.getElem_mem (show j < h.qs.length by omega)); omega
    -- the new state
    have hqs : ∃ s', (h.intersects grow i xs).qs = h.qs ++ [s'] ∧
        ((s'.arr = s.arr ∧ s'.len = s.len + xs.length ∧ s.len + xs.length ≤ s.cap) ∨ s'.arr = h.heap.length) := by
      unfold QHeap.intersects goAppend
      rw [hsi]
      simp only
      split
      · rename_i hfit; exact ⟨_, rfl, Or.inl ⟨rfl, rfl, hfit⟩⟩
      · exact ⟨_, rfl, Or.inr rfl⟩
    obtain ⟨s', hqs, hs'⟩ := hqs
    have hbelow : ∀ x ∈ h.qs, 0 < x.cap → x.arr < h.heap.length := by
      intro x hx hc
      obtain ⟨a, ha, _⟩ := wf.arr x hx hc
      rcases Nat.lt_or_ge x.arr h.heap.length with h | h
      · exact h
      · rw [List.getElem?_eq_none h] at ha; simp at ha
    refine ⟨QHeap.wf_intersects wf i xs, by rw [hqs]; simp [h1], by simp [h2], ?_, ?_⟩
    · intro j
      rcases Nat.lt_trichotomy j n with hj | hj | hj
      · rw [hold j hj, h3 j, List.getElem?_append_left (by omega)]
      · subst hj
        rw [← h1, v1, hread, h1, List.getElem?_append_right (by omega), h2]
        simp
      · have e : (h.intersects grow i xs).qs[j]? = none := by rw [hqs]; exact List.getElem?_eq_none (by simp; omega)
        unfold QHeap.view
        rw [e, List.getElem?_eq_none (by simp; omega)]; rfl
    · intro j r hj hr k r' hk hr' hc he hc'
      have hjne : j ≠ i := by intro e; exact hj (by simp [e])
      have hju : j ∉ used := by intro e; exact hj (by simp [e])
      rw [hqs] at hr hr'
      have hbs := wf.bound s hmem
      rcases getElem?_snoc hr with ⟨_, hro⟩ | ⟨hjl, rfl⟩
      · have hrm : r ∈ h.qs := List.mem_of_getElem? hro
        rcases getElem?_snoc hr' with ⟨_, hr'⟩ | ⟨_, rfl⟩
        · exact h4 j r hju hro k r' hk hr' hc he hc'
        · exfalso
          rcases hs' with ⟨ha, hlen, hfit⟩ | ha
          · have hcs : 0 < s.cap := by omega
            have e1 := h4 j r hju hro i s (Ne.symm hjne) hsi hcs (by rw [← ha]; exact he) hc'
            have e2 := h4 i s hnu hsi j r hjne hro hc' (by rw [← ha]; exact he.symm) hcs
            omega
          · have := hbelow r hrm hc'
            omega
      · rcases getElem?_snoc hr' with ⟨_, hr'⟩ | ⟨hkl, _⟩
        · have hrm' : r' ∈ h.qs := List.mem_of_getElem? hr'
          rcases hs' with ⟨ha, hlen, hfit⟩ | ha
          · by_cases hki : k = i
            · subst hki
              have : r' = s := by rw [hsi] at hr'; simpa using hr'.symm
              subst this; omega
            · have := h4 i s hnu hsi k r' hki hr' hc (by rw [he, ha]) (by omega)
              omega
          · exfalso
            have := hbelow r' hrm' hc
            omega
        · exact absurd (hkl.trans hjl.symm) hk

example : Linear ([.new, .intersects 0 [1], .new, .intersects 1 [2, 3]] : List (QOp Nat)) [1, 0] 4 := by
  have h0 : Linear ([] : List (QOp Nat)) [] 0 := .nil
  have h1 := h0.new
  have h2 := Linear.derive (i := 0) (xs := [1]) h1 (by decide) (by decide) (by decide)
  have h3 := h2.new
  exact Linear.derive (i := 1) (xs := [2, 3]) h3 (by decide) (by decide) (by decide)

end Bond
