import Verif.Iter
/-
Refinement of `_iteratorMulti` to one cursor over the concatenation of its parts.
-/
namespace Bond
namespace MCur
variable {α : Type}

/-- number of entries in the children before child `i` -/
def off (parts : List (List α)) (i : Nat) : Nat := (parts.take i).flatten.length

/-- position in the concatenation -/
def abs (parts : List (List α)) (c : MCur) : Pos :=
  match c.pos with
  | .at j => .at (off parts c.idx + j)
  | p => p

/-- invariant between calls -/
def Rest (parts : List (List α)) (c : MCur) : Prop :=
  match c.pos with
  | .at j => c.idx < parts.length ∧ j < len parts c.idx
  | .before => c.idx = 0
  | .after => c.idx = parts.length - 1

theorem off_succ (parts : List (List α)) (i : Nat) : off parts (i + 1) = off parts i + len parts i := by
  unfold off len
  rw [List.take_add_one, List.flatten_append, List.length_append]
  congr 1
  cases h : parts[i]? with
  | none => simp [List.getD, h]
  | some l => simp [List.getD, h]

theorem off_all (parts : List (List α)) : off parts parts.length = parts.flatten.length := by
  unfold off; rw [List.take_length]

theorem off_mono (parts : List (List α)) {i j : Nat} (h : i ≤ j) : off parts i ≤ off parts j := by
  induction j with
  | zero => simp at h; subst h; exact Nat.le_refl _
  | succ j ih =>
    rcases Nat.lt_or_eq_of_le h with h | rfl
    · rw [off_succ]; have := ih (by omega); omega
    · exact Nat.le_refl _

theorem off_le (parts : List (List α)) {i : Nat} (h : i ≤ parts.length) : off parts i ≤ parts.flatten.length := by
  rw [← off_all]; exact off_mono parts h

theorem off_zero (parts : List (List α)) : off parts 0 = 0 := by simp [off]

/-- what `First` does from child `i` on -/
theorem firstLoop_spec (parts : List (List α)) (fuel i : Nat) (c : MCur) (h : i + fuel = parts.length) (hf : 0 < fuel) :
    Rest parts (firstLoop parts fuel i c) ∧ abs parts (firstLoop parts fuel i c) =
      if off parts i < parts.flatten.length then .at (off parts i) else .after := by
  induction fuel generalizing i c with
  | zero => omega
  | succ fuel ih =>
    rw [firstLoop]
    by_cases hl : len parts i = 0
    · simp only [hl, Pos.first, if_true, valid, Pos.valid]
      cases fuel with
      | zero =>
        have hi : i + 1 = parts.length := h
        have : off parts i = parts.flatten.length := by rw [← off_all, ← hi, off_succ, hl]; rfl
        simp only [Bool.false_eq_true, if_false, firstLoop, Rest, abs, this, Nat.lt_irrefl]
        exact ⟨by omega, trivial⟩
      | succ fuel =>
        have := ih (i + 1) ⟨i, .after⟩ (by omega) (by omega)
        rw [off_succ, hl] at this
        exact this
    · have hlt : off parts i < parts.flatten.length := by
        have := off_le parts (i := i + 1) (by omega)
        rw [off_succ] at this; omega
      simp only [Pos.first, if_neg hl, valid, Pos.valid, if_true, Rest, abs, hlt]
      exact ⟨⟨by omega, by omega⟩, rfl⟩

/-- what `Last` does from child `n - 1` down -/
theorem lastLoop_spec (parts : List (List α)) (n : Nat) (c : MCur) (h : n ≤ parts.length) (hn : 0 < n) :
    Rest parts (lastLoop parts n c) ∧ abs parts (lastLoop parts n c) =
      if off parts n = 0 then .before else .at (off parts n - 1) := by
  induction n generalizing c with
  | zero => omega
  | succ n ih =>
    rw [lastLoop]
    by_cases hl : len parts n = 0
    · simp only [hl, Pos.last, if_true, valid, Pos.valid]
      cases n with
      | zero =>
        simp only [Bool.false_eq_true, if_false, lastLoop, Rest, abs]
        rw [off_succ, hl, off_zero]
        exact ⟨trivial, rfl⟩
      | succ n =>
        have := ih ⟨n + 1, .before⟩ (by omega) (by omega)
        rw [off_succ parts (n + 1), hl]
        exact this
    · have hne : off parts (n + 1) ≠ 0 := by rw [off_succ]; omega
      simp only [Pos.last, if_neg hl, valid, Pos.valid, if_true, Rest, abs, if_neg hne]
      rw [off_succ]
      refine ⟨⟨by omega, by omega⟩, ?_⟩
      congr 1; omega

theorem next_invalid {n : Nat} {p : Pos} (h : (Pos.next n p).valid = false) : Pos.next n p = .after := by
  cases p with
  | before => simp only [Pos.next, Pos.first] at *; split at h <;> simp_all [Pos.valid]
  | «at» i => simp only [Pos.next] at *; split at h <;> simp_all [Pos.valid]
  | after => rfl

theorem prev_invalid {n : Nat} {p : Pos} (h : (Pos.prev n p).valid = false) : Pos.prev n p = .before := by
  cases p with
  | before => rfl
  | «at» i => simp only [Pos.prev] at *; split at h <;> simp_all [Pos.valid]
  | after => simp only [Pos.prev, Pos.last] at *; split at h <;> simp_all [Pos.valid]

/-- `Next` when the current child has no further entry -/
theorem nextLoop_exhausted (parts : List (List α)) (fuel : Nat) (c : MCur) (hi : c.idx + fuel = parts.length) (hf : 0 < fuel)
    (hx : (Pos.next (len parts c.idx) c.pos).valid = false) :
    Rest parts (nextLoop parts fuel c) ∧ abs parts (nextLoop parts fuel c) =
      if off parts (c.idx + 1) < parts.flatten.length then .at (off parts (c.idx + 1)) else .after := by
  induction fuel generalizing c with
  | zero => omega
  | succ fuel ih =>
    rw [nextLoop]
    simp only [hx, Bool.false_eq_true, if_false]
    by_cases hlast : c.idx = parts.length - 1
    · have hall : off parts (c.idx + 1) = parts.flatten.length := by
        rw [show c.idx + 1 = parts.length by omega, off_all]
      rw [if_pos hlast, hall, if_neg (Nat.lt_irrefl _), next_invalid hx]
      exact ⟨hlast, rfl⟩
    · rw [if_neg hlast]
      by_cases hl : len parts (c.idx + 1) = 0
      · simp only [hl, Pos.first, if_true, valid, Pos.valid, Bool.false_eq_true, if_false]
        have := ih ⟨c.idx + 1, .after⟩ (by simp only; omega) (by omega) rfl
        simp only at this
        rw [off_succ parts (c.idx + 1), hl] at this
        exact this
      · have hlt : off parts (c.idx + 1) < parts.flatten.length := by
          have := off_le parts (i := c.idx + 1 + 1) (by omega)
          rw [off_succ parts (c.idx + 1)] at this; omega
        simp only [Pos.first, if_neg hl, valid, Pos.valid, if_true, Rest, abs, hlt]
        exact ⟨⟨by omega, by omega⟩, rfl⟩

/-- `Prev` when the current child has no earlier entry -/
theorem prevLoop_exhausted (parts : List (List α)) (i : Nat) (c : MCur) (hi : c.idx = i) (hlt : i < parts.length)
    (hx : (Pos.prev (len parts c.idx) c.pos).valid = false) :
    Rest parts (prevLoop parts (i + 1) c) ∧ abs parts (prevLoop parts (i + 1) c) =
      if off parts c.idx = 0 then .before else .at (off parts c.idx - 1) := by
  induction i generalizing c with
  | zero =>
    rw [prevLoop]
    simp only [hx, Bool.false_eq_true, if_false, hi, if_true, off_zero]
    rw [hi] at hx
    rw [prev_invalid hx]
    simp [Rest, abs]
  | succ i ih =>
    rw [prevLoop]
    simp only [hx, Bool.false_eq_true, if_false]
    rw [if_neg (by omega), hi]
    simp only [Nat.add_sub_cancel]
    by_cases hl : len parts i = 0
    · simp only [hl, Pos.last, if_true, valid, Pos.valid, Bool.false_eq_true, if_false]
      have := ih ⟨i, .before⟩ rfl (by omega) rfl
      rw [off_succ, hl]
      exact this
    · have hne : off parts (i + 1) ≠ 0 := by rw [off_succ]; omega
      simp only [Pos.last, if_neg hl, valid, Pos.valid, if_true, Rest, abs, if_neg hne]
      rw [off_succ]
      refine ⟨⟨by omega, by omega⟩, ?_⟩
      congr 1; omega

/-- one call on one cursor over `n` entries (specification side) -/
def specStep (n : Nat) (p : Pos) : CurOp → Pos
  | .first => Pos.first n
  | .last => Pos.last n
  | .next => Pos.next n p
  | .prev => Pos.prev n p

theorem first_spec (parts : List (List α)) (hp : parts ≠ []) (c : MCur) :
    Rest parts (c.first parts) ∧ abs parts (c.first parts) = Pos.first parts.flatten.length := by
  have hpos : 0 < parts.length := List.length_pos_iff.2 hp
  have := firstLoop_spec parts parts.length 0 c (by omega) hpos
  rw [off_zero] at this
  refine ⟨this.1, ?_⟩
  rw [first, this.2, Pos.first]
  by_cases h : parts.flatten.length = 0
  · rw [if_neg (by omega), if_pos h]
  · rw [if_pos (by omega), if_neg h]

theorem last_spec (parts : List (List α)) (hp : parts ≠ []) (c : MCur) :
    Rest parts (c.last parts) ∧ abs parts (c.last parts) = Pos.last parts.flatten.length := by
  have hpos : 0 < parts.length := List.length_pos_iff.2 hp
  have := lastLoop_spec parts parts.length c (Nat.le_refl _) hpos
  rw [off_all] at this
  exact ⟨this.1, this.2⟩

theorem rest_idx {parts : List (List α)} (hp : parts ≠ []) {c : MCur} (h : Rest parts c) : c.idx < parts.length := by
  have hpos : 0 < parts.length := List.length_pos_iff.2 hp
  unfold Rest at h
  split at h <;> omega

theorem next_spec (parts : List (List α)) (hp : parts ≠ []) (c : MCur) (h : Rest parts c) :
    Rest parts (c.next parts) ∧ abs parts (c.next parts) = Pos.next parts.flatten.length (abs parts c) := by
  have hidx := rest_idx hp h
  unfold next
  cases hv : (Pos.next (len parts c.idx) c.pos).valid with
  | false =>
    have := nextLoop_exhausted parts (parts.length - c.idx) c (by omega) (by omega) hv
    refine ⟨this.1, this.2.trans ?_⟩
    have hx := next_invalid hv
    obtain ⟨i, p⟩ := c
    cases p with
    | before =>
      simp only [Rest] at h
      simp only [Pos.next, Pos.first] at hx
      subst h
      split at hx
      · rename_i hl
        simp only [abs, Pos.next, Pos.first, off_succ, off_zero, hl]
        by_cases h0 : parts.flatten.length = 0
        · rw [if_neg (by omega), if_pos h0]
        · rw [if_pos (by omega), if_neg h0]
      · simp at hx
    | «at» j =>
      simp only [Rest] at h
      simp only [Pos.next] at hx
      split at hx
      · simp at hx
      · rename_i hj
        simp only [abs, Pos.next, off_succ]
        have : off parts i + j + 1 = off parts i + len parts i := by omega
        rw [this]
    | after =>
      simp only [Rest] at h
      simp only [abs, Pos.next]
      rw [h, show parts.length - 1 + 1 = parts.length by omega, off_all, if_neg (Nat.lt_irrefl _)]
  | true =>
    have hn : parts.length - c.idx = (parts.length - c.idx - 1) + 1 := by omega
    rw [hn, nextLoop]
    simp only [hv, if_true]
    obtain ⟨i, p⟩ := c
    simp only at hidx hv ⊢
    cases p with
    | before =>
      simp only [Rest] at h; subst h
      simp only [Pos.next, Pos.first] at hv ⊢
      split at hv
      · simp [Pos.valid] at hv
      · rename_i hl
        have hlt : 0 < parts.flatten.length := by
          have := off_le parts (i := 0 + 1) (by omega)
          rw [off_succ, off_zero] at this; omega
        rw [if_neg hl]
        simp only [Rest, abs, off_zero, Pos.next, Pos.first]
        rw [if_neg (by omega)]
        exact ⟨⟨hidx, by omega⟩, rfl⟩
    | «at» j =>
      simp only [Rest] at h
      simp only [Pos.next] at hv ⊢
      split at hv
      · rename_i hl
        have hlt : off parts i + j + 1 < parts.flatten.length := by
          have := off_le parts (i := i + 1) (by omega)
          rw [off_succ] at this; omega
        rw [if_pos hl]
        simp only [Rest, abs, Pos.next, if_pos hlt]
        exact ⟨⟨hidx, hl⟩, rfl⟩
      · simp [Pos.valid] at hv
    | after => simp [Pos.next, Pos.valid] at hv

theorem prev_spec (parts : List (List α)) (hp : parts ≠ []) (c : MCur) (h : Rest parts c) :
    Rest parts (c.prev parts) ∧ abs parts (c.prev parts) = Pos.prev parts.flatten.length (abs parts c) := by
  have hidx := rest_idx hp h
  unfold prev
  cases hv : (Pos.prev (len parts c.idx) c.pos).valid with
  | false =>
    have := prevLoop_exhausted parts c.idx c rfl hidx hv
    refine ⟨this.1, this.2.trans ?_⟩
    have hx := prev_invalid hv
    obtain ⟨i, p⟩ := c
    simp only at hidx
    cases p with
    | before =>
      simp only [Rest] at h
      subst h
      simp [abs, Pos.prev, off_zero]
    | «at» j =>
      simp only [Rest] at h
      simp only [Pos.prev] at hx
      split at hx
      · rename_i hj; subst hj
        simp only [abs, Pos.prev, Nat.add_zero]
      · simp at hx
    | after =>
      simp only [Rest] at h
      simp only [Pos.prev, Pos.last] at hx
      split at hx
      · rename_i hl
        simp only [abs, Pos.prev, Pos.last]
        have : off parts i = parts.flatten.length := by
          rw [← off_all, show parts.length = i + 1 by omega, off_succ, hl]; rfl
        rw [this]
      · simp at hx
  | true =>
    rw [prevLoop]
    simp only [hv, if_true]
    obtain ⟨i, p⟩ := c
    simp only at hidx hv ⊢
    cases p with
    | before => simp [Pos.prev, Pos.valid] at hv
    | «at» j =>
      simp only [Rest] at h
      simp only [Pos.prev] at hv ⊢
      split at hv
      · simp [Pos.valid] at hv
      · rename_i hl
        rw [if_neg hl]
        simp only [Rest, abs, Pos.prev]
        rw [if_neg (by omega)]
        refine ⟨⟨hidx, by omega⟩, ?_⟩
        congr 1; omega
    | after =>
      simp only [Rest] at h
      simp only [Pos.prev, Pos.last] at hv ⊢
      split at hv
      · simp [Pos.valid] at hv
      · rename_i hl
        have e : off parts i + len parts i = parts.flatten.length := by
          rw [← off_all, show parts.length = i + 1 by omega, off_succ]
        rw [if_neg hl]
        simp only [Rest, abs, Pos.prev, Pos.last]
        rw [if_neg (by omega)]
        refine ⟨⟨hidx, by omega⟩, ?_⟩
        congr 1; omega

theorem flatten_get (parts : List (List α)) (i j : Nat) (hj : j < len parts i) :
    parts.flatten[off parts i + j]? = (parts.getD i [])[j]? := by
  induction parts generalizing i with
  | nil => simp [len] at hj
  | cons l parts ih =>
    cases i with
    | zero =>
      simp only [len, List.getD_cons_zero] at hj
      simp only [off, List.take_zero, List.flatten_nil, List.length_nil, Nat.zero_add, List.flatten_cons,
        List.getD_cons_zero]
      rw [List.getElem?_append_left hj]
    | succ i =>
      simp only [len, List.getD_cons_succ] at hj
      have := ih i hj
      simp only [off, List.take_succ_cons, List.flatten_cons, List.length_append, List.getD_cons_succ] at *
      rw [← this, List.getElem?_append_right (by omega)]
      congr 1; omega

/-- entry under the cursor over one list -/
def specEntry (l : List α) (p : Pos) : Option α :=
  match p with
  | .at i => l[i]?
  | _ => none

theorem entry_spec (parts : List (List α)) (c : MCur) (h : Rest parts c) :
    c.entry parts = specEntry parts.flatten (abs parts c) := by
  obtain ⟨i, p⟩ := c
  cases p with
  | before => rfl
  | after => rfl
  | «at» j =>
    simp only [Rest] at h
    simp only [entry, abs, specEntry]
    rw [flatten_get parts i j h.2]

theorem collect_fwd (parts : List (List α)) (hp : parts ≠ []) (fuel : Nat) (c : MCur) (h : Rest parts c) (k : Nat)
    (hk : abs parts c = .at k ∧ k < parts.flatten.length ∨ abs parts c = .after ∧ k = parts.flatten.length)
    (hf : parts.flatten.length < k + fuel) : collect parts false fuel c = parts.flatten.drop k := by
  induction fuel generalizing c k with
  | zero => rcases hk with ⟨_, hk⟩ | ⟨_, hk⟩ <;> omega
  | succ fuel ih =>
    rw [collect, entry_spec parts c h]
    rcases hk with ⟨hk, hlt⟩ | ⟨hk, hlt⟩
    · rw [hk]
      simp only [specEntry]
      rw [List.getElem?_eq_getElem hlt]
      simp only [Bool.false_eq_true, if_false]
      have hn := next_spec parts hp c h
      rw [hk] at hn
      simp only [Pos.next] at hn
      rw [ih _ hn.1 (k + 1) ?_ (by omega)]
      · rw [List.drop_eq_getElem_cons hlt]
      · by_cases h1 : k + 1 < parts.flatten.length
        · rw [if_pos h1] at hn; exact Or.inl ⟨hn.2, h1⟩
        · rw [if_neg h1] at hn; exact Or.inr ⟨hn.2, by omega⟩
    · rw [hk]
      simp only [specEntry]
      rw [hlt, List.drop_length]

theorem collect_bwd (parts : List (List α)) (hp : parts ≠ []) (fuel : Nat) (c : MCur) (h : Rest parts c) (k : Nat)
    (hkn : k ≤ parts.flatten.length)
    (hk : abs parts c = .at (k - 1) ∧ 0 < k ∨ abs parts c = .before ∧ k = 0)
    (hf : k < fuel) : collect parts true fuel c = (parts.flatten.take k).reverse := by
  induction fuel generalizing c k with
  | zero => omega
  | succ fuel ih =>
    rw [collect, entry_spec parts c h]
    rcases hk with ⟨hk, hlt⟩ | ⟨hk, hlt⟩
    · rw [hk]
      simp only [specEntry]
      obtain ⟨j, rfl⟩ : ∃ j, k = j + 1 := ⟨k - 1, by omega⟩
      simp only [Nat.add_sub_cancel] at hk ⊢
      rw [List.getElem?_eq_getElem (by omega)]
      simp only [if_true]
      have hn := prev_spec parts hp c h
      rw [hk] at hn
      simp only [Pos.prev] at hn
      rw [ih _ hn.1 j (by omega) ?_ (by omega)]
      · rw [List.take_succ_eq_append_getElem (by omega), List.reverse_append]; rfl
      · by_cases h1 : j = 0
        · rw [if_pos h1] at hn; exact Or.inr ⟨hn.2, h1⟩
        · rw [if_neg h1] at hn; exact Or.inl ⟨hn.2, by omega⟩
    · rw [hk]
      simp [specEntry, hlt]

end MCur
end Bond
