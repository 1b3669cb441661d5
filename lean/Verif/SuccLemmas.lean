import Verif.KeyLemmas
/-
The key successor (table.go:1262-1276) and the bounds computed with it.
-/
namespace Bond

theorem uint8_lt_succ {b : UInt8} (h : b ≠ 0xFF) : b < b + 1 := by
  have : b.toNat ≠ 255 := fun e => h (UInt8.toNat_inj.1 (by simpa using e))
  have hb : b.toNat < 256 := b.toNat_lt
  rw [UInt8.lt_iff_toNat_lt, UInt8.toNat_add]
  simp
  omega

theorem uint8_succ_le {a b : UInt8} (h : a < b + 1) (hb : b ≠ 0xFF) : a ≤ b := by
  have : b.toNat ≠ 255 := fun e => hb (UInt8.toNat_inj.1 (by simpa using e))
  have hb : b.toNat < 256 := b.toNat_lt
  rw [UInt8.lt_iff_toNat_lt, UInt8.toNat_add] at h
  rw [UInt8.le_iff_toNat_le]
  simp at h
  omega

theorem keySuccessor_length (s : Bytes) : (keySuccessor s).length = s.length := by
  induction s with
  | nil => rfl
  | cons b bs ih =>
    rw [keySuccessor]
    split
    · simp [ih]
    · split <;> simp

/-- the successor is above the key and everything that extends it, unless all bytes are 0xFF -/
theorem lt_keySuccessor (s x : Bytes) (h : s.any (· != 0xFF) = true) : blt (s ++ x) (keySuccessor s) = true := by
  induction s with
  | nil => simp at h
  | cons b bs ih =>
    rw [keySuccessor]
    split
    · rename_i h'
      simp only [List.cons_append, blt, UInt8.lt_irrefl, if_false]
      exact ih h'
    · rename_i h'
      simp only [Bool.not_eq_true] at h'
      rw [List.any_cons, h', Bool.or_false] at h
      rw [if_pos h]
      simp only [List.cons_append, blt]
      rw [if_pos (uint8_lt_succ (by simpa using h))]

theorem keySuccessor_append (a : Bytes) {s : Bytes} (h : s.any (· != 0xFF) = true) :
    keySuccessor (a ++ s) = a ++ keySuccessor s := by
  induction a with
  | nil => rfl
  | cons b a ih =>
    rw [List.cons_append, keySuccessor]
    rw [if_pos (by rw [List.any_append, h, Bool.or_true]), ih]; rfl

theorem keySuccessor_snoc (a : Bytes) {b : UInt8} (h : b ≠ 0xFF) : keySuccessor (a ++ [b]) = a ++ [b + 1] := by
  rw [keySuccessor_append a (by simpa using h)]
  simp [keySuccessor, h]

theorem blt_split {k a c : Bytes} (h : blt k (a ++ c) = true) : blt k a = true ∨ ∃ r, k = a ++ r ∧ blt r c = true := by
  induction a generalizing k with
  | nil => exact Or.inr ⟨k, rfl, h⟩
  | cons x a ih =>
    cases k with
    | nil => left; rfl
    | cons y k =>
      simp only [List.cons_append, blt] at h ⊢
      by_cases h1 : y < x
      · left; simp [h1]
      · by_cases h2 : x < y
        · simp [h1, h2] at h
        · simp only [h1, h2, if_false] at h ⊢
          have : y = x := by
            rw [UInt8.not_lt] at h1 h2; exact UInt8.le_antisymm h2 h1
          rcases ih h with h | ⟨r, e, h3⟩
          · left; exact h
          · right; exact ⟨r, by rw [this, e], h3⟩

/-- keys between a string whose last byte is not 0xFF and its successor are exactly its extensions -/
theorem between_succ {a : Bytes} {b : UInt8} (hb : b ≠ 0xFF) (k : Bytes) :
    (ble (a ++ [b]) k = true ∧ blt k (keySuccessor (a ++ [b])) = true) ↔ ∃ r, k = a ++ [b] ++ r := by
  constructor
  · rintro ⟨h1, h2⟩
    rw [keySuccessor_snoc a hb] at h2
    rcases blt_split h2 with h | ⟨r, rfl, h⟩
    · have : blt k (a ++ [b]) = true := blt_of_blt_of_ble h (ble_append_right_self a [b])
      simp [ble, this] at h1
    · cases r with
      | nil =>
        have : blt (a ++ []) (a ++ [b]) = true := by rw [blt_append_left]; rfl
        simp [ble] at h1
        simp [h1] at this
      | cons y r =>
        have hy : y = b := by
          simp only [ble, Bool.not_eq_true', blt_append_left] at h1
          simp only [blt] at h h1
          have h3 : y < b + 1 := by
            by_cases h3 : y < b + 1
            · exact h3
            · rw [if_neg h3] at h
              split at h
              · simp at h
              · rw [blt_nil_right] at h; simp at h
          have h4 := uint8_succ_le h3 hb
          have h5 : ¬ y < b := by intro h5; simp [h5] at h1
          exact UInt8.le_antisymm h4 (UInt8.not_lt.1 h5)
        subst hy
        exact ⟨r, by simp⟩
  · rintro ⟨r, rfl⟩
    refine ⟨ble_append_right_self _ _, ?_⟩
    apply lt_keySuccessor
    simp [hb]

/-- the successor of an index prefix stays inside the key space of the index -/
theorem keySuccessor_keyPrefix (t i : UInt8) (idx : Bytes) (h : idx.length < 2 ^ 32 - 1) :
    ∃ r, keySuccessor (keyPrefix t i idx) = t :: i :: r := by
  rw [keyPrefix_eq, List.append_assoc, keySuccessor_append]
  · exact ⟨_, rfl⟩
  · rw [List.any_append, Bool.or_eq_true]
    left
    rw [List.any_eq_true]
    apply Classical.byContradiction
    intro hc
    have hall : ∀ x ∈ beBytes 4 idx.length, x = 0xFF := by
      intro x hx
      apply Classical.byContradiction
      intro hne
      exact hc ⟨x, hx, by simpa using hne⟩
    have e : beBytes 4 idx.length = [0xFF, 0xFF, 0xFF, 0xFF] := by
      have hl : (beBytes 4 idx.length).length = 4 := beBytes_length _ _
      revert hl hall
      generalize beBytes 4 idx.length = l
      intro hall hl
      match l, hl with
      | [a, b, c, d], _ => simp at hall; simp [hall]
    have := beNat_beBytes4 (v := idx.length) (by omega)
    rw [e] at this
    have h2 : beNat [0xFF, 0xFF, 0xFF, 0xFF] = 2 ^ 32 - 1 := by decide
    omega

end Bond
