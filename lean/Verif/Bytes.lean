/-
Byte strings, `bytes.Compare`, big-endian integers.
Models Go's `[]byte` (as immutable lists), `bytes.Compare`/`bytes.Equal` and
`binary.BigEndian.PutUintN`/`Uint32`.
-/
namespace Bond

/-- A Go `[]byte` value (contents only; aliasing is modelled explicitly where a property needs it) (for example bond.go:242). -/
abbrev Bytes := List UInt8

/-- `bytes.Compare(a, b) < 0` (Go standard library): bytewise lexicographic order, a proper prefix is smaller.
Used by pebble's default comparer, which `keys.go:339-343` keeps. -/
def blt : Bytes → Bytes → Bool
  | [], [] => false
  | [], _ :: _ => true
  | _ :: _, [] => false
  | a :: as, b :: bs => if a < b then true else if b < a then false else blt as bs

/-- `bytes.Compare(a, b) <= 0` (used by pebble for the bounds of table.go:949-954). -/
def ble (a b : Bytes) : Bool := !blt b a

theorem blt_irrefl (a : Bytes) : blt a a = false := by
  induction a with
  | nil => rfl
  | cons x xs ih => simp [blt, ih]

theorem blt_nil_right (a : Bytes) : blt a [] = false := by cases a <;> rfl

theorem blt_trans {a b c : Bytes} (h1 : blt a b = true) (h2 : blt b c = true) : blt a c = true := by
  induction a generalizing b c with
  | nil =>
    cases c with
    | nil => simp [blt_nil_right] at h2
    | cons => rfl
  | cons x xs ih =>
    cases b with
    | nil => simp [blt] at h1
    | cons y ys =>
      cases c with
      | nil => simp [blt] at h2
      | cons z zs =>
        simp only [blt] at *
        have ih := @ih ys zs
        grind

theorem blt_tri (a b : Bytes) : blt a b = true ∨ a = b ∨ blt b a = true := by
  induction a generalizing b with
  | nil => cases b <;> simp [blt]
  | cons x xs ih =>
    cases b with
    | nil => simp [blt]
    | cons y ys =>
      simp only [blt]
      have ih := ih ys
      grind

theorem blt_asymm {a b : Bytes} (h : blt a b = true) : blt b a = false := by
  cases hb : blt b a with
  | false => rfl
  | true =>
    have := blt_trans h hb
    rw [blt_irrefl] at this
    exact this.symm

theorem blt_ne {a b : Bytes} (h : blt a b = true) : a ≠ b := by
  intro e; subst e; rw [blt_irrefl] at h; cases h

theorem ble_iff (a b : Bytes) : ble a b = true ↔ a = b ∨ blt a b = true := by
  unfold ble
  rcases blt_tri a b with h | h | h
  · simp [blt_asymm h, h]
  · subst h; simp [blt_irrefl]
  · have := blt_asymm h
    have hne := blt_ne h
    simp [h, this]; exact fun e => hne e.symm

theorem ble_refl (a : Bytes) : ble a a = true := by simp [ble, blt_irrefl]

theorem not_blt_iff (a b : Bytes) : blt a b = false ↔ ble b a = true := by
  simp [ble]

theorem ble_of_blt {a b : Bytes} (h : blt a b = true) : ble a b = true := (ble_iff a b).2 (Or.inr h)

theorem ble_trans {a b c : Bytes} (h1 : ble a b = true) (h2 : ble b c = true) : ble a c = true := by
  rw [ble_iff] at *
  rcases h1 with rfl | h1
  · exact h2
  · rcases h2 with rfl | h2
    · exact Or.inr h1
    · exact Or.inr (blt_trans h1 h2)

theorem blt_of_ble_of_blt {a b c : Bytes} (h1 : ble a b = true) (h2 : blt b c = true) : blt a c = true := by
  rw [ble_iff] at h1
  rcases h1 with rfl | h1
  · exact h2
  · exact blt_trans h1 h2

theorem blt_of_blt_of_ble {a b c : Bytes} (h1 : blt a b = true) (h2 : ble b c = true) : blt a c = true := by
  rw [ble_iff] at h2
  rcases h2 with rfl | h2
  · exact h1
  · exact blt_trans h1 h2

theorem ble_antisymm {a b : Bytes} (h1 : ble a b = true) (h2 : ble b a = true) : a = b := by
  rw [ble_iff] at h1
  rcases h1 with h | h
  · exact h
  · simp [ble, h] at h2

/-- A common prefix does not influence the order. -/
theorem blt_append_left (p a b : Bytes) : blt (p ++ a) (p ++ b) = blt a b := by
  induction p with
  | nil => rfl
  | cons x xs ih => simp [blt, ih]

/-- For parts of equal length the order is decided by the parts first, then by what follows. -/
theorem blt_append_same_len {a b : Bytes} (h : a.length = b.length) (s t : Bytes) :
    blt (a ++ s) (b ++ t) = true ↔ blt a b = true ∨ (a = b ∧ blt s t = true) := by
  induction a generalizing b with
  | nil =>
    cases b with
    | nil => simp [blt]
    | cons => simp at h
  | cons x xs ih =>
    cases b with
    | nil => simp at h
    | cons y ys =>
      have ih := ih (b := ys) (by simpa using h)
      simp only [List.cons_append, blt, List.cons.injEq]
      grind

theorem blt_append_right_self (a : Bytes) (s : Bytes) (hs : s ≠ []) : blt a (a ++ s) = true := by
  induction a with
  | nil => cases s <;> simp_all [blt]
  | cons x xs ih => simp [blt, ih]

theorem ble_append_right_self (a s : Bytes) : ble a (a ++ s) = true := by
  rw [ble_iff]
  by_cases h : s = []
  · simp [h]
  · exact Or.inr (blt_append_right_self a s h)

/-- `binary.BigEndian.PutUintN`: `n` bytes, most significant first (Go `encoding/binary`) (keys.go:33, 208). -/
def beBytes : Nat → Nat → Bytes
  | 0, _ => []
  | n + 1, v => UInt8.ofNat (v / 256 ^ n % 256) :: beBytes n v

/-- `binary.BigEndian.UintN`: the number whose big-endian representation is the list (keys.go:306, 323, 346). -/
def beNat : Bytes → Nat
  | [] => 0
  | b :: bs => b.toNat * 256 ^ bs.length + beNat bs

@[simp] theorem beBytes_length (n v : Nat) : (beBytes n v).length = n := by
  induction n with
  | zero => rfl
  | succ n ih => simp [beBytes, ih]

theorem beNat_lt (b : Bytes) : beNat b < 256 ^ b.length := by
  induction b with
  | nil => simp [beNat]
  | cons x xs ih =>
    have hx : x.toNat < 256 := x.toNat_lt
    simp only [beNat, List.length_cons, Nat.pow_succ]
    have : x.toNat * 256 ^ xs.length ≤ 255 * 256 ^ xs.length := Nat.mul_le_mul_right _ (by omega)
    omega

theorem beNat_beBytes (n v : Nat) : beNat (beBytes n v) = v % 256 ^ n := by
  induction n with
  | zero => simp [beBytes, beNat, Nat.mod_one]
  | succ n ih =>
    simp only [beBytes, beNat, ih, beBytes_length, UInt8.toNat_ofNat']
    have h1 : v / 256 ^ n % 256 % 2 ^ 8 = v / 256 ^ n % 256 := Nat.mod_eq_of_lt (by omega)
    rw [h1, Nat.pow_succ, Nat.mod_mul, Nat.mul_comm]
    omega

theorem beBytes_beNat (b : Bytes) : beBytes b.length (beNat b) = b := by
  have key : ∀ (b : Bytes) (m : Nat), beBytes b.length (m * 256 ^ b.length + beNat b) = b := by
    intro b
    induction b with
    | nil => intro m; rfl
    | cons x xs ih =>
      intro m
      have hx : x.toNat < 256 := x.toNat_lt
      have hl := beNat_lt xs
      have hpos : 0 < 256 ^ xs.length := Nat.pow_pos (by omega)
      simp only [List.length_cons, beBytes, beNat, List.cons.injEq]
      have e : m * 256 ^ (xs.length + 1) + (x.toNat * 256 ^ xs.length + beNat xs)
          = (m * 256 + x.toNat) * 256 ^ xs.length + beNat xs := by
        rw [Nat.pow_succ, Nat.add_mul, Nat.mul_assoc, Nat.mul_comm 256, Nat.add_assoc]
      rw [e]
      refine ⟨?_, ih _⟩
      have d : ((m * 256 + x.toNat) * 256 ^ xs.length + beNat xs) / 256 ^ xs.length = m * 256 + x.toNat := by
        rw [Nat.mul_comm, Nat.mul_add_div hpos, Nat.div_eq_of_lt hl]; omega
      rw [d]
      have : (m * 256 + x.toNat) % 256 = x.toNat := by omega
      rw [this]
      simp
  have := key b 0
  simpa using this

theorem blt_iff_beNat {a b : Bytes} (h : a.length = b.length) : blt a b = true ↔ beNat a < beNat b := by
  induction a generalizing b with
  | nil =>
    cases b with
    | nil => simp [blt, beNat]
    | cons => simp at h
  | cons x xs ih =>
    cases b with
    | nil => simp at h
    | cons y ys =>
      have hl : xs.length = ys.length := by simpa using h
      have ih := ih hl
      have hx := beNat_lt xs
      have hy := beNat_lt ys
      rw [← hl] at hy
      simp only [blt, beNat, ← hl]
      have hm : ∀ p q : Nat, p < q → p * 256 ^ xs.length + 256 ^ xs.length ≤ q * 256 ^ xs.length := by
        intro p q hpq
        have := Nat.mul_le_mul_right (256 ^ xs.length) (show p + 1 ≤ q by omega)
        rw [Nat.add_mul] at this; omega
      by_cases h1 : x < y
      · have h1' : x.toNat < y.toNat := h1
        have := hm _ _ h1'
        simp [h1]; omega
      · by_cases h2 : y < x
        · have h2' : y.toNat < x.toNat := h2
          have := hm _ _ h2'
          simp [h1, h2]; omega
        · have h3 : x.toNat = y.toNat := by
            have a1 : ¬ x.toNat < y.toNat := h1
            have a2 : ¬ y.toNat < x.toNat := h2
            omega
          simp [h1, h2, h3, ih]

theorem blt_beBytes {n v w : Nat} (hv : v < 256 ^ n) (hw : w < 256 ^ n) :
    blt (beBytes n v) (beBytes n w) = true ↔ v < w := by
  rw [blt_iff_beNat (by simp), beNat_beBytes, beNat_beBytes, Nat.mod_eq_of_lt hv, Nat.mod_eq_of_lt hw]

theorem beBytes_inj {n v w : Nat} (hv : v < 256 ^ n) (hw : w < 256 ^ n) (h : beBytes n v = beBytes n w) : v = w := by
  have := congrArg beNat h
  rwa [beNat_beBytes, beNat_beBytes, Nat.mod_eq_of_lt hv, Nat.mod_eq_of_lt hw] at this

end Bond
