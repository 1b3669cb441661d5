import Verif.KeyBuilder
/- Helper lemmas about the key field encoders. -/
namespace Bond

/-- generic signed encoding of `n` bytes, used only to share the proofs of the three widths -/
def encSigned (n : Nat) (i : BitVec (8 * n)) : Bytes :=
  if BitVec.slt 0 i then 0x02 :: beBytes n i.toNat
  else if i = 0 then 0x01 :: beBytes n i.toNat
  else 0x00 :: beBytes n (~~~(-i)).toNat

@[simp] theorem encSigned_length (n i) : (encSigned n i).length = n + 1 := by
  unfold encSigned; split
  · simp
  · split <;> simp

theorem pow8 (n : Nat) : 2 ^ (8 * n) = 256 ^ n := by
  rw [Nat.pow_mul]

theorem toNat_lt256 {n : Nat} (x : BitVec (8 * n)) : x.toNat < 256 ^ n := by
  have := x.isLt; rwa [pow8] at this

theorem not_neg_toNat {w : Nat} (x : BitVec w) (h : x ≠ 0) : (~~~(-x)).toNat = x.toNat - 1 := by
  have h1 : x.toNat ≠ 0 := by
    intro e; apply h; apply BitVec.eq_of_toNat_eq; simpa using e
  have h2 := x.isLt
  rw [BitVec.toNat_not, BitVec.toNat_neg]
  have : (2 ^ w - x.toNat) % 2 ^ w = 2 ^ w - x.toNat := Nat.mod_eq_of_lt (by omega)
  omega

theorem cons_blt_same (c : UInt8) (a b : Bytes) : blt (c :: a) (c :: b) = blt a b := by simp [blt]

theorem encSigned_cases {n : Nat} (x : BitVec (8 * n)) :
    (0 < x.toInt ∧ x.toInt = x.toNat ∧ encSigned n x = 2 :: beBytes n x.toNat) ∨
    (x.toInt = 0 ∧ x.toNat = 0 ∧ encSigned n x = 1 :: beBytes n 0) ∨
    (x.toInt < 0 ∧ x.toInt = x.toNat - (256 ^ n : Nat) ∧ 0 < x.toNat ∧
      encSigned n x = 0 :: beBytes n (x.toNat - 1)) := by
  have z : (0 : BitVec (8 * n)).toInt = 0 := by simp
  have hx := x.isLt
  have tx : x.toInt = if 2 * x.toNat < 2 ^ (8 * n) then (x.toNat : Int)
      else (x.toNat : Int) - ((2 ^ (8 * n) : Nat) : Int) := by
    rw [BitVec.toInt_eq_toNat_cond]
  have sgn : BitVec.slt 0 x = true ↔ 0 < x.toInt := by
    rw [BitVec.slt_iff_toInt_lt, z]
  have nz : x = 0 ↔ x.toNat = 0 := by
    constructor
    · intro h; simp [h]
    · intro h; apply BitVec.eq_of_toNat_eq; simpa using h
  rw [pow8] at tx hx
  unfold encSigned
  by_cases h1 : 0 < x.toInt
  · left
    rw [if_pos (sgn.2 h1)]
    refine ⟨h1, ?_, rfl⟩
    split at tx <;> omega
  · right
    rw [if_neg (by rwa [sgn])]
    by_cases h2 : x = 0
    · left
      have := nz.1 h2
      rw [if_pos h2, this]
      exact ⟨by rw [h2, z], rfl, rfl⟩
    · right
      rw [if_neg h2, not_neg_toNat x h2]
      rw [nz] at h2
      refine ⟨?_, ?_, by omega, rfl⟩ <;> split at tx <;> omega

theorem blt_encSigned {n : Nat} (x y : BitVec (8 * n)) :
    blt (encSigned n x) (encSigned n y) = true ↔ x.toInt < y.toInt := by
  have hx := toNat_lt256 x
  have hy := toNat_lt256 y
  rcases encSigned_cases x with ⟨h1, h2, h3⟩ | ⟨h1, h2, h3⟩ | ⟨h1, h2, h4, h3⟩ <;>
  rcases encSigned_cases y with ⟨k1, k2, k3⟩ | ⟨k1, k2, k3⟩ | ⟨k1, k2, k4, k3⟩ <;>
  rw [h3, k3]
  · rw [cons_blt_same, blt_beBytes hx hy]; omega
  · simp [blt]; omega
  · simp [blt]; omega
  · simp [blt]; omega
  · simp [blt_irrefl]; omega
  · simp [blt]; omega
  · simp [blt]; omega
  · simp [blt]; omega
  · rw [cons_blt_same, blt_beBytes (by omega) (by omega)]; omega

theorem addInt64Field_eq (b : KeyBuilder) (i) :
    b.addInt64Field i = ⟨b.buff ++ [b.fid + 1] ++ encSigned 8 i, b.fid + 1⟩ := by
  unfold KeyBuilder.addInt64Field KeyBuilder.putFieldID encSigned
  simp only []
  split
  · simp
  · split <;> simp

theorem addInt32Field_eq (b : KeyBuilder) (i) :
    b.addInt32Field i = ⟨b.buff ++ [b.fid + 1] ++ encSigned 4 i, b.fid + 1⟩ := by
  unfold KeyBuilder.addInt32Field KeyBuilder.putFieldID encSigned
  simp only []
  split
  · simp
  · split <;> simp

theorem addInt16Field_eq (b : KeyBuilder) (i) :
    b.addInt16Field i = ⟨b.buff ++ [b.fid + 1] ++ encSigned 2 i, b.fid + 1⟩ := by
  unfold KeyBuilder.addInt16Field KeyBuilder.putFieldID encSigned
  simp only []
  split
  · simp
  · split <;> simp

end Bond
