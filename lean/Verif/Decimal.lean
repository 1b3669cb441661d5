import Verif.Bytes
/-
Decimal notation, as Go's fmt verb %d prints a non-negative integer.
-/
namespace Bond

/-- digits of `n`, most significant first; the first argument bounds the number of digits (`%d` of fmt.Sprintf, bond.go:394) -/
def decimalAux : Nat → Nat → Bytes
  | 0, _ => []
  | fuel + 1, n => if n < 10 then [UInt8.ofNat (48 + n)] else decimalAux fuel (n / 10) ++ [UInt8.ofNat (48 + n % 10)]

/-- fmt.Sprintf("%d", n) for n ≥ 0 (used in bloom/bloom_filter.go:204, bond.go:394, 419) -/
def decimal (n : Nat) : Bytes := decimalAux (n + 1) n

theorem decimalAux_fuel : ∀ (f g n : Nat), n < f → n < g → decimalAux f n = decimalAux g n := by
  intro f
  induction f with
  | zero => intro g n h; omega
  | succ f ih =>
    intro g n hf hg
    cases g with
    | zero => omega
    | succ g =>
      unfold decimalAux
      by_cases h : n < 10
      · rw [if_pos h, if_pos h]
      · rw [if_neg h, if_neg h, ih g (n / 10) (by omega) (by omega)]

theorem decimal_eq (n : Nat) : decimal n = if n < 10 then [UInt8.ofNat (48 + n)] else decimal (n / 10) ++ [UInt8.ofNat (48 + n % 10)] := by
  by_cases h : n < 10
  · rw [if_pos h, decimal, decimalAux, if_pos h]
  · rw [if_neg h, decimal, decimalAux, if_neg h, decimal, decimalAux_fuel n (n / 10 + 1) (n / 10) (by omega) (by omega)]

/-- the number denoted by decimal digits (what strconv computes in bond.go:181) -/
def decValue (b : Bytes) : Nat := b.foldl (fun a d => a * 10 + (d.toNat - 48)) 0

theorem decValue_decimal (n : Nat) : decValue (decimal n) = n := by
  induction n using Nat.strongRecOn with
  | _ n ih =>
    rw [decimal_eq]
    by_cases h : n < 10
    · rw [if_pos h]
      simp only [decValue, List.foldl_cons, List.foldl_nil]
      rw [UInt8.toNat_ofNat']
      omega
    · rw [if_neg h, decValue, List.foldl_append]
      have := ih (n / 10) (by omega)
      rw [decValue] at this
      rw [this]
      simp only [List.foldl_cons, List.foldl_nil]
      rw [UInt8.toNat_ofNat']
      omega

theorem decimal_inj {m n : Nat} (h : decimal m = decimal n) : m = n := by
  rw [← decValue_decimal m, h, decValue_decimal]

theorem decimal_digits (n : Nat) : ∀ d ∈ decimal n, 48 ≤ d.toNat ∧ d.toNat ≤ 57 := by
  induction n using Nat.strongRecOn with
  | _ n ih =>
    rw [decimal_eq]
    by_cases h : n < 10
    · rw [if_pos h]
      intro d hd
      simp at hd
      rw [hd, UInt8.toNat_add, UInt8.toNat_ofNat']
      have : (48 : UInt8).toNat = 48 := rfl
      omega
    · rw [if_neg h]
      intro d hd
      rcases List.mem_append.1 hd with hd | hd
      · exact ih (n / 10) (by omega) d hd
      · simp at hd
        rw [hd, UInt8.toNat_add, UInt8.toNat_ofNat']
        have : (48 : UInt8).toNat = 48 := rfl
        omega

theorem decimal_ne_nil (n : Nat) : decimal n ≠ [] := by
  rw [decimal_eq]
  split <;> simp

end Bond
