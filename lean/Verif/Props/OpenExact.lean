import Verif.Props.Open
/-
C49, exactly: what Open does with whatever is stored as data version.
-/
namespace Bond

/-- the text of the integer `n`: an optional sign and at least one decimal digit -/
def Spec.IntText (s : Bytes) (n : Int) : Prop :=
  ∃ ds : Bytes, ds ≠ [] ∧ (∀ c ∈ ds, 48 ≤ c.toNat ∧ c.toNat ≤ 57) ∧
    (((s = ds ∨ s = 43 :: ds) ∧ n = (ds.foldl (fun a d => a * 10 + (d.toNat - 48)) 0 : Nat)) ∨
     (s = 45 :: ds ∧ n = -((ds.foldl (fun a d => a * 10 + (d.toNat - 48)) 0 : Nat) : Int)))

open Spec

theorem dropSign_digits {ds : Bytes} (h : ∀ c ∈ ds, 48 ≤ c.toNat ∧ c.toNat ≤ 57) : dropSign ds = ds ∧ (ds.head? == some 45) = false := by
  cases ds with
  | nil => exact ⟨rfl, rfl⟩
  | cons c r =>
    have := h c (by simp)
    have h1 : c ≠ 43 := by rintro rfl; exact absurd this.1 (by decide)
    have h2 : c ≠ 45 := by rintro rfl; exact absurd this.1 (by decide)
    refine ⟨?_, by simp [h2]⟩
    unfold dropSign
    split
    · rename_i heq; simp only [List.cons.injEq] at heq; exact absurd heq.1 h1
    · rename_i heq; simp only [List.cons.injEq] at heq; exact absurd heq.1 h2
    · rfl

theorem digits_all {ds : Bytes} (h : ∀ c ∈ ds, 48 ≤ c.toNat ∧ c.toNat ≤ 57) :
    ds.all (fun c => 48 ≤ c.toNat && c.toNat ≤ 57) = true := by
  rw [List.all_eq_true]; intro c hc; have := h c hc; simp [this]

theorem parseInt32_text {s : Bytes} {n : Int} (h : IntText s n) : parseInt32 s = max (-2147483648) (min n 2147483647) := by
  obtain ⟨ds, h1, h2, h3⟩ := h
  unfold parseInt32
  rcases h3 with ⟨rfl | rfl, h3⟩ | ⟨rfl, h3⟩
  · simp only [(dropSign_digits h2).1, (dropSign_digits h2).2, if_neg h1, if_pos (digits_all h2), decValue, Bool.false_eq_true, if_false]
    omega
  · have e : dropSign (43 :: ds) = ds := rfl
    simp only [e, if_neg h1, if_pos (digits_all h2), decValue, List.head?_cons]
    rw [if_neg (by decide)]
    omega
  · have e : dropSign (45 :: ds) = ds := rfl
    simp only [e, if_neg h1, if_pos (digits_all h2), decValue, List.head?_cons, beq_self_eq_true, if_true]
    omega

theorem parseInt32_junk {s : Bytes} (h : ¬ ∃ n, IntText s n) : parseInt32 s = 0 := by
  unfold parseInt32
  simp only
  by_cases h1 : dropSign s = []
  · rw [if_pos h1]
  · rw [if_neg h1]
    by_cases h2 : ((dropSign s).all (fun c => 48 ≤ c.toNat && c.toNat ≤ 57)) = true
    · exfalso
      have h2' : ∀ c ∈ dropSign s, 48 ≤ c.toNat ∧ c.toNat ≤ 57 := by
        intro c hc
        have := List.all_eq_true.1 h2 c hc
        simpa using this
      apply h
      unfold dropSign at h1 h2'
      split at h1
      · rename_i r; exact ⟨_, r, h1, h2', Or.inl ⟨Or.inr rfl, rfl⟩⟩
      · rename_i r; exact ⟨_, r, h1, h2', Or.inr ⟨rfl, rfl⟩⟩
      · rename_i hn1 hn2
        refine ⟨_, s, h1, ?_, Or.inl ⟨Or.inl rfl, rfl⟩⟩
        split at h2'
        · rename_i r; exact absurd rfl (hn1 r)
        · rename_i r; exact absurd rfl (hn2 r)
        · exact h2'
    · rw [if_neg h2]

/-- C49, exactly, for whatever is stored as data version: Open with the recorded format version (of a store that is not open and that pebble accepts)
is refused without a change of the content if it is a number other than 0 and 1; succeeds without a change if it is 1; and otherwise (nothing, zero, or
no number at all) succeeds and sets it to 1. -/
theorem C49_exact (ok : Nat → Option Nat → Bool) {v : Nat} (hv : v < 2 ^ 64) {d : Disk} (hf : d.fmtFile = some (decimal v)) {f : Nat} {c : KV}
    (hp : d.pebble = some (f, c)) (hl : d.locked = false) (hok : ok v (some f) = true) :
    ((∃ s n, c.get bondDataVersionKey = some s ∧ IntText s n ∧ n ≠ 0 ∧ n ≠ 1) →
      (openDB ok v d).2 = some .data ∧ (openDB ok v d).1.pebble = some (max f v, c)) ∧
    ((∃ s, c.get bondDataVersionKey = some s ∧ IntText s 1) →
      (openDB ok v d).2 = none ∧ (openDB ok v d).1.pebble = some (max f v, c)) ∧
    ((∀ s, c.get bondDataVersionKey = some s → IntText s 0 ∨ ¬ ∃ n, IntText s n) →
      (openDB ok v d).2 = none ∧ (openDB ok v d).1.pebble = some (max f v, c.set bondDataVersionKey (decimal 1))) := by
  have h1 : checkFormat none v { d with bondDir := true } = ({ d with bondDir := true }, none) := by
    simp [checkFormat, hf, parseUint_decimal hv]
  have h2 : pebbleOpen ok v { d with bondDir := true } =
      some { d with bondDir := true, pebble := some (max f v, c), locked := true } := by
    simp [pebbleOpen, hl, hp, hok]
  have h3 : openDB ok v d = checkData { d with bondDir := true, pebble := some (max f v, c), locked := true } := by
    simp only [openDB, openCut, h1, h2]
  rw [h3]
  simp only [checkData]
  refine ⟨?_, ?_, ?_⟩
  · rintro ⟨s, n, hs, hn, n0, n1⟩
    have e : dataVersion c = max (-2147483648) (min n 2147483647) := by simp only [dataVersion, hs]; exact parseInt32_text hn
    rw [if_neg (by omega), if_pos (by omega)]
    exact ⟨rfl, rfl⟩
  · rintro ⟨s, hs, hn⟩
    have e : dataVersion c = max (-2147483648) (min 1 2147483647) := by simp only [dataVersion, hs]; exact parseInt32_text hn
    rw [if_neg (by omega), if_neg (by omega)]
    exact ⟨rfl, rfl⟩
  · intro hs
    have e : dataVersion c = 0 := by
      unfold dataVersion
      split
      · rfl
      · rename_i s heq
        rcases hs s heq with h | h
        · rw [parseInt32_text h]; omega
        · exact parseInt32_junk h
    rw [if_pos e]
    exact ⟨rfl, rfl⟩

/-- "-7" is refused, "+1" is version 1, "0", "" and "v2" are overwritten -/
example : IntText [45, 55] (-7) ∧ IntText [43, 49] 1 ∧ IntText [48] 0 ∧ (¬ ∃ n, IntText [] n) ∧
    let open' := fun s => let o := openDB exPebble 13 ⟨true, some (decimal 13), some (13, KV.empty.set bondDataVersionKey s), false⟩
      (o.2, o.1.pebble.map (fun p => p.2.get bondDataVersionKey))
    open' [45, 55] = (some .data, some (some [45, 55])) ∧ open' [43, 49] = (none, some (some [43, 49])) ∧
    open' [48] = (none, some (some [49])) ∧ open' [] = (none, some (some [49])) ∧ open' [118, 50] = (none, some (some [49])) := by
  refine ⟨⟨[55], by decide, by decide, Or.inr ⟨rfl, rfl⟩⟩, ⟨[49], by decide, by decide, Or.inl ⟨Or.inr rfl, rfl⟩⟩,
    ⟨[48], by decide, by decide, Or.inl ⟨Or.inl rfl, rfl⟩⟩, ?_, by decide, by decide, by decide, by decide, by decide⟩
  rintro ⟨n, ds, h1, h2, ⟨rfl | h, -⟩ | ⟨h, -⟩⟩
  · exact h1 rfl
  · cases h
  · cases h

end Bond
