import Verif.ScanLemmas
import Verif.Spec.ScanExact
/-
The bounds of selectors whose keys end with 0xFF.
-/
namespace Bond
open Spec
variable {T F : Type}

theorem ffs_split (k : Bytes) : k = ffs k.length ∨ ∃ a b j, k = a ++ b :: ffs j ∧ b ≠ 0xFF := by
  induction k with
  | nil => exact Or.inl rfl
  | cons c k ih =>
    rcases ih with h | ⟨a, b, j, h, hb⟩
    · by_cases hc : c = 0xFF
      · left
        subst hc
        show 0xFF :: k = ffs (k.length + 1)
        rw [ffs, List.replicate_succ]
        exact congrArg _ h
      · exact Or.inr ⟨[], c, k.length, by rw [List.nil_append]; exact congrArg _ h, hc⟩
    · exact Or.inr ⟨c :: a, b, j, by rw [h]; rfl, hb⟩

theorem any_ffs (j : Nat) : (ffs j).any (· != 0xFF) = false := by
  unfold ffs
  induction j with
  | zero => rfl
  | succ j ih => rw [List.replicate_succ, List.any_cons, ih]; rfl

theorem keySuccessor_ffs (a : Bytes) {b : UInt8} (hb : b ≠ 0xFF) (j : Nat) :
    keySuccessor (a ++ b :: ffs j) = a ++ (b + 1) :: ffs j := by
  rw [keySuccessor_append a (by rw [List.any_cons]; simp [hb])]
  congr 1
  unfold keySuccessor
  rw [any_ffs, if_neg (by decide), if_pos (by simpa using hb)]

theorem ble_ffs (w : Bytes) (j : Nat) (h : w.length ≤ j) : ble w (ffs j) = true := by
  induction j generalizing w with
  | zero =>
    have : w = [] := List.eq_nil_of_length_eq_zero (by omega)
    subst this; rfl
  | succ j ih =>
    cases w with
    | nil => rfl
    | cons c w =>
      unfold ffs
      rw [List.replicate_succ]
      have hc : ¬ (0xFF : UInt8) < c := by
        rw [UInt8.lt_iff_toNat_lt]
        have := c.toNat_lt
        simp; omega
      have := ih w (by simpa using h)
      unfold ble at this ⊢
      simp only [blt]
      rw [if_neg hc]
      split
      · rfl
      · exact this

/-- bytes before `j` bytes 0xFF, if there are at least `j` of them: the first `j` are others -/
theorem blt_ffs (w r : Bytes) : blt (w ++ r) (ffs w.length) = true ↔ w ≠ ffs w.length := by
  have e : ffs w.length = ffs w.length ++ [] := (List.append_nil _).symm
  have hl : w.length = (ffs w.length).length := by unfold ffs; simp
  constructor
  · intro h he
    rw [← he] at h
    have : ble w (w ++ r) = true := ble_append_right_self w r
    unfold ble at this
    rw [h] at this
    exact absurd this (by decide)
  · intro h
    have hb : blt w (ffs w.length) = true := by
      rcases (ble_iff _ _).1 (ble_ffs w w.length (Nat.le_refl _)) with h' | h'
      · exact absurd h' h
      · exact h'
    rw [e, blt_append_same_len hl, hb]
    simp

/-- the strings from one that has a byte other than 0xFF up to its successor -/
theorem between_ffs {a : Bytes} {b : UInt8} (hb : b ≠ 0xFF) (j : Nat) (k : Bytes) :
    (ble (a ++ b :: ffs j) k = true ∧ blt k (a ++ (b + 1) :: ffs j) = true) ↔
      (∃ r, k = a ++ b :: ffs j ++ r) ∨ ∃ r, k = a ++ (b + 1) :: r ∧ blt r (ffs j) = true := by
  have hlt := uint8_lt_succ hb
  constructor
  · rintro ⟨h1, h2⟩
    rcases blt_split h2 with h | ⟨r, rfl, h⟩
    · have : blt k (a ++ b :: ffs j) = true := blt_of_blt_of_ble h (ble_append_right_self a _)
      simp [ble, this] at h1
    · simp only [ble, blt_append_left, Bool.not_eq_true'] at h1
      cases r with
      | nil => exact absurd h1 (by simp [blt])
      | cons y r =>
        simp only [blt] at h h1
        by_cases hy : y < b + 1
        · have h4 := uint8_succ_le hy hb
          have h5 : ¬ y < b := by intro h5; simp [h5] at h1
          have h6 : y = b := UInt8.le_antisymm h4 (UInt8.not_lt.1 h5)
          subst h6
          simp only [UInt8.lt_irrefl, if_false] at h1
          left
          -- `r` is at least `j` bytes 0xFF
          have hj : j ≤ r.length := by
            apply Classical.byContradiction
            intro hc
            have hle := ble_ffs r j (by omega)
            rcases (ble_iff _ _).1 hle with e | e
            · have := congrArg List.length e
              unfold ffs at this; simp at this; omega
            · rw [e] at h1; cases h1
          have hr : r = r.take j ++ r.drop j := (List.take_append_drop j r).symm
          have hlen : (r.take j).length = j := by rw [List.length_take]; omega
          have : r.take j = ffs j := by
            apply Classical.byContradiction
            intro hne
            have := (blt_ffs (r.take j) (r.drop j)).2 (by rw [hlen]; exact hne)
            rw [← hr, hlen, h1] at this
            cases this
          exact ⟨r.drop j, by rw [← this, List.append_assoc, List.cons_append, ← hr]⟩
        · rw [if_neg hy] at h
          by_cases hy2 : b + 1 < y
          · rw [if_pos hy2] at h; cases h
          · rw [if_neg hy2] at h
            have h6 : y = b + 1 := UInt8.le_antisymm (UInt8.not_lt.1 hy2) (UInt8.not_lt.1 hy)
            exact Or.inr ⟨r, by rw [h6], h⟩
  · rintro (⟨r, rfl⟩ | ⟨r, rfl, h⟩)
    · refine ⟨ble_append_right_self _ _, ?_⟩
      rw [← keySuccessor_ffs a hb j]
      apply lt_keySuccessor
      simp [hb]
    · constructor
      · simp only [ble, blt_append_left, Bool.not_eq_true']
        simp only [blt]
        rw [if_neg (fun h => UInt8.lt_asymm h hlt), if_pos hlt]
      · rw [blt_append_left]
        simp only [blt, UInt8.lt_irrefl, if_false]
        exact h

theorem beBytes4_succ {n : Nat} (h : n < 2 ^ 32 - 1) :
    ∃ a b j, beBytes 4 n = a ++ b :: ffs j ∧ b ≠ 0xFF ∧ beBytes 4 (nextLength n) = a ++ (b + 1) :: ffs j ∧
      n < nextLength n ∧ nextLength n < 2 ^ 32 := by
  have hl : (beBytes 4 n).length = 4 := beBytes_length _ _
  have hn := beNat_beBytes4 (v := n) (by omega)
  have key : ∀ (s : Bytes) (m : Nat), s.length = 4 → beNat s = m → beBytes 4 m = s := by
    intro s m h4 hm
    rw [← hm, ← h4]; exact beBytes_beNat s
  have hnum : ∀ c0 c1 c2 c3 : UInt8, beNat [c0, c1, c2, c3] = c0.toNat * 16777216 + c1.toNat * 65536 + c2.toNat * 256 + c3.toNat := by
    intro c0 c1 c2 c3
    simp only [beNat, List.length_cons, List.length_nil]
    omega
  have hff : ∀ c : UInt8, c ≠ 0xFF → c.toNat < 255 ∧ (c + 1).toNat = c.toNat + 1 := by
    intro c hc
    have h1 : c.toNat ≠ 255 := fun e => hc (UInt8.toNat_inj.1 (by simpa using e))
    have h2 := c.toNat_lt
    refine ⟨by omega, ?_⟩
    rw [UInt8.toNat_add]
    simp
    omega
  revert hl hn
  generalize hs : beBytes 4 n = s
  intro hl hn
  match s, hl with
  | [c0, c1, c2, c3], _ =>
    rw [hnum] at hn
    have b0 := c0.toNat_lt
    have b1 := c1.toNat_lt
    have b2 := c2.toNat_lt
    have b3 := c3.toNat_lt
    by_cases h3 : c3 = 0xFF
    · subst h3
      have e3 : (0xFF : UInt8).toNat = 255 := rfl
      rw [e3] at hn
      by_cases h2 : c2 = 0xFF
      · subst h2
        rw [e3] at hn
        by_cases h1 : c1 = 0xFF
        · subst h1
          rw [e3] at hn
          have h0 : c0 ≠ 0xFF := by
            intro e; subst e; rw [e3] at hn; omega
          obtain ⟨g1, g2⟩ := hff c0 h0
          have hnx : nextLength n = n + 16777216 := by
            unfold nextLength
            rw [if_neg (by omega), if_neg (by omega), if_neg (by omega)]
          rw [hnx]
          have e := key [c0 + 1, 0xFF, 0xFF, 0xFF] (n + 16777216) rfl (by rw [hnum, g2]; show (c0.toNat + 1) * 16777216 + 255 * 65536 + 255 * 256 + 255 = _; apply Nat.le_antisymm <;> omega)
          exact ⟨[], c0, 3, rfl, h0, e, by omega, by omega⟩
        · obtain ⟨g1, g2⟩ := hff c1 h1
          have hnx : nextLength n = n + 65536 := by
            unfold nextLength
            rw [if_neg (by omega), if_neg (by omega), if_pos (by omega)]
          rw [hnx]
          have e := key [c0, c1 + 1, 0xFF, 0xFF] (n + 65536) rfl (by rw [hnum, g2]; show c0.toNat * 16777216 + (c1.toNat + 1) * 65536 + 255 * 256 + 255 = _; apply Nat.le_antisymm <;> omega)
          exact ⟨[c0], c1, 2, rfl, h1, e, by omega, by omega⟩
      · obtain ⟨g1, g2⟩ := hff c2 h2
        have hnx : nextLength n = n + 256 := by
          unfold nextLength
          rw [if_neg (by omega), if_pos (by omega)]
        rw [hnx]
        have e := key [c0, c1, c2 + 1, 0xFF] (n + 256) rfl (by rw [hnum, g2]; show c0.toNat * 16777216 + c1.toNat * 65536 + (c2.toNat + 1) * 256 + 255 = _; apply Nat.le_antisymm <;> omega)
        exact ⟨[c0, c1], c2, 1, rfl, h2, e, by omega, by omega⟩
    · obtain ⟨g1, g2⟩ := hff c3 h3
      have hnx : nextLength n = n + 1 := by
        unfold nextLength
        rw [if_pos (by omega)]
      rw [hnx]
      have e := key [c0, c1, c2, c3 + 1] (n + 1) rfl (by rw [hnum, g2]; omega)
      exact ⟨[c0, c1, c2], c3, 0, rfl, h3, e, by omega, by omega⟩

theorem ffs_add (i j : Nat) : ffs i ++ ffs j = ffs (i + j) := by
  unfold ffs; rw [List.replicate_append_replicate]

/-- what the bound of a point holds, for every index value -/
theorem boundP_point_all {t : Table T F} (wf : t.WF) {idx : Index T} (hi : IsIndex t idx) {p : T}
    (hl : (idx.key p).length < 2 ^ 32 - 1) (x : T) :
    BoundP t idx (t.indexKey idx p, keySuccessor (keyPrefix t.id idx.id (idx.key p))) x ↔
      (idx.key x = idx.key p ∧ IdxLe t idx p x) ∨ AlsoSelected (idx.key p) (idx.key x) := by
  have hlv := hi.klen wf x
  have hsame : ∀ {k : Bytes}, idx.key p = k → blt (t.indexKey idx x) (keySuccessor (keyPrefix t.id idx.id k)) = true →
      (∃ r, t.indexKey idx x = keyPrefix t.id idx.id k ++ r) → idx.key x = idx.key p := by
    rintro k rfl - ⟨r, hr⟩
    rw [indexKey_prefix, keyPrefix_eq, keyPrefix_eq] at hr
    have e1 : [t.id, idx.id] ++ (beBytes 4 (idx.key x).length ++ (idx.key x ++ (beBytes 4 (idx.ord x).length ++ (idx.ord x ++ t.pk x)))) =
        [t.id, idx.id] ++ (beBytes 4 (idx.key p).length ++ (idx.key p ++ r)) := by
      simpa only [List.append_assoc] using hr
    have e2 := List.append_inj (List.append_cancel_left e1) (by simp)
    have e3 := beBytes_inj (n := 4) (hi.klen wf x) (hi.klen wf p) e2.1
    exact (List.append_inj e2.2 e3).1
  have hx : t.indexKey idx x = [t.id, idx.id] ++ (beBytes 4 (idx.key x).length ++ (idx.key x ++
      (beBytes 4 (idx.ord x).length ++ (idx.ord x ++ t.pk x)))) := by
    rw [indexKey_prefix, keyPrefix_eq]; simp only [List.append_assoc]
  unfold BoundP
  simp only
  rcases ffs_split (idx.key p) with hff | ⟨a, b, j, hk, hb⟩
  · -- all bytes 0xFF: the length is incremented
    have hlen : (idx.key p).length < 2 ^ 32 - 1 := hl
    obtain ⟨a, b, j, h1, hb, h2, hgt, hlt⟩ := beBytes4_succ hlen
    have hpre : keyPrefix t.id idx.id (idx.key p) = ([t.id, idx.id] ++ a) ++ b :: ffs (j + (idx.key p).length) := by
      rw [keyPrefix_eq, h1, ← ffs_add]
      conv => lhs; rw [hff]
      unfold ffs
      simp
    have hsucc : keySuccessor (keyPrefix t.id idx.id (idx.key p)) =
        [t.id, idx.id] ++ (beBytes 4 (nextLength (idx.key p).length) ++ ffs (idx.key p).length) := by
      rw [hpre, keySuccessor_ffs _ hb, h2, ← ffs_add]
      simp only [List.append_assoc, List.cons_append]
    have hup : blt (t.indexKey idx x) (keySuccessor (keyPrefix t.id idx.id (idx.key p))) = true ↔
        (idx.key x).length < nextLength (idx.key p).length ∨
        ((idx.key x).length = nextLength (idx.key p).length ∧ (idx.key x).take (idx.key p).length ≠ idx.key p) := by
      rw [hsucc, hx, blt_append_left, blt_append_same_len (by simp)]
      rw [blt_beBytes (n := 4) hlv hlt]
      constructor
      · rintro (h | ⟨h, h'⟩)
        · exact Or.inl h
        · have e := beBytes_inj (n := 4) hlv hlt h
          refine Or.inr ⟨e, fun he => ?_⟩
          have e4 : idx.key x = (idx.key x).take (idx.key p).length ++ (idx.key x).drop (idx.key p).length :=
            (List.take_append_drop _ _).symm
          rw [e4, he] at h'
          rw [hff] at h'
          have := (blt_ffs (ffs (idx.key p).length) ((idx.key x).drop (idx.key p).length ++ (beBytes 4 (idx.ord x).length ++ (idx.ord x ++ t.pk x)))).1 (by
            have hll : (ffs (idx.key p).length).length = (idx.key p).length := by unfold ffs; simp
            rw [hll]
            rw [hll] at h'
            simpa only [List.append_assoc] using h')
          apply this
          unfold ffs; simp
      · rintro (h | ⟨h, h'⟩)
        · exact Or.inl h
        · refine Or.inr ⟨by rw [h], ?_⟩
          have hlen' : ((idx.key x).take (idx.key p).length).length = (idx.key p).length := by rw [List.length_take]; omega
          have := (blt_ffs ((idx.key x).take (idx.key p).length)
            ((idx.key x).drop (idx.key p).length ++ (beBytes 4 (idx.ord x).length ++ (idx.ord x ++ t.pk x)))).2 (by
              rw [hlen', ← hff]; exact h')
          rw [hlen', ← List.append_assoc, List.take_append_drop] at this
          exact this
    rw [hup, indexKey_le wf hi]
    constructor
    · rintro ⟨hle, hu⟩
      by_cases he : idx.key x = idx.key p
      · exact Or.inl ⟨he, hle⟩
      · refine Or.inr (Or.inr ⟨hff, ?_⟩)
        rcases hu with hu | hu
        · refine Or.inl ⟨?_, hu⟩
          apply Classical.byContradiction
          intro hc
          apply hle
          unfold IdxLt
          by_cases hll : (idx.key x).length = (idx.key p).length
          · refine Or.inr ⟨hll, Or.inl ?_⟩
            rcases (ble_iff _ _).1 (ble_ffs (idx.key x) (idx.key p).length (by omega)) with e | e
            · exact absurd (by rw [hff]; exact e) he
            · rw [hff]; exact e
          · exact Or.inl (by omega)
        · exact Or.inr hu
    · rintro (⟨he, hle⟩ | (⟨a', b', j', w, hk, hb', -⟩ | ⟨-, h⟩))
      · exact ⟨hle, Or.inl (by rw [he]; exact hgt)⟩
      · rw [hff] at hk
        have : b' ∈ ffs (idx.key p).length := by rw [hk]; simp
        unfold ffs at this
        exact absurd (List.eq_of_mem_replicate this) hb'
      · have hle : IdxLe t idx p x := by
          unfold IdxLe IdxLt
          have : (idx.key p).length < (idx.key x).length := by rcases h with h | h <;> omega
          rintro (h' | ⟨h', -⟩) <;> omega
        exact ⟨hle, h.elim (fun h => Or.inl h.2) Or.inr⟩
  · -- the last byte that is not 0xFF belongs to the index value
    have hpre : keyPrefix t.id idx.id (idx.key p) = ([t.id, idx.id] ++ beBytes 4 (idx.key p).length ++ a) ++ b :: ffs j := by
      rw [keyPrefix_eq, hk]; simp only [List.append_assoc]
    have hplen : (idx.key p).length = a.length + (j + 1) := by
      rw [hk]; unfold ffs; simp
    have hextra : (∃ r, t.indexKey idx x = ([t.id, idx.id] ++ beBytes 4 (idx.key p).length ++ a) ++ (b + 1) :: r ∧ blt r (ffs j) = true) ↔
        ∃ w, idx.key x = a ++ (b + 1) :: w ∧ w.length = j ∧ w ≠ ffs j := by
      constructor
      · rintro ⟨r, hr, h⟩
        rw [hx] at hr
        simp only [List.append_assoc] at hr
        have e2 := List.append_inj (List.append_cancel_left hr) (by simp)
        have e3 := beBytes_inj (n := 4) hlv (hi.klen wf p) e2.1
        have e4 := e2.2
        have hxl : (idx.key x).length = a.length + (j + 1) := by rw [e3, hplen]
        obtain ⟨w, hw⟩ : ∃ w, idx.key x = a ++ (b + 1) :: w := by
          have h1 := congrArg (List.take (a.length + 1)) e4
          rw [List.take_append_of_le_length (by omega)] at h1
          have h2 : (a ++ (b + 1) :: r).take (a.length + 1) = a ++ [b + 1] := by
            rw [List.take_append, List.take_of_length_le (by omega)]
            simp
          rw [h2] at h1
          refine ⟨(idx.key x).drop (a.length + 1), ?_⟩
          have := (List.take_append_drop (a.length + 1) (idx.key x)).symm
          rw [h1] at this
          simpa using this
        have hwl : w.length = j := by
          have := congrArg List.length hw
          simp at this; omega
        refine ⟨w, hw, hwl, fun he => ?_⟩
        rw [hw] at e4
        simp only [List.append_assoc, List.cons_append] at e4
        have e5 := List.append_cancel_left e4
        simp only [List.cons.injEq, true_and] at e5
        rw [← e5] at h
        have := (blt_ffs w _).1 (by rw [hwl]; exact h)
        rw [hwl] at this
        exact this he
      · rintro ⟨w, hw, hwl, hne⟩
        refine ⟨w ++ (beBytes 4 (idx.ord x).length ++ (idx.ord x ++ t.pk x)), ?_, ?_⟩
        · have hxl : (idx.key x).length = (idx.key p).length := by rw [hplen, hw]; simp; omega
          rw [hx, hxl, hw]
          simp only [List.append_assoc, List.cons_append]
        · have := (blt_ffs w (beBytes 4 (idx.ord x).length ++ (idx.ord x ++ t.pk x))).2 (by rw [hwl]; exact hne)
          rwa [hwl] at this
    have hsucc : keySuccessor (keyPrefix t.id idx.id (idx.key p)) =
        ([t.id, idx.id] ++ beBytes 4 (idx.key p).length ++ a) ++ (b + 1) :: ffs j := by
      rw [hpre, keySuccessor_ffs _ hb]
    constructor
    · rintro ⟨h1, h2⟩
      have h1' := ble_trans (ble_prefix_indexKey t idx p) h1
      rw [hsucc] at h2
      have h1'' := h1'
      rw [hpre] at h1''
      rcases (between_ffs hb j _).1 ⟨h1'', h2⟩ with ⟨r, hr⟩ | hr
      · have he := hsame rfl (by rw [hsucc]; exact h2) ⟨r, by rw [hpre]; exact hr⟩
        exact Or.inl ⟨he, (indexKey_le wf hi p x).1 h1⟩
      · obtain ⟨w, g1, g2, g3⟩ := hextra.1 hr
        exact Or.inr (Or.inl ⟨a, b, j, w, hk, hb, g1, g2, g3⟩)
    · rintro (⟨he, hle⟩ | (⟨a', b', j', w, hk', hb', hv, hw, hne⟩ | ⟨hff, -⟩))
      · exact ⟨(indexKey_le wf hi p x).2 hle, point_upper hl he⟩
      · have hj : ∀ {a a' : Bytes} {b b' : UInt8} {j j' : Nat}, b ≠ 0xFF → b' ≠ 0xFF → a ++ b :: ffs j = a' ++ b' :: ffs j' → j ≤ j' → a = a' ∧ b = b' ∧ j = j' := by
          intro a a' b b' j j' hb hb' he hle
          obtain ⟨d, rfl⟩ := Nat.exists_eq_add_of_le hle
          cases d with
          | zero =>
            have := List.append_inj' he (by simp [ffs])
            simp only [List.cons.injEq] at this
            exact ⟨this.1, this.2.1, rfl⟩
          | succ d =>
            exfalso
            have e : ffs (j + (d + 1)) = ffs d ++ 0xFF :: ffs j := by
              rw [Nat.add_comm j, ← ffs_add, ← ffs_add]
              simp [ffs]
            rw [e] at he
            have he' : a ++ b :: ffs j = (a' ++ b' :: ffs d) ++ 0xFF :: ffs j := by rw [he]; simp
            have := List.append_inj' he' (by simp)
            simp only [List.cons.injEq] at this
            exact hb this.2.1
        have heq : a = a' ∧ b = b' ∧ j = j' := by
          rcases Nat.le_total j j' with h | h
          · exact hj hb hb' (hk.symm.trans hk') h
          · obtain ⟨e1, e2, e3⟩ := hj hb' hb (hk'.symm.trans hk) h
            exact ⟨e1.symm, e2.symm, e3.symm⟩
        obtain ⟨rfl, rfl, rfl⟩ := heq
        have hr := hextra.2 ⟨w, hv, hw, hne⟩
        have hbt := (between_ffs hb j _).2 (Or.inr hr)
        rw [hsucc]
        refine ⟨?_, hbt.2⟩
        rw [indexKey_le wf hi]
        unfold IdxLe IdxLt
        have hll : (idx.key x).length = (idx.key p).length := by rw [hplen, hv]; simp; omega
        have hlt : blt (idx.key p) (idx.key x) = true := by
          rw [hk, hv, blt_append_left]
          simp only [blt]
          rw [if_pos (uint8_lt_succ hb)]
        rintro (h | ⟨-, h | ⟨h, -⟩⟩)
        · omega
        · rw [blt_asymm hlt] at h; cases h
        · rw [h, blt_irrefl] at hlt; cases hlt
      · exfalso
        have : b ∈ ffs (idx.key p).length := by rw [← hff, hk]; simp
        unfold ffs at this
        exact hb (List.eq_of_mem_replicate this)

end Bond
