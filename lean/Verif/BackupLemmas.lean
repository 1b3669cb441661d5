import Verif.Backup
/-
Lemmas on Dump and Restore.
-/
namespace Bond

/-! strings -/

theorem strContains_iff (s pat : Bytes) : strContains s pat = true ↔ pat <:+: s := by
  induction s with
  | nil => simp [strContains]
  | cons c s ih =>
    unfold strContains
    rw [Bool.or_eq_true, ih, List.isPrefixOf_iff_prefix, List.infix_cons_iff]

theorem prefix_sep {pat a b : Bytes} {c : UInt8} (hc : c ∉ pat) (h : pat <+: a ++ c :: b) : pat <+: a := by
  rcases Nat.lt_or_ge a.length pat.length with hl | hl
  · exfalso
    have h2 : a ++ [c] <+: pat := by
      refine List.prefix_of_prefix_length_le ⟨b, ?_⟩ h (by simp only [List.length_append, List.length_singleton]; omega)
      simp
    exact hc (h2.subset (by simp))
  · exact List.prefix_of_prefix_length_le h ⟨_, rfl⟩ hl

theorem infix_sep {pat a b : Bytes} {c : UInt8} (hc : c ∉ pat) : pat <:+: a ++ c :: b ↔ pat <:+: a ∨ pat <:+: b := by
  constructor
  · induction a with
    | nil =>
      intro h
      rcases List.infix_cons_iff.1 h with h | h
      · exact Or.inl (prefix_sep (a := []) hc h).isInfix
      · exact Or.inr h
    | cons d a ih =>
      intro h
      rcases List.infix_cons_iff.1 (by simpa using h) with h | h
      · exact Or.inl (prefix_sep (a := d :: a) hc h).isInfix
      · rcases ih h with h | h
        · exact Or.inl (List.infix_cons_iff.2 (Or.inr h))
        · exact Or.inr h
  · rintro (h | h)
    · exact h.trans ⟨[], c :: b, by simp⟩
    · exact h.trans ⟨a ++ [c], [], by simp⟩

theorem infix_head {c : UInt8} {pat s : Bytes} (hs : c ∉ s) : c :: pat <:+: c :: s ↔ c :: pat <+: c :: s := by
  constructor
  · intro h
    rcases List.infix_cons_iff.1 h with h | h
    · exact h
    · exact absurd (h.subset (by simp)) hs
  · exact List.IsPrefix.isInfix

theorem decimal_not {n : Nat} {c : UInt8} (h : ¬ (48 ≤ c.toNat ∧ c.toNat ≤ 57)) : c ∉ decimal n :=
  fun hm => h (decimal_digits n c hm)

theorem tableDirName_slash (t : UInt8) : slash ∉ tableDirName t := by
  intro h
  rcases List.mem_append.1 h with h | h
  · revert h; decide
  · exact decimal_not (by decide) h

theorem sstName_table (n : Nat) (t : UInt8) : ¬ tableDirName t <:+: sstName n := by
  intro h
  have : (95 : UInt8) ∈ sstName n := h.subset (by simp [tableDirName, strTable])
  rcases List.mem_append.1 this with h | h
  · exact decimal_not (by decide) h
  · revert h; decide

theorem sstName_index (n : Nat) : ¬ strIndex <:+: sstName n := by
  intro h
  have : (105 : UInt8) ∈ sstName n := h.subset (by simp [strIndex])
  rcases List.mem_append.1 this with h | h
  · exact decimal_not (by decide) h
  · revert h; decide

/-- the name of the directory of index `i` (0: data) of table `t` -/
def dirName (t i : UInt8) : Bytes := if i = 0 then tableDirName t else indexDirName t i

theorem dirName_table (t t' i : UInt8) : tableDirName t <:+: dirName t' i ↔ decimal t.toNat <+: decimal t'.toNat := by
  have key : ∀ rest : Bytes, (116 : UInt8) ∉ rest → (rest = [] ∨ ∃ r, rest = 95 :: r) →
      (strTable ++ decimal t.toNat <:+: strTable ++ decimal t'.toNat ++ rest ↔ decimal t.toNat <+: decimal t'.toNat) := by
    intro rest h116 hrest
    have e1 : strTable ++ decimal t.toNat = 116 :: ([97, 98, 108, 101, 95] ++ decimal t.toNat) := rfl
    have e2 : strTable ++ decimal t'.toNat ++ rest = 116 :: ([97, 98, 108, 101, 95] ++ (decimal t'.toNat ++ rest)) := by simp [strTable]
    rw [e1, e2, infix_head]
    · rw [← List.cons_append, ← List.cons_append, List.prefix_append_right_inj]
      rcases hrest with rfl | ⟨r, rfl⟩
      · simp
      · exact ⟨prefix_sep (decimal_not (by decide)), fun h => h.trans ⟨_, rfl⟩⟩
    · simp only [List.mem_append, not_or]
      exact ⟨by decide, decimal_not (by decide), h116⟩
  unfold dirName
  split
  · simpa [tableDirName] using key [] (by simp) (Or.inl rfl)
  · have := key (strIndexMid ++ decimal i.toNat) (by
      simp only [List.mem_append, not_or]; exact ⟨by decide, decimal_not (by decide)⟩) (Or.inr ⟨_, rfl⟩)
    simpa [tableDirName, indexDirName] using this

theorem dirName_index (t i : UInt8) : strIndex <:+: dirName t i ↔ i ≠ 0 := by
  unfold dirName
  split
  · rename_i h
    simp only [h, ne_eq, not_true_eq_false, iff_false]
    intro hi
    have : (105 : UInt8) ∈ tableDirName t := hi.subset (by simp [strIndex])
    rcases List.mem_append.1 this with h | h
    · revert h; decide
    · exact decimal_not (by decide) h
  · rename_i h
    simp only [ne_eq, h, not_false_eq_true, iff_true]
    exact ⟨strTable ++ decimal t.toNat ++ [95], 95 :: decimal i.toNat, by simp [indexDirName, strIndexMid, strIndex]⟩

/-- when Restore takes a file of directory `(t, i)` -/
def Sel (base : Bytes) (tables : List UInt8) (withIndex : Bool) (t i : UInt8) : Prop :=
  (∃ r ∈ tables, tableDirName r <:+: base ∨ decimal r.toNat <+: decimal t.toNat) ∧
    (withIndex = true ∨ (¬ strIndex <:+: base ∧ i = 0))

theorem wanted_iff (base : Bytes) (tables : List UInt8) (withIndex : Bool) (d : DumpDir) (n : Nat)
    (hd : d.name = dirName d.table d.index) :
    wanted tables withIndex (filePath base d n) = true ↔ Sel base tables withIndex d.table d.index := by
  have h1 : ∀ r : UInt8, strContains (filePath base d n) (tableDirName r) = true ↔
      tableDirName r <:+: base ∨ decimal r.toNat <+: decimal d.table.toNat := by
    intro r
    rw [strContains_iff, filePath, infix_sep (tableDirName_slash r), infix_sep (tableDirName_slash r), hd, dirName_table]
    simp [sstName_table]
  have h2 : strContains (filePath base d n) strIndex = true ↔ strIndex <:+: base ∨ d.index ≠ 0 := by
    rw [strContains_iff, filePath, infix_sep (by decide), infix_sep (by decide), hd, dirName_index]
    simp [sstName_index]
  unfold wanted Sel
  rw [Bool.and_eq_true, List.any_eq_true, Bool.or_eq_true]
  simp only [h1]
  have h3 : (!strContains (filePath base d n) strIndex) = true ↔ ¬ strIndex <:+: base ∧ d.index = 0 := by
    rw [Bool.not_eq_true', ← Bool.not_eq_true, h2]
    simp
  rw [h3, Or.comm]

/-! files -/

theorem splitSST_flatten (full : List Entry → Bool) (es : List Entry) : ∀ cur, (splitSST full es cur).flatten = cur ++ es := by
  induction es with
  | nil => intro cur; simp [splitSST]
  | cons e es ih =>
    intro cur
    simp only [splitSST]
    split
    · simp [ih]
    · simp [ih]

/-- all keys of `a` are below all keys of `b` -/
def Below (a b : List Entry) : Prop := ∀ x ∈ a, ∀ y ∈ b, blt x.1 y.1 = true

theorem splitSST_below (full : List Entry → Bool) (es : List Entry) : ∀ cur, SortedKV (cur ++ es) →
    (splitSST full es cur).Pairwise Below := by
  induction es with
  | nil => intro cur _; simp [splitSST]
  | cons e es ih =>
    intro cur hs
    have hs' : SortedKV ((cur ++ [e]) ++ es) := by simpa using hs
    simp only [splitSST]
    split
    · refine List.pairwise_cons.2 ⟨fun f hf x hx y hy => ?_, ih [] (List.pairwise_append.1 hs').2.1⟩
      have hm : y ∈ es := by
        have : y ∈ (splitSST full es []).flatten := List.mem_flatten.2 ⟨f, hf, hy⟩
        simpa [splitSST_flatten] using this
      exact (List.pairwise_append.1 hs').2.2 x hx y hm
    · exact ih _ hs'

theorem apart_of_below {a b : List Entry} (h : Below a b ∨ Below b a) : apart a b = true := by
  unfold apart
  split
  · rename_i a1 a2 b1 b2 ha1 ha2 hb1 hb2
    rw [Bool.or_eq_true]
    rcases h with h | h
    · exact Or.inl (h _ (List.mem_of_getLast? ha2) _ (List.mem_of_head? hb1))
    · exact Or.inr (h _ (List.mem_of_getLast? hb2) _ (List.mem_of_head? ha1))
  · rfl

theorem allApart_of_pairwise {l : List (List Entry)} (h : l.Pairwise fun a b => Below a b ∨ Below b a) : allApart l = true := by
  induction l with
  | nil => rfl
  | cons a l ih =>
    obtain ⟨h1, h2⟩ := List.pairwise_cons.1 h
    simp only [allApart, Bool.and_eq_true, List.all_eq_true]
    exact ⟨fun b hb => apart_of_below (h1 b hb), ih h2⟩

/-- adding entries that agree with a store -/
theorem get_addAll (snap : KV) (l : List Entry) (hl : ∀ e ∈ l, e ∈ snap.l) : ∀ (db : KV) (k : Bytes),
    (l.foldl (fun d e => d.set e.1 e.2) db).get k = if k ∈ l.map Prod.fst then snap.get k else db.get k := by
  induction l with
  | nil => intro db k; simp
  | cons e l ih =>
    intro db k
    rw [List.foldl_cons, ih (fun e he => hl e (by simp [he])), KV.get_set]
    by_cases h1 : k ∈ l.map Prod.fst
    · have h2 : k ∈ (e :: l).map Prod.fst := by simp only [List.map_cons, List.mem_cons]; exact Or.inr h1
      rw [if_pos h1, if_pos h2]
    · rw [if_neg h1]
      by_cases h3 : k = e.1
      · subst h3
        rw [if_pos rfl, if_pos (by simp)]
        exact ((snap.get_eq_some_iff e.1 e.2).2 (hl e (by simp))).symm
      · rw [if_neg h3, if_neg (by simp only [List.map_cons, List.mem_cons, not_or]; exact ⟨h3, h1⟩)]

/-! index ids -/

theorem seekGE_some {db : KV} {lo k : Bytes} (h : db.seekGE lo = some k) :
    (∃ v, (k, v) ∈ db.l) ∧ ble lo k = true ∧ ∀ k' v', (k', v') ∈ db.l → ble lo k' = true → ble k k' = true := by
  unfold KV.seekGE at h
  rw [Option.map_eq_some_iff] at h
  obtain ⟨e, he, rfl⟩ := h
  obtain ⟨hp, as, bs, hl, has⟩ := List.find?_eq_some_iff_append.1 he
  refine ⟨⟨e.2, by rw [hl]; simp⟩, by simpa using hp, fun k' v' hm hb => ?_⟩
  have hs := db.sorted
  rw [hl] at hm hs
  rcases List.mem_append.1 hm with hm | hm
  · have := has _ hm
    rw [hb] at this
    simp at this
  · rcases List.mem_cons.1 hm with hm | hm
    · rw [← hm]; exact ble_refl _
    · have := (List.pairwise_cons.1 (List.pairwise_append.1 hs).2.1).1 _ hm
      exact ble_of_blt this

theorem seekGE_none {db : KV} {lo : Bytes} (h : db.seekGE lo = none) : ∀ k v, (k, v) ∈ db.l → ble lo k = false := by
  intro k v hm
  unfold KV.seekGE at h
  rw [Option.map_eq_none_iff, List.find?_eq_none] at h
  simpa using h _ hm

theorem ble_two (t i a b : UInt8) (r : Bytes) : ble [t, i] (a :: b :: r) = true ↔ t < a ∨ (t = a ∧ i ≤ b) := by
  have tri : ∀ x y : UInt8, x < y ∨ x = y ∨ y < x := by
    intro x y
    simp only [UInt8.lt_iff_toNat_lt, ← UInt8.toNat_inj]
    omega
  have irr : ∀ x : UInt8, ¬ x < x := by intro x; simp only [UInt8.lt_iff_toNat_lt]; omega
  have asy : ∀ x y : UInt8, x < y → ¬ y < x := by intro x y; simp only [UInt8.lt_iff_toNat_lt]; omega
  have nle : ∀ x y : UInt8, x ≤ y ↔ ¬ y < x := by intro x y; simp only [UInt8.le_iff_toNat_le, UInt8.lt_iff_toNat_lt]; omega
  rw [nle]
  rcases tri t a with h | h | h
  · have := asy _ _ h
    simp [ble, blt, h, this]
  · subst h
    rcases tri i b with h | h | h
    · simp [ble, blt, irr, h, asy _ _ h]
    · subst h; simp [ble, blt, irr, blt_nil_right]
    · simp [ble, blt, irr, h]
  · have hne : t ≠ a := by rintro rfl; exact irr _ h
    simp [ble, blt, h, asy _ _ h, hne]

theorem indexIDsLoop_spec (db : KV) (t : UInt8) (h2 : ∀ k v, (k, v) ∈ db.l → 2 ≤ k.length) :
    ∀ (fuel : Nat) (i : UInt8), 256 ≤ i.toNat + fuel → ∃ ids, indexIDsLoop db t fuel i = some ids ∧
      ids.Pairwise (· < ·) ∧ ∀ j, j ∈ ids ↔ i ≤ j ∧ ∃ r v, (t :: j :: r, v) ∈ db.l := by
  intro fuel
  induction fuel with
  | zero => intro i h; have := i.toNat_lt; omega
  | succ fuel ih =>
    intro i hf
    unfold indexIDsLoop
    cases hs : db.seekGE [t, i] with
    | none =>
      refine ⟨[], rfl, List.Pairwise.nil, fun j => ⟨fun h => absurd h (by simp), ?_⟩⟩
      rintro ⟨hij, r, v, hm⟩
      have := seekGE_none hs _ _ hm
      rw [(ble_two t i t j r).2 (Or.inr ⟨rfl, hij⟩)] at this
      cases this
    | some k =>
      obtain ⟨⟨v0, hk⟩, hb, hmin⟩ := seekGE_some hs
      match k, h2 _ _ hk, hk, hb, hmin with
      | kt :: ki :: kr, _, hk, hb, hmin =>
        simp only
        have hb' := (ble_two t i kt ki kr).1 hb
        have cmp : ∀ j r v, i ≤ j → (t :: j :: r, v) ∈ db.l → kt = t ∧ ki ≤ j := by
          intro j r v hij hm
          have h1 := hmin _ _ hm ((ble_two t i t j r).2 (Or.inr ⟨rfl, hij⟩))
          have h3 : ble [kt, ki] (t :: j :: r) = true :=
            ble_trans (by
              have := ble_append_right_self [kt, ki] kr
              simpa using this) h1
          rcases (ble_two kt ki t j r).1 h3 with h | ⟨h, h'⟩
          · rcases hb' with h5 | ⟨h5, _⟩
            · simp only [UInt8.lt_iff_toNat_lt] at h h5; omega
            · subst h5; simp only [UInt8.lt_iff_toNat_lt] at h; omega
          · exact ⟨h, h'⟩
        by_cases hkt : kt = t
        · subst hkt
          rw [if_neg (by simp)]
          have hik : i ≤ ki := by
            rcases hb' with h | ⟨_, h⟩
            · simp only [UInt8.lt_iff_toNat_lt] at h; omega
            · exact h
          by_cases h255 : ki = 255
          · rw [if_pos h255]
            refine ⟨[ki], rfl, by simp, fun j => ?_⟩
            rw [List.mem_singleton]
            constructor
            · rintro rfl; exact ⟨hik, kr, v0, hk⟩
            · rintro ⟨hij, r, v, hm⟩
              have := (cmp j r v hij hm).2
              subst h255
              have hl := j.toNat_lt
              rw [UInt8.le_iff_toNat_le] at this
              have e : (255 : UInt8).toNat = 255 := rfl
              rw [e] at this
              apply UInt8.toNat_inj.1
              rw [e]; omega
          · rw [if_neg h255]
            have hlt : ki.toNat < 255 := by
              have := ki.toNat_lt
              rcases Nat.lt_or_ge ki.toNat 255 with h | h
              · exact h
              · exact absurd (UInt8.toNat_inj.1 (by show ki.toNat = 255; omega)) h255
            have hk1 : (ki + 1).toNat = ki.toNat + 1 := by
              rw [UInt8.toNat_add]
              have : (1 : UInt8).toNat = 1 := rfl
              rw [this]; omega
            obtain ⟨ids, e1, e2, e3⟩ := ih (ki + 1) (by
              rw [hk1]
              rw [UInt8.le_iff_toNat_le] at hik
              omega)
            refine ⟨ki :: ids, by rw [e1]; rfl, List.pairwise_cons.2 ⟨fun j hj => ?_, e2⟩, fun j => ?_⟩
            · have := ((e3 j).1 hj).1
              rw [UInt8.le_iff_toNat_le, hk1] at this
              rw [UInt8.lt_iff_toNat_lt]; omega
            · rw [List.mem_cons, e3 j]
              constructor
              · rintro (rfl | ⟨h, hx⟩)
                · exact ⟨hik, kr, v0, hk⟩
                · refine ⟨?_, hx⟩
                  rw [UInt8.le_iff_toNat_le] at h hik ⊢
                  omega
              · rintro ⟨hij, r, v, hm⟩
                have := (cmp j r v hij hm).2
                by_cases he : j = ki
                · exact Or.inl he
                · refine Or.inr ⟨?_, r, v, hm⟩
                  rw [UInt8.le_iff_toNat_le, hk1]
                  rw [UInt8.le_iff_toNat_le] at this
                  have : ki.toNat ≠ j.toNat := fun h => he (UInt8.toNat_inj.1 h).symm
                  omega
        · rw [if_pos hkt]
          refine ⟨[], rfl, List.Pairwise.nil, fun j => ⟨fun h => absurd h (by simp), ?_⟩⟩
          rintro ⟨hij, r, v, hm⟩
          exact absurd (cmp j r v hij hm).1 hkt

end Bond
