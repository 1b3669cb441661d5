import Verif.BackupLemmas
/-
What Restore makes of a dump.
-/
namespace Bond

/-- the directory Dump makes for index `i` (0: data) of table `t` -/
def mkDir (snap : KV) (full : List Entry → Bool) (t i : UInt8) : DumpDir :=
  if i = 0 then dumpData snap full t else dumpIndex snap full t i

/-- bounds of the keys in that directory -/
def dirLo (t i : UInt8) : Bytes := [t, i, 0, 0, 0, 0]
/-- upper bound of a directory of a dump -/
def dirHi (t i : UInt8) : Bytes := if i = 0 then [t, 1, 0, 0, 0, 0] else [t, i, 255, 255, 255, 255]

theorem mkDir_table (snap : KV) (full : List Entry → Bool) (t i : UInt8) : (mkDir snap full t i).table = t := by
  unfold mkDir; split <;> rfl
theorem mkDir_index (snap : KV) (full : List Entry → Bool) (t i : UInt8) : (mkDir snap full t i).index = i := by
  unfold mkDir; split
  · rename_i h; rw [h]; rfl
  · rfl
theorem mkDir_name (snap : KV) (full : List Entry → Bool) (t i : UInt8) : (mkDir snap full t i).name = dirName t i := by
  unfold mkDir dirName; split <;> rfl
theorem mkDir_files (snap : KV) (full : List Entry → Bool) (t i : UInt8) :
    (mkDir snap full t i).files = splitSST full (snap.scan (dirLo t i) (dirHi t i)) [] := by
  unfold mkDir dirHi; split
  · rename_i h; rw [h]; rfl
  · rfl

theorem mkDir_flatten (snap : KV) (full : List Entry → Bool) (t i : UInt8) :
    (mkDir snap full t i).files.flatten = snap.scan (dirLo t i) (dirHi t i) := by
  rw [mkDir_files, splitSST_flatten]; rfl

theorem dirHi_le_dirLo {t i t' i' : UInt8} (h : t < t' ∨ (t = t' ∧ i < i')) : ble (dirHi t i) (dirLo t' i') = true := by
  unfold dirHi dirLo
  have irr : ∀ x : UInt8, ¬ x < x := by intro x; simp only [UInt8.lt_iff_toNat_lt]; omega
  have asy : ∀ x y : UInt8, x < y → ¬ y < x := by intro x y; simp only [UInt8.lt_iff_toNat_lt]; omega
  rcases h with h | ⟨rfl, h⟩
  · split <;> simp [ble, blt, h, asy _ _ h]
  · split
    · rename_i h0; subst h0
      have h1 : ¬ i' < 1 := by
        simp only [UInt8.lt_iff_toNat_lt] at h ⊢
        have e0 : (0 : UInt8).toNat = 0 := rfl
        have e1 : (1 : UInt8).toNat = 1 := rfl
        omega
      simp [ble, blt, irr, h1]
    · simp [ble, blt, irr, h, asy _ _ h]

theorem dirs_apart {t i t' i' : UInt8} (h : ¬ (t = t' ∧ i = i')) :
    ble (dirHi t i) (dirLo t' i') = true ∨ ble (dirHi t' i') (dirLo t i) = true := by
  have tri : ∀ x y : UInt8, x < y ∨ x = y ∨ y < x := by
    intro x y
    simp only [UInt8.lt_iff_toNat_lt, ← UInt8.toNat_inj]
    omega
  rcases tri t t' with ht | ht | ht
  · exact Or.inl (dirHi_le_dirLo (Or.inl ht))
  · subst ht
    rcases tri i i' with hi | hi | hi
    · exact Or.inl (dirHi_le_dirLo (Or.inr ⟨rfl, hi⟩))
    · exact absurd ⟨rfl, hi⟩ h
    · exact Or.inr (dirHi_le_dirLo (Or.inr ⟨rfl, hi⟩))
  · exact Or.inr (dirHi_le_dirLo (Or.inl ht))

theorem mem_mkDir {snap : KV} {full : List Entry → Bool} {t i : UInt8} {f : List Entry} (hf : f ∈ (mkDir snap full t i).files)
    {e : Entry} (he : e ∈ f) : e ∈ snap.l ∧ ble (dirLo t i) e.1 = true ∧ blt e.1 (dirHi t i) = true := by
  have : e ∈ snap.scan (dirLo t i) (dirHi t i) := by
    rw [← mkDir_flatten snap full]; exact List.mem_flatten.2 ⟨f, hf, he⟩
  have h := (snap.mem_scan _ _ e.1 e.2).1 this
  exact ⟨(snap.get_eq_some_iff e.1 e.2).1 h.1, h.2⟩

theorem mkDir_below (snap : KV) (full : List Entry → Bool) {t i t' i' : UInt8} (h : ¬ (t = t' ∧ i = i')) :
    ∀ a ∈ (mkDir snap full t i).files, ∀ b ∈ (mkDir snap full t' i').files, Below a b ∨ Below b a := by
  intro a ha b hb
  rcases dirs_apart h with h | h
  · exact Or.inl fun x hx y hy =>
      blt_of_blt_of_ble (blt_of_blt_of_ble (mem_mkDir ha hx).2.2 h) (mem_mkDir hb hy).2.1
  · exact Or.inr fun x hx y hy =>
      blt_of_blt_of_ble (blt_of_blt_of_ble (mem_mkDir hb hx).2.2 h) (mem_mkDir ha hy).2.1

/-- The lookups of index ids find at least the ids that have an entry in the snapshot; no key is shorter than two bytes. -/
structure LiveOK (snap : KV) (live : Nat → KV) : Prop where
  len : ∀ n k v, (k, v) ∈ (live n).l → 2 ≤ k.length
  ids : ∀ n t i r v, (t :: i :: r, v) ∈ snap.l → ∃ r' v', (t :: i :: r', v') ∈ (live n).l

/-- the directories of a dump -/
theorem dumpLoop_ok (snap : KV) (live : Nat → KV) (full : List Entry → Bool) (wd : Bool) (hl : LiveOK snap live) (ts : List UInt8) :
    ∀ (n : Nat) (seen : List UInt8), ts.Nodup → (∀ t ∈ ts, t ∉ seen) →
    ∃ tis : List (UInt8 × UInt8), dumpLoop snap live full wd ts n seen = .ok (tis.map fun p => mkDir snap full p.1 p.2) ∧
      tis.Nodup ∧ (∀ t i, (t, i) ∈ tis → t ∈ ts ∧ (i = 0 ∨ wd = true)) ∧
      (∀ t i, t ∈ ts → (i = 0 ∨ (wd = true ∧ i ≠ 0 ∧ ∃ r v, (t :: i :: r, v) ∈ snap.l)) → (t, i) ∈ tis) := by
  induction ts with
  | nil => intro n seen _ _; exact ⟨[], rfl, List.nodup_nil, by simp, by simp⟩
  | cons t ts ih =>
    intro n seen hnd hseen
    obtain ⟨hnt, hnd'⟩ := List.nodup_cons.1 hnd
    obtain ⟨tis, e1, e2, e3, e4⟩ := ih (n + 1) (t :: seen) hnd' (fun t' ht' => by
      simp only [List.mem_cons, not_or]
      exact ⟨fun h => hnt (h ▸ ht'), hseen t' (by simp [ht'])⟩)
    obtain ⟨ids, i1, i2, i3⟩ := indexIDsLoop_spec (live n) t (hl.len n) 255 1 (by decide)
    have hi1 : ∀ j : UInt8, 1 ≤ j ↔ j ≠ 0 := by
      intro j
      rw [UInt8.le_iff_toNat_le, ne_eq, ← UInt8.toNat_inj]
      have e0 : (0 : UInt8).toNat = 0 := rfl
      have e1 : (1 : UInt8).toNat = 1 := rfl
      omega
    have hids : ∃ ids', (if wd = true then getIndexIDs (live n) t else some []) = some ids' ∧ ids'.Nodup ∧
        ∀ i, i ∈ ids' ↔ wd = true ∧ i ≠ 0 ∧ ∃ r v, (t :: i :: r, v) ∈ (live n).l := by
      cases wd with
      | false => exact ⟨[], rfl, List.nodup_nil, by simp⟩
      | true =>
        refine ⟨ids, i1, i2.imp (fun {a b} h => by rintro rfl; simp only [UInt8.lt_iff_toNat_lt] at h; omega), fun i => ?_⟩
        rw [i3, hi1]; simp
    obtain ⟨ids', j1, j2, j3⟩ := hids
    refine ⟨(t, 0) :: ids'.map (fun i => (t, i)) ++ tis, ?_, ?_, ?_, ?_⟩
    · unfold dumpLoop
      rw [if_neg (hseen t (by simp)), j1]
      simp only
      rw [e1]
      simp only [Except.ok.injEq, List.map_append, List.map_cons, List.map_map]
      congr 1
      congr 1
      apply List.map_congr_left
      intro i hi
      have := ((j3 i).1 hi).2.1
      simp [mkDir, this]
    · rw [List.cons_append, List.nodup_cons, List.nodup_append]
      refine ⟨?_, ?_, e2, ?_⟩
      · simp only [List.mem_append, not_or]
        constructor
        · intro h
          obtain ⟨i, hi, he⟩ := List.mem_map.1 h
          cases he
          exact ((j3 0).1 hi).2.1 rfl
        · intro h
          exact hnt (e3 t 0 h).1
      · exact List.pairwise_map.2 (j2.imp (fun {a b} hab h => hab (by cases h; rfl)))
      · rintro p hp q hq rfl
        obtain ⟨i, _, rfl⟩ := List.mem_map.1 hp
        exact hnt (e3 t i hq).1
    · intro t' i
      simp only [List.cons_append, List.mem_cons, List.mem_append, List.mem_map, Prod.mk.injEq]
      rintro (⟨rfl, rfl⟩ | ⟨j, hj, rfl, rfl⟩ | h)
      · exact ⟨Or.inl rfl, Or.inl rfl⟩
      · exact ⟨Or.inl rfl, Or.inr ((j3 _).1 hj).1⟩
      · exact ⟨Or.inr (e3 _ _ h).1, (e3 _ _ h).2⟩
    · intro t' i
      simp only [List.cons_append, List.mem_cons, List.mem_append, List.mem_map, Prod.mk.injEq]
      rintro (rfl | ht) hi
      · rcases hi with rfl | ⟨h1, h2, r, v, h3⟩
        · exact Or.inl ⟨rfl, rfl⟩
        · exact Or.inr (Or.inl ⟨i, (j3 i).2 ⟨h1, h2, hl.ids n _ _ _ _ h3⟩, rfl, rfl⟩)
      · exact Or.inr (Or.inr (e4 _ _ ht hi))

/-- Keys that Dump exports: table, index, the length of the index part, which is not 0xFFFFFFFF. -/
def Exported (k : Bytes) : Prop := ∃ (t i : UInt8) (n : Nat) (rest : Bytes), n < 2 ^ 32 - 1 ∧ k = t :: i :: (beBytes 4 n ++ rest)

theorem four_bytes {b : Bytes} (h : b.length = 4) : ∃ x y z w, b = [x, y, z, w] := by
  match b, h with
  | [x, y, z, w], _ => exact ⟨x, y, z, w, rfl⟩

theorem ble_min (b rest : Bytes) (h : b.length = 4) : ble [0, 0, 0, 0] (b ++ rest) = true := by
  have : ble (beBytes 4 0) b = true := by
    rw [ble, Bool.not_eq_true', ← Bool.not_eq_true]
    rw [blt_iff_beNat (by simp [h, beBytes_length])]
    rw [beNat_beBytes]; simp
  exact ble_trans (this) (ble_append_right_self b rest)

theorem blt_max (n : Nat) (rest : Bytes) (h : n < 2 ^ 32 - 1) : blt (beBytes 4 n ++ rest) [255, 255, 255, 255] = true := by
  have h1 : blt (beBytes 4 n) (beBytes 4 (2 ^ 32 - 1)) = true := (blt_beBytes (by omega) (by omega)).2 h
  have e : beBytes 4 (2 ^ 32 - 1) = [255, 255, 255, 255] := by decide
  rw [e] at h1
  have := blt_append_same_len (a := beBytes 4 n) (b := [255, 255, 255, 255]) (by simp [beBytes_length]) rest []
  rw [List.append_nil] at this
  rw [this]
  simp [h1]

theorem exported_bounds {t i : UInt8} {n : Nat} (hn : n < 2 ^ 32 - 1) (rest : Bytes) :
    ble (dirLo t i) (t :: i :: (beBytes 4 n ++ rest)) = true ∧ blt (t :: i :: (beBytes 4 n ++ rest)) (dirHi t i) = true := by
  have irr : ∀ x : UInt8, ¬ x < x := by intro x; simp only [UInt8.lt_iff_toNat_lt]; omega
  constructor
  · have := ble_min (beBytes 4 n) rest (beBytes_length 4 n)
    simp only [dirLo, ble, blt, irr] at this ⊢
    simpa using this
  · unfold dirHi
    split
    · rename_i h; subst h
      have : (0 : UInt8) < 1 := by decide
      simp [blt, irr, this]
    · have := blt_max n rest hn
      simp only [blt, irr]
      simpa using this

theorem bounds_dir {t i a b : UInt8} {r : Bytes} (h1 : ble (dirLo t i) (a :: b :: r) = true) (h2 : blt (a :: b :: r) (dirHi t i) = true)
    {n : Nat} {rest : Bytes} (hr : r = beBytes 4 n ++ rest) : a = t ∧ b = i := by
  have irr : ∀ x : UInt8, ¬ x < x := by intro x; simp only [UInt8.lt_iff_toNat_lt]; omega
  have tri : ∀ x y : UInt8, x < y ∨ x = y ∨ y < x := by
    intro x y
    simp only [UInt8.lt_iff_toNat_lt, ← UInt8.toNat_inj]
    omega
  have asy : ∀ x y : UInt8, x < y → ¬ y < x := by intro x y; simp only [UInt8.lt_iff_toNat_lt]; omega
  have ha : a = t := by
    rcases tri a t with h | h | h
    · simp [dirLo, ble, blt, h] at h1
    · exact h
    · unfold dirHi at h2
      split at h2 <;> simp [blt, h, asy _ _ h] at h2
  subst ha
  refine ⟨rfl, ?_⟩
  rcases tri b i with h | h | h
  · simp [dirLo, ble, blt, h, irr] at h1
  · exact h
  · exfalso
    unfold dirHi at h2
    split at h2
    · rename_i h0; subst h0
      by_cases hb1 : b = 1
      · subst hb1
        have := ble_min (beBytes 4 n) rest (beBytes_length 4 n)
        rw [← hr] at this
        simp only [blt, irr] at h2
        simp [ble] at this
        rw [this] at h2
        simp at h2
      · have hb : (1 : UInt8) < b := by
          rw [UInt8.lt_iff_toNat_lt] at h ⊢
          have e0 : (0 : UInt8).toNat = 0 := rfl
          have e1 : (1 : UInt8).toNat = 1 := rfl
          have : b.toNat ≠ 1 := fun hh => hb1 (UInt8.toNat_inj.1 hh)
          omega
        simp [blt, irr, hb, asy _ _ hb] at h2
    · simp [blt, irr, h, asy _ _ h] at h2

theorem filterMap_zipIdx_const {α : Type} (b : Bool) (p : Nat → Bool) (hp : ∀ n, p n = b) (l : List α) : ∀ n,
    (l.zipIdx n).filterMap (fun f => if p f.2 = true then some f.1 else none) = if b = true then l else [] := by
  induction l with
  | nil => intro n; simp
  | cons a l ih =>
    intro n
    rw [List.zipIdx_cons, List.filterMap_cons, ih]
    simp only [hp]
    cases b <;> simp

/-- Restore from a dump: exactly the keys of the selected directories are overwritten. -/
theorem restore_dump (snap db0 : KV) (live : Nat → KV) (full : List Entry → Bool) (wd wr : Bool) (tables req : List UInt8) (base : Bytes)
    (hk : ∀ k v, (k, v) ∈ snap.l → Exported k) (hl : LiveOK snap live) (hnd : tables.Nodup) (hreq : ∀ t ∈ req, t ∈ tables) :
    ∃ d db1, dump snap live full wd tables = .ok d ∧ restore base d req wr db0 = .ok db1 ∧
      (∀ t i r, t ∈ tables → (i = 0 ∨ wd = true) → Sel base req wr t i →
        db1.get (t :: i :: r) = (snap.get (t :: i :: r)).or (db0.get (t :: i :: r))) ∧
      (∀ k, (∀ t i r, k = t :: i :: r → ¬ (t ∈ tables ∧ (i = 0 ∨ wd = true) ∧ Sel base req wr t i)) → db1.get k = db0.get k) := by
  obtain ⟨tis, e1, e2, e3, e4⟩ := dumpLoop_ok snap live full wd hl tables 0 [] hnd (by simp)
  let dirs := tis.map fun p => mkDir snap full p.1 p.2
  have hname : ∀ p : UInt8 × UInt8, (mkDir snap full p.1 p.2).name = dirName (mkDir snap full p.1 p.2).table (mkDir snap full p.1 p.2).index := by
    intro p; rw [mkDir_name, mkDir_table, mkDir_index]
  let w : UInt8 × UInt8 → Bool := fun p => wanted req wr (filePath base (mkDir snap full p.1 p.2) 0)
  have hw : ∀ p n, wanted req wr (filePath base (mkDir snap full p.1 p.2) n) = w p := by
    intro p n
    rw [Bool.eq_iff_iff, wanted_iff _ _ _ _ _ (hname p), wanted_iff _ _ _ _ _ (hname p)]
  have hwSel : ∀ p, w p = true ↔ Sel base req wr p.1 p.2 := by
    intro p
    show wanted _ _ _ = true ↔ _
    rw [wanted_iff _ _ _ _ _ (hname p), mkDir_table, mkDir_index]
  have hfiles : restoreFiles base dirs req wr = tis.flatMap fun p => if w p = true then (mkDir snap full p.1 p.2).files else [] := by
    show (tis.map _).flatMap _ = _
    rw [List.flatMap_map]
    congr 1
    funext p
    exact filterMap_zipIdx_const (w p) _ (hw p) _ 1
  have hpair : (restoreFiles base dirs req wr).Pairwise fun a b => Below a b ∨ Below b a := by
    rw [hfiles, List.pairwise_flatMap]
    constructor
    · intro p _
      split
      · rw [mkDir_files]
        exact (splitSST_below full _ [] (snap.scan_sorted _ _)).imp (fun h => Or.inl h)
      · exact List.Pairwise.nil
    · refine e2.imp ?_
      intro p q hpq a ha b hb
      have ha' : a ∈ (mkDir snap full p.1 p.2).files := by
        split at ha
        · exact ha
        · cases ha
      have hb' : b ∈ (mkDir snap full q.1 q.2).files := by
        split at hb
        · exact hb
        · cases hb
      exact mkDir_below snap full (fun h => hpq (Prod.ext h.1 h.2)) a ha' b hb'
  have happ : allApart ((restoreFiles base dirs req wr).filter fun f => !f.isEmpty) = true :=
    allApart_of_pairwise (hpair.filter _)
  have hsub : ∀ e ∈ (restoreFiles base dirs req wr).flatten, e ∈ snap.l := by
    intro e he
    obtain ⟨f, hf, he⟩ := List.mem_flatten.1 he
    rw [hfiles] at hf
    obtain ⟨p, _, hf⟩ := List.mem_flatMap.1 hf
    split at hf
    · exact (mem_mkDir hf he).1
    · cases hf
  have hmem : ∀ k, k ∈ (restoreFiles base dirs req wr).flatten.map Prod.fst ↔
      ∃ t i v, (t, i) ∈ tis ∧ Sel base req wr t i ∧ (k, v) ∈ snap.scan (dirLo t i) (dirHi t i) := by
    intro k
    constructor
    · intro h
      obtain ⟨⟨k', v⟩, he, rfl⟩ := List.mem_map.1 h
      obtain ⟨f, hf, he⟩ := List.mem_flatten.1 he
      rw [hfiles] at hf
      obtain ⟨p, hp, hf⟩ := List.mem_flatMap.1 hf
      split at hf
      · rename_i hs
        refine ⟨p.1, p.2, v, hp, (hwSel p).1 hs, ?_⟩
        rw [← mkDir_flatten snap full]
        exact List.mem_flatten.2 ⟨f, hf, he⟩
      · cases hf
    · rintro ⟨t, i, v, hp, hs, he⟩
      rw [← mkDir_flatten snap full] at he
      obtain ⟨f, hf, he⟩ := List.mem_flatten.1 he
      refine List.mem_map.2 ⟨(k, v), List.mem_flatten.2 ⟨f, ?_, he⟩, rfl⟩
      rw [hfiles]
      refine List.mem_flatMap.2 ⟨(t, i), hp, ?_⟩
      rw [if_pos ((hwSel (t, i)).2 hs)]
      exact hf
  refine ⟨⟨beBytes 4 1, dirs⟩, (restoreFiles base dirs req wr).flatten.foldl (fun d e => d.set e.1 e.2) db0, ?_, ?_, ?_, ?_⟩
  · simp only [dump]
    rw [e1]
  · unfold restore
    rw [if_neg (by simp [beBytes_length]), if_neg (by show ¬ beNat (List.take 4 (beBytes 4 1)) ≠ 1; decide)]
    have hall : req.all (fun t => dirs.any fun x => x.name == tableDirName t) = true := by
      rw [List.all_eq_true]
      intro t ht
      rw [List.any_eq_true]
      refine ⟨mkDir snap full t 0, List.mem_map.2 ⟨(t, 0), e4 t 0 (hreq t ht) (Or.inl rfl), rfl⟩, ?_⟩
      rw [mkDir_name]
      simp [dirName]
    rw [hall]
    simp only [Bool.not_true, Bool.false_eq_true, if_false]
    unfold ingest
    rw [if_pos happ]
  · intro t i r ht hi hs
    rw [get_addAll snap _ hsub]
    cases hg : snap.get (t :: i :: r) with
    | none =>
      split
      · rename_i hm
        obtain ⟨_, _, v, _, _, he⟩ := (hmem _).1 hm
        rw [((snap.mem_scan _ _ _ _).1 he).1] at hg
        cases hg
      · rfl
    | some v =>
      have hv := (snap.get_eq_some_iff _ _).1 hg
      obtain ⟨t', i', n, rest, hn, he⟩ := hk _ _ hv
      cases he
      have hb := exported_bounds (t := t) (i := i) hn rest
      rw [if_pos]
      · rfl
      · rw [hmem]
        refine ⟨t, i, v, e4 t i ht ?_, hs, (snap.mem_scan _ _ _ _).2 ⟨hg, hb.1, hb.2⟩⟩
        by_cases h0 : i = 0
        · exact Or.inl h0
        · rcases hi with hi | hi
          · exact absurd hi h0
          · exact Or.inr ⟨hi, h0, _, v, hv⟩
  · intro k hno
    rw [get_addAll snap _ hsub, if_neg]
    rw [hmem]
    rintro ⟨t, i, v, hp, hs, he⟩
    obtain ⟨hv, b1, b2⟩ := (snap.mem_scan _ _ _ _).1 he
    obtain ⟨t', i', n, rest, hn, rfl⟩ := hk _ _ ((snap.get_eq_some_iff _ _).1 hv)
    obtain ⟨rfl, rfl⟩ := bounds_dir b1 b2 rfl
    have hh := e3 t' i' hp
    exact hno t' i' _ rfl ⟨hh.1, hh.2, hs⟩

/-- nobody writes during the dump -/
theorem LiveOK.same {snap : KV} (hk : ∀ k v, (k, v) ∈ snap.l → Exported k) : LiveOK snap (fun _ => snap) where
  len := by
    intro _ k v hm
    obtain ⟨t, i, n, rest, _, rfl⟩ := hk k v hm
    simp
  ids := fun _ _ _ r v h => ⟨r, v, h⟩

end Bond
