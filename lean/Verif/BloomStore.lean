import Verif.BloomLemmas
/-
Lemmas on saving and loading a filter.
-/
namespace Bond

theorem bloomKey_inj {p : Bytes} {a b : Nat} (h : bloomKey p a = bloomKey p b) : a = b :=
  decimal_inj (List.append_cancel_left h)

theorem bloomKey_ne_num (p : Bytes) (a : Nat) : bloomKey p a ≠ bloomNumKey p := by
  intro h
  have h := List.append_cancel_left h
  have := decimal_digits a 98 (by rw [h]; simp)
  revert this; decide

theorem FStore.set_same (s : FStore) (k v : Bytes) : s.set k v k = some v := by simp [FStore.set]
theorem FStore.set_other (s : FStore) {k k' : Bytes} (v : Bytes) (h : k' ≠ k) : s.set k v k' = s k' := by simp [FStore.set, h]

/-- what a clean bucket promises about the store: if it was written, the store has its contents; else it is empty (the test in bloom/bloom_filter.go:153) -/
def BClean (c : BFCodec) (m k : Nat) (p : Bytes) (store : FStore) (b : FBucket) : Prop :=
  b.hasChanges = false →
    (b.hasBeenWritten = true → ∃ data, store (bloomKey p b.num) = some data ∧ c.dec data = some b.filter) ∧
    (b.hasBeenWritten = false → b.filter = BF.new m k)

/-- the filter in memory agrees with its store (kept by bloom/bloom_filter.go:93-187) -/
def Synced (c : BFCodec) (m k : Nat) (store : FStore) (f : BloomFilter) : Prop :=
  ∀ b ∈ f.buckets, BClean c m k f.keyPrefix store b

theorem synced_new (c : BFCodec) (m k n : Nat) (p : Bytes) (store : FStore) : Synced c m k store (BloomFilter.new m k n p) := by
  intro b hb
  simp only [BloomFilter.new, List.mem_map] at hb
  obtain ⟨i, _, rfl⟩ := hb
  intro _
  exact ⟨fun h => (by simp at h), fun _ => rfl⟩

theorem synced_add {h : BloomHash} (ok : HashOK h) {c : BFCodec} {m k n : Nat} {p : Bytes} {f f' : BloomFilter} {store : FStore}
    (sh : Shape m k n p f) (hm : 0 < m) (sy : Synced c m k store f) {key : Bytes} (ha : f.add h key = some f') : Synced c m k store f' := by
  unfold BloomFilter.add at ha
  simp only at ha
  split at ha
  · cases ha
  · rename_i b hb
    cases ha
    have hbm : b ∈ f.buckets := List.mem_of_getElem? hb
    obtain ⟨d1, d2, d3⟩ := sh.dims b hbm
    have hs := testOrAdd_spec ok (f := b.filter) (by omega) (by omega) key
    intro x hx
    rcases List.mem_or_eq_of_mem_set hx with hx | rfl
    · exact sy x hx
    · cases hr : (b.filter.testOrAdd h key).2
      · intro hc; simp at hc
      · have := hs.2.2.2 hr
        rw [this]
        have := sy b hbm
        intro hc
        exact this (by simpa using hc)

theorem merge_self {f e : BF} (h : f.merge f = some e) : e = f := by
  unfold BF.merge at h
  rw [if_pos ⟨rfl, rfl⟩] at h
  cases h
  have : List.zipWith (· || ·) f.bits f.bits = f.bits := by
    induction f.bits with
    | nil => rfl
    | cons b l ih => simp
  cases f
  simp only at this ⊢
  rw [this]

theorem merge_new {m k : Nat} {g e : BF} (hg : g.bits.length = g.m) (h : (BF.new m k).merge g = some e) : e = g := by
  unfold BF.merge at h
  split at h
  · rename_i hmk
    cases h
    simp only [BF.new] at hmk ⊢
    cases g with
    | mk gm gk gb =>
      simp only at hmk hg ⊢
      obtain ⟨rfl, rfl⟩ := hmk
      congr 1
      rw [← hg]
      clear hg
      induction gb with
      | nil => rfl
      | cons b l ih => simp [List.replicate_succ, ih]
  · cases h

theorem merge_new_some {m k : Nat} {g : BF} (h1 : g.m = m) (h2 : g.k = k) : ∃ e, (BF.new m k).merge g = some e := by
  unfold BF.merge
  rw [if_pos ⟨h1.symm, h2.symm⟩]
  exact ⟨_, rfl⟩

theorem synced_loadLoop {c : BFCodec} (cok : CodecOK c) {m k : Nat} (p : Bytes) (store : FStore) : ∀ bs : List FBucket,
    (∀ b ∈ bs, BClean c m k p store b) → ∀ b ∈ (loadLoop c store p bs).1, BClean c m k p store b := by
  intro bs
  induction bs with
  | nil => intro h; exact h
  | cons b bs ih =>
    intro hs
    unfold loadLoop
    split
    · exact hs
    · rename_i data hd
      split
      · exact hs
      · rename_i g hg
        split
        · exact hs
        · rename_i e he
          intro x hx
          rcases List.mem_cons.1 hx with rfl | hx
          · intro hc
            simp only at hc
            obtain ⟨h1, h2⟩ := hs b (by simp) hc
            refine ⟨fun _ => ⟨data, hd, ?_⟩, fun h => (by simp at h)⟩
            simp only
            rw [hg]
            cases hw : b.hasBeenWritten
            · rw [h2 hw] at he
              rw [merge_new (cok.2 _ _ hg) he]
            · obtain ⟨data', hd', hg'⟩ := h1 hw
              rw [hd] at hd'; cases hd'
              rw [hg] at hg'; cases hg'
              rw [merge_self he]
          · exact ih (fun b hb => hs b (by simp [hb])) x hx

theorem synced_load {c : BFCodec} (cok : CodecOK c) {m k : Nat} {f : BloomFilter} {store : FStore}
    (sy : Synced c m k store f) : Synced c m k store (f.load c store).1 := by
  unfold BloomFilter.load
  split
  · exact sy
  · split
    · exact sy
    · split
      · exact sy
      · exact synced_loadLoop cok _ _ _ sy

theorem synced_saveLoop {c : BFCodec} (cok : CodecOK c) {m k : Nat} (setOk : Nat → Bool) (p : Bytes) : ∀ (bs : List FBucket) (n : Nat) (store : FStore),
    (bs.map (·.num)).Nodup → (∀ b ∈ bs, b.filter.bits.length = b.filter.m) → (∀ b ∈ bs, BClean c m k p store b) →
    let r := saveLoop c setOk p bs n store
    (∀ key, (∀ b ∈ bs, key ≠ bloomKey p b.num) → r.2.1 key = store key) ∧
    (∀ b ∈ r.1, BClean c m k p r.2.1 b) ∧
    (r.2.2 = .ok → ∀ b ∈ r.1, b.hasChanges = false ∧ b.hasBeenWritten = true) := by
  intro bs
  induction bs with
  | nil => intro n store _ _ _; exact ⟨fun _ _ => rfl, by simp [saveLoop], by simp [saveLoop]⟩
  | cons b bs ih =>
    intro n store hnd hlen hs
    rw [List.map_cons, List.nodup_cons] at hnd
    have hne : ∀ b' ∈ bs, bloomKey p b.num ≠ bloomKey p b'.num := by
      intro b' hb' he
      exact hnd.1 (by rw [bloomKey_inj he]; exact List.mem_map.2 ⟨b', hb', rfl⟩)
    unfold saveLoop
    split
    · rename_i hskip
      have hskip : b.hasChanges = false ∧ b.hasBeenWritten = true := by simpa using hskip
      obtain ⟨i1, i2, i3⟩ := ih n store hnd.2 (fun x hx => hlen x (by simp [hx])) (fun x hx => hs x (by simp [hx]))
      simp only
      refine ⟨fun key hk => i1 key (fun x hx => hk x (by simp [hx])), ?_, ?_⟩
      · intro x hx
        rcases List.mem_cons.1 hx with rfl | hx
        · have := hs x (by simp)
          intro hc
          rw [i1 _ hne]
          exact this hc
        · exact i2 x hx
      · intro hr x hx
        rcases List.mem_cons.1 hx with rfl | hx
        · exact hskip
        · exact i3 hr x hx
    · split
      · have hs' : ∀ x ∈ bs, BClean c m k p (store.set (bloomKey p b.num) (c.enc b.filter)) x := by
          intro x hx hc
          rw [FStore.set_other _ _ (Ne.symm (hne x hx))]
          exact hs x (by simp [hx]) hc
        obtain ⟨i1, i2, i3⟩ := ih (n + 1) _ hnd.2 (fun x hx => hlen x (by simp [hx])) hs'
        simp only
        refine ⟨?_, ?_, ?_⟩
        · intro key hk
          rw [i1 key (fun x hx => hk x (by simp [hx])), FStore.set_other _ _ (hk b (by simp))]
        · intro x hx
          rcases List.mem_cons.1 hx with rfl | hx
          · intro _
            refine ⟨fun _ => ⟨c.enc b.filter, ?_, cok.1 _ (hlen b (by simp))⟩, fun h => (by simp at h)⟩
            simp only
            rw [i1 _ hne, FStore.set_same]
          · exact i2 x hx
        · intro hr x hx
          rcases List.mem_cons.1 hx with rfl | hx
          · exact ⟨rfl, rfl⟩
          · exact i3 hr x hx
      · exact ⟨fun _ _ => rfl, hs, fun h => (by simp at h)⟩

theorem nodup_nums {m k n : Nat} {p : Bytes} {f : BloomFilter} (sh : Shape m k n p f) : (f.buckets.map (·.num)).Nodup := by
  have : f.buckets.map (·.num) = List.range f.buckets.length := by
    apply List.ext_getElem?
    intro i
    by_cases hi : i < f.buckets.length
    · rw [List.getElem?_map, List.getElem?_eq_getElem hi, List.getElem?_range hi]
      simp only [Option.map_some]
      rw [sh.nums i _ (List.getElem?_eq_getElem hi)]
    · simp [hi]
  rw [this]
  exact List.nodup_range

theorem synced_save {c : BFCodec} (cok : CodecOK c) {m k n : Nat} {p : Bytes} {f : BloomFilter} {store : FStore} (sh : Shape m k n p f)
    (sy : Synced c m k store f) (setOk : Nat → Bool) :
    let r := f.save c setOk store
    Synced c m k r.2.1 r.1 ∧
    (r.2.2 = .ok → r.2.1 (bloomNumKey p) = some (beBytes 8 n) ∧
      ∀ b ∈ r.1.buckets, ∃ data, r.2.1 (bloomKey p b.num) = some data ∧ c.dec data = some b.filter) := by
  unfold BloomFilter.save
  split
  · have hs : ∀ b ∈ f.buckets, BClean c m k f.keyPrefix (store.set (bloomNumKey f.keyPrefix) (beBytes 8 f.numOfBuckets)) b := by
      intro b hb hc
      rw [FStore.set_other _ _ (bloomKey_ne_num _ _)]
      exact sy b hb hc
    obtain ⟨i1, i2, i3⟩ := synced_saveLoop cok setOk f.keyPrefix f.buckets 1 _ (nodup_nums sh)
      (fun b hb => by have := sh.dims b hb; omega) hs
    simp only
    refine ⟨i2, fun hr => ⟨?_, ?_⟩⟩
    · rw [← sh.pref, i1 _ (fun b _ => Ne.symm (bloomKey_ne_num _ _)), FStore.set_same, sh.num]
    · intro b hb
      obtain ⟨h1, h2⟩ := i3 hr b hb
      have := (i2 b hb h1).1 h2
      rw [← sh.pref]; exact this
  · exact ⟨sy, fun h => (by simp at h)⟩

theorem saveLoop_ok (c : BFCodec) (p : Bytes) : ∀ (bs : List FBucket) (n : Nat) (store : FStore),
    (saveLoop c (fun _ => true) p bs n store).2.2 = .ok := by
  intro bs
  induction bs with
  | nil => intro n store; rfl
  | cons b bs ih =>
    intro n store
    unfold saveLoop
    split
    · exact ih _ _
    · rw [if_pos rfl]; exact ih _ _

theorem save_ok (c : BFCodec) (f : BloomFilter) (store : FStore) : (f.save c (fun _ => true) store).2.2 = .ok := by
  unfold BloomFilter.save
  rw [if_pos rfl]
  exact saveLoop_ok ..

theorem loadLoop_fresh {c : BFCodec} (cok : CodecOK c) {m k : Nat} (p : Bytes) (store : FStore) : ∀ (gs : List FBucket),
    (∀ b ∈ gs, b.filter.m = m ∧ b.filter.k = k) →
    (∀ b ∈ gs, ∃ data, store (bloomKey p b.num) = some data ∧ c.dec data = some b.filter) →
    ∀ bs : List FBucket, bs.map (·.num) = gs.map (·.num) → (∀ b ∈ bs, b.filter = BF.new m k) →
    (loadLoop c store p bs).2 = .ok ∧ (loadLoop c store p bs).1.map (·.filter) = gs.map (·.filter) := by
  intro gs
  induction gs with
  | nil => intro _ _ bs h _; cases bs with
    | nil => exact ⟨rfl, rfl⟩
    | cons => cases h
  | cons g gs ih =>
    intro hd hst bs hn hnew
    cases bs with
    | nil => cases hn
    | cons b bs =>
      simp only [List.map_cons, List.cons.injEq] at hn
      obtain ⟨data, h1, h2⟩ := hst g (by simp)
      obtain ⟨e, he⟩ := merge_new_some (hd g (by simp)).1 (hd g (by simp)).2
      unfold loadLoop
      rw [hn.1, h1]
      simp only [h2]
      rw [hnew b (by simp), he]
      simp only
      obtain ⟨j1, j2⟩ := ih (fun x hx => hd x (by simp [hx])) (fun x hx => hst x (by simp [hx])) bs hn.2 (fun x hx => hnew x (by simp [hx]))
      refine ⟨j1, ?_⟩
      simp only [List.map_cons]
      rw [merge_new (cok.2 _ _ h2) he, j2]

theorem mayContain_filters {h : BloomHash} {f g : BloomFilter} (hn : f.numOfBuckets = g.numOfBuckets)
    (hm : f.buckets.map (·.filter) = g.buckets.map (·.filter)) (key : Bytes) : f.mayContain h key = g.mayContain h key := by
  have : ∀ x : BloomFilter, x.mayContain h key = (x.buckets.map (·.filter))[h.bucket key x.numOfBuckets]?.map (fun b => b.test h key) := by
    intro x
    unfold BloomFilter.mayContain
    rw [List.getElem?_map, Option.map_map]
    rfl
  rw [this, this, hn, hm]

theorem fresh_nums {m k n : Nat} {p : Bytes} {g : BloomFilter} (sh : Shape m k n p g) :
    (BloomFilter.new m k n p).buckets.map (·.num) = g.buckets.map (·.num) := by
  apply List.ext_getElem?
  intro i
  simp only [BloomFilter.new, List.map_map, List.getElem?_map]
  by_cases hi : i < n
  · have hi' : i < g.buckets.length := by rw [sh.len]; exact hi
    rw [List.getElem?_range hi, List.getElem?_eq_getElem hi']
    simp only [Option.map_some]
    rw [sh.nums i _ (List.getElem?_eq_getElem hi')]
    rfl
  · rw [List.getElem?_eq_none (by simp; omega), List.getElem?_eq_none (by rw [sh.len]; omega)]; rfl

theorem load_eq {c : BFCodec} {m k n : Nat} {p : Bytes} {store : FStore} (hn : n < 2 ^ 64) (h0 : store (bloomNumKey p) = some (beBytes 8 n)) :
    (BloomFilter.new m k n p).load c store =
      ({ BloomFilter.new m k n p with buckets := (loadLoop c store p (BloomFilter.new m k n p).buckets).1 },
        (loadLoop c store p (BloomFilter.new m k n p).buckets).2) := by
  unfold BloomFilter.load
  have hp : (BloomFilter.new m k n p).keyPrefix = p := rfl
  have hN : (BloomFilter.new m k n p).numOfBuckets = n := rfl
  rw [hp, h0]
  simp only
  have hb : beNat ((beBytes 8 n).take 8) = n := by
    rw [List.take_of_length_le (by rw [beBytes_length]; omega), beNat_beBytes, Nat.mod_eq_of_lt (by omega)]
  rw [if_neg (by rw [beBytes_length]; omega), if_neg (by rw [hN, hb]; simp)]
  rfl

/-- Loading into a fresh filter what another one wrote. -/
theorem load_fresh {c : BFCodec} (cok : CodecOK c) {m k n : Nat} {p : Bytes} {g : BloomFilter} {store : FStore} (hn : n < 2 ^ 64)
    (sh : Shape m k n p g) (h0 : store (bloomNumKey p) = some (beBytes 8 n))
    (hst : ∀ b ∈ g.buckets, ∃ data, store (bloomKey p b.num) = some data ∧ c.dec data = some b.filter) :
    ((BloomFilter.new m k n p).load c store).2 = .ok ∧
    ∀ (h : BloomHash) (key : Bytes), ((BloomFilter.new m k n p).load c store).1.mayContain h key = g.mayContain h key := by
  obtain ⟨l1, l2⟩ := loadLoop_fresh cok p store g.buckets (fun b hb => ⟨(sh.dims b hb).1, (sh.dims b hb).2.1⟩) hst
    (BloomFilter.new m k n p).buckets (fresh_nums sh) (by
      intro b hb
      simp only [BloomFilter.new, List.mem_map] at hb
      obtain ⟨i, _, rfl⟩ := hb
      rfl)
  rw [load_eq hn h0]
  exact ⟨l1, fun h key => mayContain_filters (by rw [sh.num]; rfl) l2 key⟩

/-- the store has a loadable filter that contains at least `bs` (what bloom/bloom_filter.go:93-136 needs) -/
def StoreHas (c : BFCodec) (n : Nat) (p : Bytes) (store : FStore) (bs : List FBucket) : Prop :=
  store (bloomNumKey p) = some (beBytes 8 n) ∧
  ∀ b ∈ bs, ∃ data g, store (bloomKey p b.num) = some data ∧ c.dec data = some g ∧ b.filter.Sub g

theorem storeHas_saveLoop {c : BFCodec} (cok : CodecOK c) {n : Nat} (setOk : Nat → Bool) (p : Bytes) (bs0 : List FBucket) : ∀ (bs : List FBucket) (i : Nat) (store : FStore),
    (∀ b ∈ bs, b.filter.bits.length = b.filter.m) → (∀ b ∈ bs, ∀ b0 ∈ bs0, b0.num = b.num → b0.filter.Sub b.filter) →
    StoreHas c n p store bs0 → StoreHas c n p (saveLoop c setOk p bs i store).2.1 bs0 := by
  intro bs
  induction bs with
  | nil => intro i store _ _ h; exact h
  | cons b bs ih =>
    intro i store hl hs h
    have hl' : ∀ b ∈ bs, b.filter.bits.length = b.filter.m := fun x hx => hl x (by simp [hx])
    have hs' : ∀ b ∈ bs, ∀ b0 ∈ bs0, b0.num = b.num → b0.filter.Sub b.filter := fun x hx => hs x (by simp [hx])
    unfold saveLoop
    split
    · exact ih i store hl' hs' h
    · split
      · apply ih _ _ hl' hs'
        refine ⟨by rw [FStore.set_other _ _ (Ne.symm (bloomKey_ne_num _ _))]; exact h.1, ?_⟩
        intro b0 hb0
        by_cases he : b0.num = b.num
        · refine ⟨_, b.filter, ?_, cok.1 _ (hl b (by simp)), hs b (by simp) b0 hb0 he⟩
          rw [he, FStore.set_same]
        · obtain ⟨data, g, h1, h2⟩ := h.2 b0 hb0
          exact ⟨data, g, by rw [FStore.set_other _ _ (fun hh => he (bloomKey_inj hh))]; exact h1, h2⟩
      · exact h

theorem shape_sub {m k n : Nat} {p : Bytes} {f f' : BloomFilter} (sh : Shape m k n p f) (sh' : Shape m k n p f') (s : BSub f.buckets f'.buckets)
    {b b' : FBucket} (hb : b ∈ f.buckets) (hb' : b' ∈ f'.buckets) (he : b.num = b'.num) : b.filter.Sub b'.filter := by
  obtain ⟨i, hi⟩ := List.getElem?_of_mem hb
  obtain ⟨j, hj⟩ := List.getElem?_of_mem hb'
  have := sh.nums i b hi
  have := sh'.nums j b' hj
  have : i = j := by omega
  subst this
  exact s.2 i b b' hi hj

theorem storeHas_save {c : BFCodec} (cok : CodecOK c) {m k n : Nat} {p : Bytes} {f f' : BloomFilter} {store : FStore}
    (sh : Shape m k n p f) (sh' : Shape m k n p f') (s : BSub f.buckets f'.buckets) (h : StoreHas c n p store f.buckets) (setOk : Nat → Bool) :
    StoreHas c n p (f'.save c setOk store).2.1 f.buckets := by
  unfold BloomFilter.save
  split
  · simp only
    rw [sh'.pref]
    apply storeHas_saveLoop cok
    · intro b hb; have := sh'.dims b hb; omega
    · intro b hb b0 hb0 he
      exact shape_sub sh sh' s hb0 hb he
    · refine ⟨by rw [FStore.set_same, sh'.num], ?_⟩
      intro b hb
      obtain ⟨data, g, h1, h2⟩ := h.2 b hb
      exact ⟨data, g, by rw [FStore.set_other _ _ (bloomKey_ne_num _ _)]; exact h1, h2⟩
  · exact h

theorem storeHas_of_save {c : BFCodec} (cok : CodecOK c) {m k n : Nat} {p : Bytes} {f : BloomFilter} {store : FStore} (sh : Shape m k n p f)
    (sy : Synced c m k store f) {setOk : Nat → Bool} (hok : (f.save c setOk store).2.2 = .ok) :
    StoreHas c n p (f.save c setOk store).2.1 f.buckets := by
  obtain ⟨h1, h2⟩ := (synced_save cok sh sy setOk).2 hok
  refine ⟨h1, fun b hb => ?_⟩
  obtain ⟨sh', s⟩ := save_sub (c := c) sh setOk store
  obtain ⟨i, hi⟩ := List.getElem?_of_mem hb
  have hlt : i < (f.save c setOk store).1.buckets.length := by rw [← s.1]; exact (List.getElem?_eq_some_iff.1 hi).1
  have hi' := List.getElem?_eq_getElem hlt
  obtain ⟨data, e1, e2⟩ := h2 _ (List.getElem_mem hlt)
  have hnum := sh'.nums i _ hi'
  rw [hnum, ← sh.nums i b hi] at e1
  exact ⟨data, _, e1, e2, s.2 i _ _ hi hi'⟩

theorem loadLoop_has {c : BFCodec} (cok : CodecOK c) {m k : Nat} (p : Bytes) (store : FStore) : ∀ (gs : List FBucket),
    (∀ b ∈ gs, b.filter.m = m ∧ b.filter.k = k) →
    (∀ b ∈ gs, ∃ data g, store (bloomKey p b.num) = some data ∧ c.dec data = some g ∧ b.filter.Sub g) →
    ∀ bs : List FBucket, bs.map (·.num) = gs.map (·.num) → (∀ b ∈ bs, b.filter = BF.new m k) →
    (loadLoop c store p bs).2 = .ok ∧ BSub gs (loadLoop c store p bs).1 := by
  intro gs
  induction gs with
  | nil => intro _ _ bs h _; cases bs with
    | nil => exact ⟨rfl, BSub.refl _⟩
    | cons => cases h
  | cons g gs ih =>
    intro hd hst bs hn hnew
    cases bs with
    | nil => cases hn
    | cons b bs =>
      simp only [List.map_cons, List.cons.injEq] at hn
      obtain ⟨data, g', h1, h2, h3⟩ := hst g (by simp)
      obtain ⟨e, he⟩ := merge_new_some (m := m) (k := k) (g := g') (h3.1.symm.trans (hd g (by simp)).1) (h3.2.1.symm.trans (hd g (by simp)).2)
      unfold loadLoop
      rw [hn.1, h1]
      simp only [h2]
      rw [hnew b (by simp), he]
      simp only
      obtain ⟨j1, j2⟩ := ih (fun x hx => hd x (by simp [hx])) (fun x hx => hst x (by simp [hx])) bs hn.2 (fun x hx => hnew x (by simp [hx]))
      refine ⟨j1, by simp [j2.1], ?_⟩
      intro i x x' hx hx'
      cases i with
      | zero =>
        simp only [List.getElem?_cons_zero, Option.some.injEq] at hx hx'
        subst hx hx'
        simp only
        rw [merge_new (cok.2 _ _ h2) he]
        exact h3
      | succ i =>
        simp only [List.getElem?_cons_succ] at hx hx'
        exact j2.2 i x x' hx hx'

/-- Loading into a fresh filter from a store that has at least `g`. -/
theorem load_has {c : BFCodec} (cok : CodecOK c) {m k n : Nat} {p : Bytes} {g : BloomFilter} {store : FStore} (hn : n < 2 ^ 64)
    (sh : Shape m k n p g) (hs : StoreHas c n p store g.buckets) :
    ((BloomFilter.new m k n p).load c store).2 = .ok ∧
    ∀ (h : BloomHash) (key : Bytes), g.mayContain h key = some true → ((BloomFilter.new m k n p).load c store).1.mayContain h key = some true := by
  obtain ⟨l1, l2⟩ := loadLoop_has cok p store g.buckets (fun b hb => ⟨(sh.dims b hb).1, (sh.dims b hb).2.1⟩) hs.2
    (BloomFilter.new m k n p).buckets (fresh_nums sh) (by
      intro b hb
      simp only [BloomFilter.new, List.mem_map] at hb
      obtain ⟨i, _, rfl⟩ := hb
      rfl)
  rw [load_eq hn hs.1]
  exact ⟨l1, fun h key hk => mayContain_mono (by rw [sh.num]; rfl) l2 hk⟩

end Bond
