import Verif.Bloom
/-
Lemmas about the bloom filter model.
-/
namespace Bond

/-- what the hash functions guarantee: positions below the number of bits, bucket numbers below the number of buckets -/
structure HashOK (h : BloomHash) : Prop where
  loc : ∀ key i m, 0 < m → h.loc key i m < m
  bucket : ∀ key n, 0 < n → h.bucket key n < n

/-- every bit of `f` is set in `g` -/
def BF.Sub (f g : BF) : Prop := f.m = g.m ∧ f.k = g.k ∧ ∀ i : Nat, f.bits[i]?.getD false = true → g.bits[i]?.getD false = true

theorem BF.Sub.refl (f : BF) : f.Sub f := ⟨rfl, rfl, fun _ h => h⟩
theorem BF.Sub.trans {f g e : BF} (a : f.Sub g) (b : g.Sub e) : f.Sub e :=
  ⟨a.1.trans b.1, a.2.1.trans b.2.1, fun i h => b.2.2 i (a.2.2 i h)⟩

theorem BF.Sub.test {h : BloomHash} {f g : BF} (s : f.Sub g) {key : Bytes} (ht : f.test h key = true) : g.test h key = true := by
  unfold BF.test at ht ⊢
  rw [← s.2.1, ← s.1]
  rw [List.all_eq_true] at ht ⊢
  intro i hi
  exact s.2.2 _ (ht i hi)

theorem set_getD {bits : List Bool} {l i : Nat} : (bits.set l true)[i]?.getD false = (if i = l ∧ l < bits.length then true else bits[i]?.getD false) := by
  by_cases h : i = l
  · subst h
    by_cases hl : i < bits.length
    · simp [hl]
    · simp [hl]
  · rw [List.getElem?_set_ne (Ne.symm h)]; simp [h]

theorem testOrAdd_loop (h : BloomHash) (key : Bytes) (is : List Nat) : ∀ (f : BF) (p : Bool), f.bits.length = f.m → (∀ i, h.loc key i f.m < f.m) →
    let r := is.foldl (BF.testOrSet h key) (f, p)
    f.Sub r.1 ∧ r.1.bits.length = r.1.m ∧ (∀ i ∈ is, r.1.bits[h.loc key i f.m]?.getD false = true) ∧ (r.2 = true → r.1 = f ∧ p = true) := by
  induction is with
  | nil => intro f p hl _; exact ⟨BF.Sub.refl f, hl, by simp, fun h => ⟨rfl, h⟩⟩
  | cons j is ih =>
    intro f p hl hloc
    rw [List.foldl_cons]
    by_cases hb : f.bits[h.loc key j f.m]?.getD false = true
    · rw [show BF.testOrSet h key (f, p) j = (f, p) from if_pos hb]
      obtain ⟨h1, h2, h3, h4⟩ := ih f p hl hloc
      refine ⟨h1, h2, ?_, h4⟩
      intro i hi
      rcases List.mem_cons.1 hi with rfl | hi
      · exact h1.2.2 _ hb
      · exact h3 i hi
    · rw [show BF.testOrSet h key (f, p) j = (⟨f.m, f.k, f.bits.set (h.loc key j f.m) true⟩, false) from if_neg hb]
      obtain ⟨h1, h2, h3, h4⟩ := ih ⟨f.m, f.k, f.bits.set (h.loc key j f.m) true⟩ false (by simpa using hl) hloc
      refine ⟨?_, h2, ?_, fun h => absurd (h4 h).2 (by simp)⟩
      · have h0 : f.Sub ⟨f.m, f.k, f.bits.set (h.loc key j f.m) true⟩ := by
          refine ⟨rfl, rfl, ?_⟩
          intro i hi
          simp only [set_getD]
          split
          · rfl
          · exact hi
        exact h0.trans h1
      · intro i hi
        rcases List.mem_cons.1 hi with rfl | hi
        · apply h1.2.2
          simp only [set_getD]
          rw [if_pos ⟨trivial, by rw [hl]; exact hloc i⟩]
        · exact h3 i hi

theorem testOrAdd_spec {h : BloomHash} (ok : HashOK h) {f : BF} (hm : 0 < f.m) (hl : f.bits.length = f.m) (key : Bytes) :
    f.Sub (f.testOrAdd h key).1 ∧ (f.testOrAdd h key).1.bits.length = (f.testOrAdd h key).1.m ∧
    (f.testOrAdd h key).1.test h key = true ∧ ((f.testOrAdd h key).2 = true → (f.testOrAdd h key).1 = f) := by
  obtain ⟨h1, h2, h3, h4⟩ := testOrAdd_loop h key (List.range f.k) f true hl (fun i => ok.loc key i f.m hm)
  refine ⟨h1, h2, ?_, fun h => (h4 h).1⟩
  unfold BF.test
  rw [List.all_eq_true]
  intro i hi
  have e1 : (f.testOrAdd h key).1.k = f.k := h1.2.1.symm
  have e2 : (f.testOrAdd h key).1.m = f.m := h1.1.symm
  rw [e1] at hi
  rw [e2]
  exact h3 i hi

theorem zipWith_or_getD {a b : List Bool} (h : a.length = b.length) (i : Nat) :
    (List.zipWith (· || ·) a b)[i]?.getD false = (a[i]?.getD false || b[i]?.getD false) := by
  rw [List.getElem?_zipWith]
  by_cases hi : i < a.length
  · have hb : i < b.length := by omega
    simp [hi, hb]
  · have hb : ¬ i < b.length := by omega
    rw [List.getElem?_eq_none (by omega), List.getElem?_eq_none (by omega)]
    rfl

theorem merge_spec {f g e : BF} (hf : f.bits.length = f.m) (hg : g.bits.length = g.m) (h : f.merge g = some e) :
    f.Sub e ∧ g.Sub e ∧ e.bits.length = e.m ∧ ∀ i : Nat, e.bits[i]?.getD false = (f.bits[i]?.getD false || g.bits[i]?.getD false) := by
  unfold BF.merge at h
  split at h
  · rename_i hmk
    cases h
    have hlen : f.bits.length = g.bits.length := by omega
    refine ⟨⟨rfl, rfl, ?_⟩, ⟨hmk.1.symm, hmk.2.symm, ?_⟩, by simp; omega, ?_⟩
    · intro i hi; simp only [zipWith_or_getD hlen, hi, Bool.true_or]
    · intro i hi; simp only [zipWith_or_getD hlen, hi, Bool.or_true]
    · intro i; exact zipWith_or_getD hlen i
  · cases h

/-- a decoder only produces filters with as many bits as they say (library ReadFrom) -/
def CodecOK (c : BFCodec) : Prop :=
  (∀ f : BF, f.bits.length = f.m → c.dec (c.enc f) = some f) ∧ ∀ b f, c.dec b = some f → f.bits.length = f.m

/-- a filter of `n` buckets with `m` bits and `k` hash functions each -/
structure Shape (m k n : Nat) (p : Bytes) (f : BloomFilter) : Prop where
  pref : f.keyPrefix = p
  num : f.numOfBuckets = n
  len : f.buckets.length = n
  nums : ∀ (i : Nat) (b : FBucket), f.buckets[i]? = some b → b.num = i
  dims : ∀ b ∈ f.buckets, b.filter.m = m ∧ b.filter.k = k ∧ b.filter.bits.length = m

theorem shape_new (m k n : Nat) (p : Bytes) : Shape m k n p (BloomFilter.new m k n p) := by
  refine ⟨rfl, rfl, by simp [BloomFilter.new], ?_, ?_⟩
  · intro i b h
    simp only [BloomFilter.new, List.getElem?_map] at h
    by_cases hi : i < n
    · rw [List.getElem?_range hi] at h
      simp at h; rw [← h]
    · rw [List.getElem?_eq_none (by simp; omega)] at h; cases h
  · intro b hb
    simp [BloomFilter.new, BF.new] at hb
    obtain ⟨i, _, rfl⟩ := hb
    simp

/-- every bucket of `f` is contained in the same bucket of `g` -/
def BSub (l l' : List FBucket) : Prop := l.length = l'.length ∧ ∀ (i : Nat) (b b' : FBucket), l[i]? = some b → l'[i]? = some b' → b.filter.Sub b'.filter

theorem BSub.refl (l : List FBucket) : BSub l l := ⟨rfl, fun i b b' h h' => by rw [h] at h'; cases h'; exact BF.Sub.refl _⟩

theorem BSub.trans {a b c : List FBucket} (h1 : BSub a b) (h2 : BSub b c) : BSub a c := by
  refine ⟨h1.1.trans h2.1, ?_⟩
  intro i x z hx hz
  have hi : i < b.length := by
    rw [← h1.1]
    exact (List.getElem?_eq_some_iff.1 hx).1
  exact (h1.2 i x b[i] hx (List.getElem?_eq_getElem hi)).trans (h2.2 i b[i] z (List.getElem?_eq_getElem hi) hz)

theorem mayContain_mono {h : BloomHash} {f g : BloomFilter} (hn : f.numOfBuckets = g.numOfBuckets) (s : BSub f.buckets g.buckets) {key : Bytes}
    (ht : f.mayContain h key = some true) : g.mayContain h key = some true := by
  unfold BloomFilter.mayContain at ht ⊢
  rw [← hn]
  cases hb : f.buckets[h.bucket key f.numOfBuckets]? with
  | none => rw [hb] at ht; cases ht
  | some b =>
    rw [hb] at ht
    simp at ht
    have hlt := (List.getElem?_eq_some_iff.1 hb).1
    rw [s.1] at hlt
    rw [List.getElem?_eq_getElem hlt]
    simp only [Option.map_some, Option.some.injEq]
    exact (s.2 _ _ _ hb (List.getElem?_eq_getElem hlt)).test ht

theorem add_spec {h : BloomHash} (ok : HashOK h) {m k n : Nat} {p : Bytes} {f : BloomFilter} (sh : Shape m k n p f) (hm : 0 < m) (hn : 0 < n)
    (key : Bytes) : ∃ f', f.add h key = some f' ∧ Shape m k n p f' ∧ BSub f.buckets f'.buckets ∧ f'.mayContain h key = some true := by
  unfold BloomFilter.add
  have hlt : h.bucket key f.numOfBuckets < f.buckets.length := by rw [sh.num, sh.len]; exact ok.bucket key n hn
  have hget := List.getElem?_eq_getElem hlt
  simp only
  rw [hget]
  generalize hi : h.bucket key f.numOfBuckets = i at *
  generalize hb : f.buckets[i] = b at *
  have hd := sh.dims b (by rw [← hb]; exact List.getElem_mem hlt)
  obtain ⟨s1, s2, s3, s4⟩ := testOrAdd_spec ok (f := b.filter) (by omega) (by omega) key
  refine ⟨_, rfl, ⟨sh.pref, sh.num, by simpa using sh.len, ?_, ?_⟩, ⟨by simp, ?_⟩, ?_⟩
  · intro j b' hj
    by_cases hji : i = j
    · subst hji
      simp only [List.getElem?_set_self hlt, Option.some.injEq] at hj
      rw [← hj]
      exact sh.nums i b hget
    · rw [List.getElem?_set_ne hji] at hj
      exact sh.nums j b' hj
  · intro b' hb'
    rcases List.mem_or_eq_of_mem_set hb' with hm' | rfl
    · exact sh.dims b' hm'
    · exact ⟨by rw [← hd.1]; exact s1.1.symm, by rw [← hd.2.1]; exact s1.2.1.symm, by simp only; rw [s2, ← s1.1, hd.1]⟩
  · intro j x y hx hy
    by_cases hji : i = j
    · subst hji
      simp only [List.getElem?_set_self hlt, Option.some.injEq] at hy
      rw [hget] at hx
      cases hx
      rw [← hy]; exact s1
    · rw [List.getElem?_set_ne hji, hx] at hy
      cases hy
      exact BF.Sub.refl _
  · unfold BloomFilter.mayContain
    simp only [hi, List.getElem?_set_self hlt, Option.map_some, Option.some.injEq]
    exact s3

theorem loadLoop_sub {c : BFCodec} (cok : CodecOK c) {m k : Nat} (store : FStore) (p : Bytes) : ∀ bs : List FBucket,
    (∀ b ∈ bs, b.filter.m = m ∧ b.filter.k = k ∧ b.filter.bits.length = m) →
    BSub bs (loadLoop c store p bs).1 ∧ (∀ i : Nat, ((loadLoop c store p bs).1[i]?).map (·.num) = (bs[i]?).map (·.num)) ∧
    ∀ b ∈ (loadLoop c store p bs).1, b.filter.m = m ∧ b.filter.k = k ∧ b.filter.bits.length = m := by
  intro bs
  induction bs with
  | nil => intro _; exact ⟨BSub.refl _, by simp [loadLoop], by simp [loadLoop]⟩
  | cons b bs ih =>
    intro hd
    have same : BSub (b :: bs) (b :: bs) ∧ (∀ i : Nat, ((b :: bs)[i]?).map (·.num) = ((b :: bs)[i]?).map (·.num)) ∧
        ∀ b' ∈ b :: bs, b'.filter.m = m ∧ b'.filter.k = k ∧ b'.filter.bits.length = m := ⟨BSub.refl _, fun _ => rfl, hd⟩
    unfold loadLoop
    cases hs : store (bloomKey p b.num) with
    | none => exact same
    | some data =>
      simp only
      cases hc : c.dec data with
      | none => exact same
      | some g =>
        simp only
        cases hg : b.filter.merge g with
        | none => exact same
        | some e =>
          simp only
          have hb := hd b (by simp)
          obtain ⟨h1, h2, h3⟩ := ih (fun b' hb' => hd b' (by simp [hb']))
          obtain ⟨m1, m2, m3, m4⟩ := merge_spec (by omega) (cok.2 _ _ hc) hg
          refine ⟨⟨by simp [h1.1], ?_⟩, ?_, ?_⟩
          · intro i x y hx hy
            cases i with
            | zero => simp at hx hy; rw [← hx, ← hy]; exact m1
            | succ i => simp at hx hy; exact h1.2 i x y hx hy
          · intro i
            cases i with
            | zero => rfl
            | succ i => simpa using h2 i
          · intro b' hb'
            rcases List.mem_cons.1 hb' with rfl | hb'
            · exact ⟨by rw [← hb.1]; exact m1.1.symm, by rw [← hb.2.1]; exact m1.2.1.symm, by simp only; rw [m3, ← m1.1, hb.1]⟩
            · exact h3 b' hb'

theorem load_sub {c : BFCodec} (cok : CodecOK c) {m k n : Nat} {p : Bytes} {f : BloomFilter} (sh : Shape m k n p f) (store : FStore) :
    Shape m k n p (f.load c store).1 ∧ BSub f.buckets (f.load c store).1.buckets := by
  unfold BloomFilter.load
  split
  · exact ⟨sh, BSub.refl _⟩
  · split
    · exact ⟨sh, BSub.refl _⟩
    · split
      · exact ⟨sh, BSub.refl _⟩
      · obtain ⟨h1, h2, h3⟩ := loadLoop_sub cok store f.keyPrefix f.buckets sh.dims
        refine ⟨⟨sh.pref, sh.num, by simp only; rw [← h1.1, sh.len], ?_, h3⟩, h1⟩
        intro i b hb
        have := h2 i
        simp only at hb
        rw [hb] at this
        cases hf : f.buckets[i]? with
        | none => rw [hf] at this; cases this
        | some b0 =>
          rw [hf] at this
          simp at this
          rw [this]
          exact sh.nums i b0 hf

theorem saveLoop_same (c : BFCodec) (setOk : Nat → Bool) (p : Bytes) : ∀ (bs : List FBucket) (n : Nat) (store : FStore),
    (saveLoop c setOk p bs n store).1.map (fun b => (b.num, b.filter)) = bs.map (fun b => (b.num, b.filter)) := by
  intro bs
  induction bs with
  | nil => intro n store; rfl
  | cons b bs ih =>
    intro n store
    unfold saveLoop
    split
    · simp [ih]
    · split
      · simp [ih]
      · rfl

theorem bsub_of_map {l l' : List FBucket} (h : l'.map (fun b => (b.num, b.filter)) = l.map (fun b => (b.num, b.filter))) : BSub l l' := by
  refine ⟨by simpa using (congrArg List.length h).symm, ?_⟩
  intro i b b' hb hb'
  have : (l'.map (fun b => (b.num, b.filter)))[i]? = (l.map (fun b => (b.num, b.filter)))[i]? := by rw [h]
  simp only [List.getElem?_map, hb, hb', Option.map_some, Option.some.injEq, Prod.mk.injEq] at this
  rw [this.2]
  exact BF.Sub.refl _

theorem save_sub {c : BFCodec} {m k n : Nat} {p : Bytes} {f : BloomFilter} (sh : Shape m k n p f) (setOk : Nat → Bool) (store : FStore) :
    Shape m k n p (f.save c setOk store).1 ∧ BSub f.buckets (f.save c setOk store).1.buckets := by
  unfold BloomFilter.save
  split
  · have h := saveLoop_same c setOk f.keyPrefix f.buckets 1 (store.set (bloomNumKey f.keyPrefix) (beBytes 8 f.numOfBuckets))
    refine ⟨⟨sh.pref, sh.num, ?_, ?_, ?_⟩, bsub_of_map h⟩
    · have := congrArg List.length h
      simp at this
      simp only; rw [this, sh.len]
    · intro i b hb
      simp only at hb
      have hi := congrArg (·[i]?) h
      simp only [List.getElem?_map, hb, Option.map_some] at hi
      cases hf : f.buckets[i]? with
      | none => rw [hf] at hi; cases hi
      | some b0 =>
        rw [hf] at hi
        simp at hi
        rw [hi.1]; exact sh.nums i b0 hf
    · intro b hb
      simp only at hb
      obtain ⟨i, hi, hbi⟩ := List.getElem_of_mem hb
      have hh := congrArg (·[i]?) h
      simp only [List.getElem?_map, List.getElem?_eq_getElem hi, Option.map_some] at hh
      cases hf : f.buckets[i]? with
      | none => rw [hf] at hh; cases hh
      | some b0 =>
        rw [hf, hbi] at hh
        simp at hh
        rw [hh.2]
        exact sh.dims b0 (List.mem_of_getElem? hf)
  · exact ⟨sh, BSub.refl _⟩

theorem addAll_spec {h : BloomHash} (ok : HashOK h) {m k n : Nat} {p : Bytes} (hm : 0 < m) (hn : 0 < n) (keys : List Bytes) :
    ∀ {f : BloomFilter}, Shape m k n p f →
    ∃ f', f.addAll h keys = some f' ∧ Shape m k n p f' ∧ BSub f.buckets f'.buckets ∧ ∀ key ∈ keys, f'.mayContain h key = some true := by
  induction keys with
  | nil => intro f sh; exact ⟨f, rfl, sh, BSub.refl _, by simp⟩
  | cons key keys ih =>
    intro f sh
    obtain ⟨f1, a1, a2, a3, a4⟩ := add_spec ok sh hm hn key
    obtain ⟨f2, b1, b2, b3, b4⟩ := ih a2
    refine ⟨f2, ?_, b2, a3.trans b3, ?_⟩
    · show (f.add h key >>= fun f => f.addAll h keys) = _
      rw [a1]; exact b1
    · intro k' hk'
      rcases List.mem_cons.1 hk' with rfl | hk'
      · exact mayContain_mono (a2.num.trans b2.num.symm) b3 a4
      · exact b4 k' hk'

end Bond
