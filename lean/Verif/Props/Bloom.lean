import Verif.BloomStore
import Verif.BloomRaceLemmas
import Verif.AnyScanner
import Verif.Props.Scans
import Verif.Props.Reads
/-
Properties C39, C40, C41: the bloom filter.
-/
namespace Bond
open Spec

/-! ## Histories -/

/-- what a program does with one filter and one store -/
inductive BOp
  /-- `Add(key)` -/
  | add (key : Bytes)
  /-- `Load` from the store -/
  | load
  /-- `Save` to the store; the n-th Set succeeds iff `setOk n` -/
  | save (setOk : Nat → Bool)
  /-- `Clear` of the store -/
  | clear (delOk : Bool)
  /-- the store is replaced by another one -/
  | swap (store : FStore)

/-- one call (a panic of `Add` changes nothing) -/
def BOp.run (h : BloomHash) (c : BFCodec) (s : BloomFilter × FStore) : BOp → BloomFilter × FStore
  | .add key => ((s.1.add h key).getD s.1, s.2)
  | .load => ((s.1.load c s.2).1, s.2)
  | .save setOk => ((s.1.save c setOk s.2).1, (s.1.save c setOk s.2).2.1)
  | .clear delOk => (s.1, (s.1.clear delOk s.2).1)
  | .swap store => (s.1, store)

/-- a history of calls -/
def runBOps (h : BloomHash) (c : BFCodec) (s : BloomFilter × FStore) (ops : List BOp) : BloomFilter × FStore := ops.foldl (BOp.run h c) s

/-- the calls leave the store to this filter: no Clear, no exchange of the store -/
def BOp.own : BOp → Bool
  | .clear _ | .swap _ => false
  | _ => true

theorem runBOps_sub {h : BloomHash} (ok : HashOK h) {c : BFCodec} (cok : CodecOK c) {m k n : Nat} {p : Bytes} (hm : 0 < m) (hn : 0 < n)
    (ops : List BOp) : ∀ {s : BloomFilter × FStore}, Shape m k n p s.1 →
    Shape m k n p (runBOps h c s ops).1 ∧ BSub s.1.buckets (runBOps h c s ops).1.buckets ∧
    ∀ key, .add key ∈ ops → (runBOps h c s ops).1.mayContain h key = some true := by
  induction ops with
  | nil => intro s sh; exact ⟨sh, BSub.refl _, by simp⟩
  | cons op ops ih =>
    intro s sh
    have hstep : Shape m k n p (op.run h c s).1 ∧ BSub s.1.buckets (op.run h c s).1.buckets ∧
        ∀ key, op = .add key → (op.run h c s).1.mayContain h key = some true := by
      cases op with
      | add key =>
        obtain ⟨f', h1, h2, h3, h4⟩ := add_spec ok sh hm hn key
        simp only [BOp.run, h1, Option.getD_some]
        exact ⟨h2, h3, fun k he => by cases he; exact h4⟩
      | load => obtain ⟨h1, h2⟩ := load_sub cok sh s.2; exact ⟨h1, h2, fun k he => by cases he⟩
      | save setOk => obtain ⟨h1, h2⟩ := save_sub (c := c) sh setOk s.2; exact ⟨h1, h2, fun k he => by cases he⟩
      | clear delOk => exact ⟨sh, BSub.refl _, fun k he => by cases he⟩
      | swap st => exact ⟨sh, BSub.refl _, fun k he => by cases he⟩
    obtain ⟨i1, i2, i3⟩ := ih hstep.1
    refine ⟨i1, hstep.2.1.trans i2, ?_⟩
    intro key hk
    rcases List.mem_cons.1 hk with he | hk
    · refine mayContain_mono ?_ i2 (hstep.2.2 key he.symm)
      rw [hstep.1.num, i1.num]
    · exact i3 key hk

theorem runBOps_synced {h : BloomHash} (ok : HashOK h) {c : BFCodec} (cok : CodecOK c) {m k n : Nat} {p : Bytes} (hm : 0 < m) (hn : 0 < n)
    (ops : List BOp) (hown : ∀ op ∈ ops, op.own = true) : ∀ {s : BloomFilter × FStore}, Shape m k n p s.1 → Synced c m k s.2 s.1 →
    Synced c m k (runBOps h c s ops).2 (runBOps h c s ops).1 := by
  induction ops with
  | nil => intro s _ sy; exact sy
  | cons op ops ih =>
    intro s sh sy
    have hs : Shape m k n p (op.run h c s).1 := (runBOps_sub ok cok hm hn [op] sh).1
    refine ih (fun o ho => hown o (by simp [ho])) hs ?_
    have := hown op (by simp)
    cases op with
    | add key =>
      obtain ⟨f', h1, _⟩ := add_spec ok sh hm hn key
      simp only [BOp.run, h1, Option.getD_some]
      exact synced_add ok sh hm sy h1
    | load => exact synced_load cok sy
    | save setOk => exact (synced_save cok sh sy setOk).1
    | clear => cases this
    | swap => cases this

theorem runBOps_storeHas {h : BloomHash} (ok : HashOK h) {c : BFCodec} (cok : CodecOK c) {m k n : Nat} {p : Bytes} (hm : 0 < m) (hn : 0 < n)
    {g : BloomFilter} (shg : Shape m k n p g)
    (ops : List BOp) (hown : ∀ op ∈ ops, op.own = true) : ∀ {s : BloomFilter × FStore}, Shape m k n p s.1 → BSub g.buckets s.1.buckets →
    StoreHas c n p s.2 g.buckets → StoreHas c n p (runBOps h c s ops).2 g.buckets := by
  induction ops with
  | nil => intro s _ _ hs; exact hs
  | cons op ops ih =>
    intro s sh sub hs
    obtain ⟨h1, h2, _⟩ := runBOps_sub ok cok hm hn [op] sh
    refine ih (fun o ho => hown o (by simp [ho])) h1 (sub.trans h2) ?_
    have := hown op (by simp)
    cases op with
    | add key => exact hs
    | load => exact hs
    | save setOk => exact storeHas_save cok shg sh sub hs setOk
    | clear => cases this
    | swap => cases this

/-! ## Concrete hash functions and encoding for the examples and witnesses -/

/-- example: sum of the bytes; the bucket is the last byte -/
def exHash : BloomHash where
  loc key i m := (key.foldl (fun a b => a + b.toNat) 0 + i) % m
  bucket key n := (key.getLastD 0).toNat % n

theorem exHash_ok : HashOK exHash := ⟨fun _ _ _ h => Nat.mod_lt _ h, fun _ _ h => Nat.mod_lt _ h⟩

/-- example encoding: number in unary -/
def unary : Bytes → Option (Nat × Bytes)
  | [] => none
  | b :: r => if b = 0 then some (0, r) else (unary r).map fun p => (p.1 + 1, p.2)

theorem unary_replicate (n : Nat) (r : Bytes) : unary (List.replicate n 1 ++ 0 :: r) = some (n, r) := by
  induction n with
  | zero => simp [unary]
  | succ n ih => rw [List.replicate_succ, List.cons_append, unary, ih]; simp

/-- example encoding -/
def exCodec : BFCodec where
  enc f := List.replicate f.m 1 ++ 0 :: (List.replicate f.k 1 ++ 0 :: f.bits.map fun b => if b then 1 else 0)
  dec b :=
    match unary b with
    | none => none
    | some (m, r) =>
      match unary r with
      | none => none
      | some (k, r) => if r.length = m then some ⟨m, k, r.map (· == 1)⟩ else none

theorem exCodec_ok : CodecOK exCodec := by
  constructor
  · intro f hf
    have hb : (f.bits.map fun b => if b then (1 : UInt8) else 0).map (· == 1) = f.bits := by
      rw [List.map_map]
      conv => rhs; rw [← List.map_id f.bits]
      apply List.map_congr_left
      intro b _; cases b <;> rfl
    simp only [exCodec, unary_replicate, List.length_map, hf, if_true, hb]
  · intro b f h
    simp only [exCodec] at h
    split at h
    · cases h
    · split at h
      · cases h
      · split at h
        · cases h; simp_all
        · cases h

/-- example key prefix -/
def exPrefix : Bytes := [0, 0, 95]

/-! ## C39 The bloom filter has no false negatives -/

/-- C39 for calls that do not overlap: whatever is added, loaded (from any store, with any outcome), saved or cleared, every key added so
far may be contained. `Add` and `MayContain` never panic.
Missing for the full C39: overlapping calls of Add, see `C39_concurrent_partial`, `C39_refuted_bits`, `C39_refuted_flag`. -/
theorem C39_partial {h : BloomHash} (ok : HashOK h) {c : BFCodec} (cok : CodecOK c) (m k n : Nat) (p : Bytes) (hm : 0 < m) (hn : 0 < n)
    (store : FStore) (ops : List BOp) (key : Bytes) (hk : .add key ∈ ops) :
    (runBOps h c (BloomFilter.new m k n p, store) ops).1.mayContain h key = some true :=
  (runBOps_sub ok cok hm hn ops (shape_new m k n p)).2.2 key hk

example : HashOK exHash ∧ CodecOK exCodec ∧
    (runBOps exHash exCodec (BloomFilter.new 8 2 2 exPrefix, fun _ => none)
      [.add [1], .save (fun _ => true), .add [2], .clear true, .load]).1.mayContain exHash [1] = some true ∧
    (BloomFilter.new 8 2 2 exPrefix).mayContain exHash [1] = some false :=
  ⟨exHash_ok, exCodec_ok, by decide, by decide⟩

/-- A well-formed bloom filter in memory is a sound filter in the sense used for the tables (C38): adding makes a key possible and
keeps all others. -/
def bloomAsFilter {h : BloomHash} (ok : HashOK h) {m k n : Nat} {p : Bytes} (hm : 0 < m) (hn : 0 < n) : Filter {f : BloomFilter // Shape m k n p f} where
  add f key := ⟨(f.1.add h key).getD f.1, by obtain ⟨f', h1, h2, _⟩ := add_spec ok f.2 hm hn key; rw [h1]; exact h2⟩
  may f key := (f.1.mayContain h key).getD true

theorem C39_filterSound {h : BloomHash} (ok : HashOK h) {m k n : Nat} {p : Bytes} (hm : 0 < m) (hn : 0 < n)
    (t : Table T {f : BloomFilter // Shape m k n p f}) (ht : t.filter = some (bloomAsFilter ok hm hn)) : t.FilterSound := by
  intro fl hfl f key
  rw [ht] at hfl
  cases hfl
  obtain ⟨f', h1, h2, h3, h4⟩ := add_spec ok f.2 hm hn key
  simp only [bloomAsFilter, h1, Option.getD_some, h4, true_and]
  intro key' hk
  have hlt : h.bucket key' f.1.numOfBuckets < f.1.buckets.length := by rw [f.2.num, f.2.len]; exact ok.bucket key' n hn
  have hsome : f.1.mayContain h key' = some true := by
    unfold BloomFilter.mayContain at hk ⊢
    rw [List.getElem?_eq_getElem hlt] at hk ⊢
    simpa using hk
  rw [mayContain_mono (by rw [f.2.num, h2.num]) h3 hsome]
  rfl

/-- the theorem at the test table with two buckets of eight bits -/
example := C39_filterSound exHash_ok (m := 8) (k := 2) (n := 2) (p := exPrefix) (by decide) (by decide)
  ({ id := 7, pk := exTable.pk, indexes := exTable.indexes, ser := exTable.ser, deser := exTable.deser, nil := (0, 0), empty := (0, 0)
     filter := some (bloomAsFilter exHash_ok (by decide) (by decide)), prefetch := 100 } : Table Rec {f : BloomFilter // Shape 8 2 2 exPrefix f}) rfl

/-- One call of `Add` that runs alone does, step by step on the words, what the model of `Add` says. -/
theorem C39_alone {h : BloomHash} (b : FBucket) (hk : 0 < b.filter.k) (key : Bytes) :
    ∃ N, let s := (AddSys.start b [key]).run h (List.replicate N 0)
      s.calls = [(key, .done)] ∧
      s.bucket b = { b with filter := (b.filter.testOrAdd h key).1, hasChanges := !(b.filter.testOrAdd h key).2 || b.hasChanges } := by
  obtain ⟨N, h1, h2, h3⟩ := solo_loop h key b.filter.m b.filter.k b.filter.k 0 rfl hk b.filter.bits b.hasChanges true
  rw [← List.range_eq_range'] at h1 h2 h3
  have hst : AddSys.start b [key] = ⟨b.filter.m, b.filter.k, b.filter.bits, b.hasChanges, [(key, .test 0 true)]⟩ := by
    simp [AddSys.start, hk]
  refine ⟨N + 2, ?_⟩
  rw [hst, ← List.replicate_append_replicate, AddSys.run, List.foldl_append]
  unfold AddSys.run at h1
  rw [h1]
  refine ⟨rfl, ?_⟩
  show FBucket.mk b.num (if (!_) = true then true else b.hasChanges) b.hasBeenWritten ⟨b.filter.m, b.filter.k, _⟩ = _
  change (b.filter.testOrAdd h key).1.m = _ at h2
  change (b.filter.testOrAdd h key).1.k = _ at h3
  show FBucket.mk b.num (if (!(b.filter.testOrAdd h key).2) = true then true else b.hasChanges) b.hasBeenWritten
    ⟨b.filter.m, b.filter.k, (b.filter.testOrAdd h key).1.bits⟩ = _
  rw [← h2, ← h3]
  cases (b.filter.testOrAdd h key).2 <;> simp

/-- the theorem at an empty bucket of eight bits -/
example := C39_alone (h := exHash) ⟨0, false, true, BF.new 8 1⟩ (by decide) [5]

/-- C39 under concurrency, for keys whose Add has returned before the concurrent calls start: any number of overlapping Adds on a bucket,
in any schedule and at any moment, loses none of them.
Missing for the full C39: keys added by the overlapping calls themselves, see `C39_refuted_bits`. -/
theorem C39_concurrent_partial {h : BloomHash} (b : FBucket) (keys : List Bytes) (sched : List Nat) (key : Bytes)
    (hk : b.filter.test h key = true) : ((AddSys.start b keys).run h sched).bf.test h key = true := by
  obtain ⟨inv, hm, hk'⟩ := AddSys.run_kept sched (kept_start h b keys)
  have : b.filter.Sub ((AddSys.start b keys).run h sched).bf := ⟨hm.symm, hk'.symm, inv.bits⟩
  exact this.test hk

/-- example bucket -/
def exBucket : FBucket := ⟨0, false, true, (BF.new 8 1)⟩

example : ({ exBucket with filter := (exBucket.filter.testOrAdd exHash [5]).1 } : FBucket).filter.test exHash [5] = true ∧
    exBucket.filter.test exHash [5] = false := by decide

/-- C39 under concurrency, for the keys of the overlapping calls themselves: an Add that has returned is not lost, at any later moment of any
schedule, if none of the other keys that are being added has a bit in the same 64-bit word as one of its bits. -/
theorem C39_words_partial {h : BloomHash} (ok : HashOK h) (b : FBucket) (hm : 0 < b.filter.m) (hl : b.filter.bits.length = b.filter.m)
    (keys : List Bytes) (sched : List Nat) {t : Nat} {key : Bytes}
    (apart : ∀ t' key', t' ≠ t → keys[t']? = some key' → ∀ i j, i < b.filter.k → j < b.filter.k →
      h.loc key i b.filter.m / 64 ≠ h.loc key' j b.filter.m / 64)
    (hd : ((AddSys.start b keys).run h sched).calls[t]? = some (key, .done)) (ht : keys[t]? = some key) :
    ((AddSys.start b keys).run h sched).bf.test h key = true := by
  obtain ⟨_, hp⟩ := (ownWords_start ht apart).run ok sched (b0 := b.filter.bits) hm hl (kept_start h b keys) |>.progress
  rw [hd] at hp
  obtain ⟨he, hp⟩ := hp
  cases he
  unfold BF.test
  rw [List.all_eq_true]
  intro j hj
  exact hp j (List.mem_range.1 hj)

/-- two keys with their bits in different words; the calls overlap -/
example : let b : FBucket := ⟨0, false, true, BF.new 128 1⟩
    let h : BloomHash := ⟨fun key _ m => (key.headD 0).toNat * 64 % m, fun _ _ => 0⟩
    let s := (AddSys.start b [[0], [1]]).run h [0, 0, 1, 1, 0, 0, 0, 1, 1, 1]
    h.loc [0] 0 128 / 64 ≠ h.loc [1] 0 128 / 64 ∧ s.calls = [([0], .done), ([1], .done)] ∧ s.bf.test h [0] = true ∧ s.bf.test h [1] = true := by
  decide

/-- The flag that tells Save to write a bucket stays set through any overlapping calls: it can only be lost in a bucket that had no unsaved
change when the calls started (`C39_refuted_flag`). -/
theorem C39_flag (h : BloomHash) (b : FBucket) (hb : b.hasChanges = true) (keys : List Bytes) (sched : List Nat) :
    (((AddSys.start b keys).run h sched).bucket b).hasChanges = true := by
  refine AddSys.run_flag h sched hb ?_
  intro c hc
  simp only [AddSys.start, List.mem_map] at hc
  obtain ⟨k, _, rfl⟩ := hc
  simp only
  split <;> simp

example : (((AddSys.start { exBucket with hasChanges := true } [[1], [2]]).run exHash [0, 0, 1, 1, 1, 1, 1, 0]).bucket exBucket).hasChanges =
    true := by decide

/-- C39 is false under concurrency: two Adds overlap, both return, and one of the two keys is reported as absent: both calls load the
same word, each sets its own bit, and the second store overwrites the first. -/
theorem C39_refuted_bits :
    let s := (AddSys.start exBucket [[1], [2]]).run exHash [0, 0, 1, 1, 0, 0, 0, 1, 1, 1]
    s.calls = [([1], .done), ([2], .done)] ∧ s.bf.test exHash [1] = false := by
  decide

/-- Even if no bit is lost, the flag that tells Save which buckets changed can be: one call re-adds a known key, another adds a new one; the
first loads the flag before the second sets it and stores it back afterwards. Both calls return; Save succeeds but writes nothing, and a new
process that loads the filter reports the new key as absent. -/
theorem C39_refuted_flag :
    let b : FBucket := { exBucket with filter := (exBucket.filter.testOrAdd exHash [1]).1 }
    let store : FStore := FStore.set (FStore.set (fun _ => none) (bloomNumKey exPrefix) (beBytes 8 1)) (bloomKey exPrefix 0) (exCodec.enc b.filter)
    let s := (AddSys.start b [[1], [2]]).run exHash [0, 0, 1, 1, 1, 1, 1, 0]
    let f : BloomFilter := ⟨exPrefix, 1, [s.bucket b]⟩
    let r := f.save exCodec (fun _ => true) store
    s.calls = [([1], .done), ([2], .done)] ∧ f.mayContain exHash [2] = some true ∧ r.2.2 = .ok ∧
    ((BloomFilter.new 8 1 1 exPrefix).load exCodec r.2.1).2 = .ok ∧
    ((BloomFilter.new 8 1 1 exPrefix).load exCodec r.2.1).1.mayContain exHash [2] = some false := by
  decide

/-! ## C40 Filter save/load round trip and rebuild -/

/-- C40, round trip: after any history of Adds, Loads and (also failing) Saves on one store, a Save that returns no error leaves a store
from which a new filter with the same configuration loads without error and answers exactly as the saved one. -/
theorem C40_roundtrip {h : BloomHash} (ok : HashOK h) {c : BFCodec} (cok : CodecOK c) (m k n : Nat) (p : Bytes) (hm : 0 < m) (hn : 0 < n)
    (hn64 : n < 2 ^ 64) (store : FStore) (ops : List BOp) (hown : ∀ op ∈ ops, op.own = true) (setOk : Nat → Bool) :
    let s := runBOps h c (BloomFilter.new m k n p, store) ops
    let r := s.1.save c setOk s.2
    r.2.2 = .ok → ((BloomFilter.new m k n p).load c r.2.1).2 = .ok ∧
      ∀ key, ((BloomFilter.new m k n p).load c r.2.1).1.mayContain h key = s.1.mayContain h key := by
  intro s r hok
  obtain ⟨sh, _, _⟩ := runBOps_sub ok cok (s := (BloomFilter.new m k n p, store)) hm hn ops (shape_new m k n p)
  have sy := runBOps_synced ok cok (s := (BloomFilter.new m k n p, store)) hm hn ops hown (shape_new m k n p) (synced_new c m k n p store)
  obtain ⟨h1, h2⟩ := (synced_save cok sh sy setOk).2 hok
  obtain ⟨sh', _⟩ := save_sub (c := c) sh setOk s.2
  obtain ⟨l1, l2⟩ := load_fresh cok hn64 sh' h1 h2
  refine ⟨l1, fun key => ?_⟩
  rw [l2 h key]
  apply mayContain_filters
  · rw [sh'.num, sh.num]
  · have hs := saveLoop_same c setOk s.1.keyPrefix s.1.buckets 1 (s.2.set (bloomNumKey s.1.keyPrefix) (beBytes 8 s.1.numOfBuckets))
    have : (s.1.save c setOk s.2).1.buckets.map (fun b => (b.num, b.filter)) = s.1.buckets.map (fun b => (b.num, b.filter)) := by
      unfold BloomFilter.save
      split
      · exact hs
      · rfl
    have := congrArg (List.map Prod.snd) this
    simpa [List.map_map, Function.comp_def] using this

/-- the theorem at a history with a failing Save -/
example := C40_roundtrip exHash_ok exCodec_ok 8 2 2 exPrefix (by decide) (by decide) (by decide) (fun _ => none)
  [.add [1], .save (fun n => n != 1), .add [2], .load] (by decide) (fun _ => true)

/-- A Save whose Set calls succeed returns no error. -/
theorem C40_save_ok (c : BFCodec) (f : BloomFilter) (store : FStore) : (f.save c (fun _ => true) store).2.2 = .ok := save_ok c f store

/-- round trip with two buckets, a failed Save in between -/
example : let s := runBOps exHash exCodec (BloomFilter.new 8 2 2 exPrefix, fun _ => none) [.add [1], .save (fun n => n != 1), .add [2], .load]
    (s.1.save exCodec (fun _ => true) s.2).2.2 = .ok ∧
    ((BloomFilter.new 8 2 2 exPrefix).load exCodec (s.1.save exCodec (fun _ => true) s.2).2.1).1.mayContain exHash [2] = some true ∧
    ((BloomFilter.new 8 2 2 exPrefix).load exCodec s.2).2 = .err := by
  decide

theorem scanLoop_spec {h : BloomHash} (ok : HashOK h) {m k n : Nat} {p : Bytes} (hm : 0 < m) (hn : 0 < n) (scanners : List KeyScan) :
    ∀ {f : BloomFilter}, Shape m k n p f → (scanLoop h f scanners).2 = .ok →
    Shape m k n p (scanLoop h f scanners).1 ∧ BSub f.buckets (scanLoop h f scanners).1.buckets ∧
    ∀ s ∈ scanners, ∀ key ∈ s.keys, (scanLoop h f scanners).1.mayContain h key = some true := by
  induction scanners with
  | nil => intro f sh _; exact ⟨sh, BSub.refl _, by simp⟩
  | cons s ss ih =>
    intro f sh
    obtain ⟨f', h1, h2, h3, h4⟩ := addAll_spec ok hm hn s.keys sh
    unfold scanLoop
    rw [h1]
    simp only
    split
    · intro hr
      obtain ⟨i1, i2, i3⟩ := ih h2 hr
      refine ⟨i1, h3.trans i2, ?_⟩
      intro s' hs' key hk
      rcases List.mem_cons.1 hs' with rfl | hs'
      · exact mayContain_mono (by rw [h2.num, i1.num]) i2 (h4 key hk)
      · exact i3 s' hs' key hk
    · intro hr; cases hr

/-- C40, rebuild: whatever the store contains, if Initialize of a new filter returns no error then either the stored filter was loaded
completely, or the filter contains every key the scanners delivered, each scanner ending without error. -/
theorem C40_rebuild {h : BloomHash} (ok : HashOK h) {c : BFCodec} (cok : CodecOK c) (m k n : Nat) (p : Bytes) (hm : 0 < m) (hn : 0 < n)
    (delOk : Bool) (store : FStore) (scanners : List KeyScan) :
    let r := filterInitialize h c delOk (BloomFilter.new m k n p) store scanners
    r.2.2 = .ok → ((BloomFilter.new m k n p).load c store).2 = .ok ∨
      ∀ s ∈ scanners, s.ok = true ∧ ∀ key ∈ s.keys, r.1.mayContain h key = some true := by
  intro r hr
  have hsl := load_sub cok (shape_new m k n p) store
  have hokAll : ∀ (ss : List KeyScan) (f : BloomFilter), (scanLoop h f ss).2 = .ok → ∀ s ∈ ss, s.ok = true := by
    intro ss
    induction ss with
    | nil => intro f _ s hs; cases hs
    | cons a ss ih =>
      intro f hf s hs
      unfold scanLoop at hf
      split at hf
      · cases hf
      · split at hf
        · rename_i ha
          rcases List.mem_cons.1 hs with rfl | hs
          · exact ha
          · exact ih _ hf s hs
        · cases hf
  have key : ∀ lr : BloomFilter × FRes, (BloomFilter.new m k n p).load c store = lr → lr.2 = .ok ∨
      ∀ s ∈ scanners, s.ok = true ∧ ∀ key ∈ s.keys, r.1.mayContain h key = some true := by
    rintro ⟨f', res⟩ hl
    cases res with
    | ok => exact Or.inl rfl
    | panic =>
      have : r = (f', store, .panic) := by simp only [r, filterInitialize, hl]
      rw [this] at hr; cases hr
    | err =>
      right
      rw [hl] at hsl
      cases hcl : f'.clear delOk store with
      | mk store' res =>
        have hrr : r = match (store', res) with
            | (store', .ok) => ((scanLoop h f' scanners).1, store', (scanLoop h f' scanners).2)
            | (store', x) => (f', store', x) := by
          simp only [r, filterInitialize, hl, hcl]
          cases res <;> rfl
        cases res with
        | ok =>
          rw [hrr] at hr ⊢
          simp only at hr ⊢
          exact fun s hs => ⟨hokAll _ _ hr s hs, (scanLoop_spec ok hm hn scanners hsl.1 hr).2.2 s hs⟩
        | err => rw [hrr] at hr; cases hr
        | panic => rw [hrr] at hr; cases hr
  have := key _ rfl
  exact this

example : (filterInitialize exHash exCodec true (BloomFilter.new 8 2 2 exPrefix) (fun _ => none) [⟨[[1], [2]], true⟩, ⟨[[3]], true⟩]).2.2 = .ok ∧
    ((BloomFilter.new 8 2 2 exPrefix).load exCodec (fun _ => none)).2 = .err := by decide

/-- filter.go:65-68 with a list in place of the filter: the callback that notes the key and goes on -/
def collectCb {T : Type} : List Bytes → Bytes → Cb (List Bytes) T := fun s k => .ret (s ++ [k]) true none

/-- what FilterInitialize gets from a table (filter.go:65-68): the scan through the table's scanner ends and delivers `s` -/
def ScansTo (t : Table T F) (env : Env T) (filt : F) (db : KV) (s : KeyScan) : Prop :=
  ∃ N, ∀ fuel, N ≤ fuel → ∃ o : ScanOut (List Bytes), t.anyScanForEach env filt (fun _ => (db, none)) collectCb false fuel [] = some o ∧
    s.keys = o.s ∧ s.ok = o.err.isNone

theorem runRows_collect {T : Type} (l : List (Bytes × T)) : ∀ s, runRows (collectCb (T := T)) l s = ⟨s ++ l.map (·.1), none⟩ := by
  induction l with
  | nil => intro s; simp [runRows]
  | cons a l ih =>
    intro s
    rw [runRows]
    simp only [collectCb, Cb.run]
    show (if _ then _ else runRows collectCb l (s ++ [a.1])) = _
    rw [if_neg (by simp), ih]
    simp

/-- The scan FilterInitialize makes of a table delivers exactly the keys of its rows, when no stored primary key is below that of the
table's empty record. (`Setting` asks that the table's own filter reports all rows; while a FilterInitializable is being initialized it
reports everything, filter.go:30-36.) -/
theorem C40_scan_partial {t : Table T F} {env : Env T} {filt : F} {db : KV} {m : Rows T}
    (S : Setting t env filt db none m) (hlow : ∀ pk x, m pk = some x → ble (t.pk t.empty) pk = true) :
    ∃ s : KeyScan, ScansTo t env filt db s ∧ s.ok = true ∧ ∀ key, key ∈ s.keys ↔ ∃ pk x, m pk = some x ∧ key = dataKey t.id pk := by
  have hi : IsIndex t t.primaryIndex := Or.inr rfl
  have hkey : ∀ x, t.primaryIndex.key x = [] := fun _ => rfl
  have hord : ∀ x, t.primaryIndex.ord x = [] := fun _ => rfl
  have hlt : ∀ x y, IdxLt t t.primaryIndex x y ↔ blt (t.pk x) (t.pk y) = true := by
    intro x y; simp [IdxLt, hkey, hord, blt_irrefl]
  obtain ⟨rows, h1, _, h3⟩ := S.single hi (sel := .point t.empty) ⟨by simp [Selector.elems], by simp [Selector.elems, hkey]⟩ rfl
  have h1' := h1.congr (fun x hx => boundP_point S.wf hi (p := t.empty) (by simp [NoTrailingFF, hkey]) (by simp [hkey]) x)
  obtain ⟨N, hN⟩ := h3 false (collectCb (T := T)) (fun _ => True) (Or.inl rfl)
  obtain ⟨V, _, hV⟩ := S.content
  refine ⟨⟨rows.map fun x => t.indexKey t.primaryIndex x, true⟩, ⟨N, fun fuel hf => ⟨_, hN fuel hf [], ?_, ?_⟩⟩, rfl, ?_⟩
  · rw [runRows_collect]
    simp [seen, dir]
  · rw [runRows_collect]; rfl
  · intro key
    simp only [List.mem_map, indexKey_primary]
    constructor
    · rintro ⟨x, hx, rfl⟩
      exact ⟨t.pk x, x, ((h1'.2 x).1 hx).1.1, rfl⟩
    · rintro ⟨pk, x, hx, rfl⟩
      have hpk := hV.row_pk pk x hx
      subst hpk
      refine ⟨x, (h1'.2 x).2 ⟨⟨hx, rfl⟩, rfl, ?_⟩, rfl⟩
      unfold IdxLe
      rw [hlt]
      simpa [ble] using hlow _ x hx

/-- the theorem at the test database -/
example := C40_scan_partial exSetting (by
  intro pk x h
  have := exDB_holds.row_pk pk x h
  subst this
  simp [exTable, ble, blt])

/-- C40 for tables: Initialize of a new filter over a store it cannot load, with the scanner of a table among the scanners, ends (if
without error) with a filter that reports every row of that table.
Missing for the full C40: rows with a primary key below that of the empty record (`C40_refuted_scan`), a filter whose Load failed half-way
(`C40_refuted_partial`), a key prefix that ends with 0xFF (`C40_refuted_ff`). -/
theorem C40_partial {h : BloomHash} (ok : HashOK h) {c : BFCodec} (cok : CodecOK c) (mb k n : Nat) (p : Bytes) (hm : 0 < mb) (hn : 0 < n)
    (delOk : Bool) (store : FStore) {t : Table T F} {env : Env T} {filt : F} {db : KV} {m : Rows T}
    (S : Setting t env filt db none m) (hlow : ∀ pk x, m pk = some x → ble (t.pk t.empty) pk = true) :
    ∃ s : KeyScan, ScansTo t env filt db s ∧ ∀ scanners, s ∈ scanners →
      let r := filterInitialize h c delOk (BloomFilter.new mb k n p) store scanners
      r.2.2 = .ok → ((BloomFilter.new mb k n p).load c store).2 = .err →
      ∀ pk x, m pk = some x → r.1.mayContain h (dataKey t.id pk) = some true := by
  obtain ⟨s, h1, _, h3⟩ := C40_scan_partial S hlow
  refine ⟨s, h1, ?_⟩
  intro scanners hs r hr hl pk x hx
  rcases C40_rebuild ok cok mb k n p hm hn delOk store scanners hr with h | h
  · rw [hl] at h; cases h
  · exact (h s hs).2 _ ((h3 _).2 ⟨pk, x, hx, rfl⟩)

/-- the theorem at the test database and an empty store -/
example := C40_partial exHash_ok exCodec_ok 8 2 2 exPrefix (by decide) (by decide) true (fun _ => none) exSetting (by
  intro pk x h
  have := exDB_holds.row_pk pk x h
  subst this
  simp [exTable, ble, blt])

/-- with non-empty data key prefix, a store that can be cleared and scanners that end without error, Initialize returns no error -/
theorem C40_initialize_ok {h : BloomHash} (ok : HashOK h) {c : BFCodec} (cok : CodecOK c) (m k n : Nat) (p : Bytes) (hm : 0 < m) (hn : 0 < n)
    (hp : p ≠ []) (store : FStore) (hb : ∀ v, store (bloomNumKey p) = some v → 8 ≤ v.length) (scanners : List KeyScan)
    (hs : ∀ s ∈ scanners, s.ok = true) :
    (filterInitialize h c true (BloomFilter.new m k n p) store scanners).2.2 = .ok := by
  have hloop : ∀ (ss : List KeyScan) (f : BloomFilter), Shape m k n p f → (∀ s ∈ ss, s.ok = true) → (scanLoop h f ss).2 = .ok := by
    intro ss
    induction ss with
    | nil => intro f _ _; rfl
    | cons s ss ih =>
      intro f sh hs
      obtain ⟨f', h1, h2, _⟩ := addAll_spec ok hm hn s.keys sh
      unfold scanLoop
      rw [h1]
      simp only
      rw [if_pos (hs s (by simp))]
      exact ih f' h2 (fun x hx => hs x (by simp [hx]))
  have hsl := load_sub cok (shape_new m k n p) store
  have hnp : ∀ bs : List FBucket, (loadLoop c store p bs).2 ≠ .panic := by
    intro bs
    induction bs with
    | nil => simp [loadLoop]
    | cons b bs ih =>
      unfold loadLoop
      split
      · simp
      · split
        · simp
        · split
          · simp
          · exact ih
  have key : ∀ lr : BloomFilter × FRes, (BloomFilter.new m k n p).load c store = lr →
      (filterInitialize h c true (BloomFilter.new m k n p) store scanners).2.2 = .ok := by
    rintro ⟨f', res⟩ hl
    cases res with
    | ok => simp only [filterInitialize, hl]
    | panic =>
      exfalso
      have hl2 := congrArg Prod.snd hl
      unfold BloomFilter.load at hl2
      split at hl2
      · cases hl2
      · rename_i v hv
        rw [if_neg (by have := hb v hv; omega)] at hl2
        split at hl2
        · cases hl2
        · exact hnp _ hl2
    | err =>
      rw [hl] at hsl
      have hpf : f'.keyPrefix = p := hsl.1.pref
      simp only [filterInitialize, hl, BloomFilter.clear, hpf, if_neg hp, if_true]
      exact hloop _ _ hsl.1 hs
  exact key _ rfl

/-- the theorem at an empty store and two scanners -/
example := C40_initialize_ok exHash_ok exCodec_ok 8 2 2 exPrefix (by decide) (by decide) (by decide) (fun _ => none) (by intro v h; simp at h)
  [⟨[[1], [2]], true⟩, ⟨[[3]], true⟩] (by decide)

/-- C40 is false for rows below the empty record: Initialize returns no error, but the filter reports a stored row as absent. -/
theorem C40_refuted_scan :
    let db := (signedTable.insert (stdEnv signedTable) KV.empty () none [-1, 1]).db
    ∃ keys, signedTable.anyScanForEach (stdEnv signedTable) () (fun _ => (db, none)) collectCb false 9 [] = some ⟨keys, none⟩ ∧
    (filterInitialize exHash exCodec true (BloomFilter.new 8 1 1 exPrefix) (fun _ => none) [⟨keys, true⟩]).2.2 = .ok ∧
    (filterInitialize exHash exCodec true (BloomFilter.new 8 1 1 exPrefix) (fun _ => none) [⟨keys, true⟩]).1.mayContain exHash
      (dataKey signedTable.id (signedTable.pk (-1))) = some false ∧
    (db.get (dataKey signedTable.id (signedTable.pk (-1)))).isSome = true := by
  exact ⟨[dataKey signedTable.id (signedTable.pk 1)], by decide, by decide, by decide, by decide⟩

/-- The store has the first of two buckets only (a Save was interrupted). Initialize loads it, fails on the second, clears the store and
rebuilds; key [2], in the first bucket, is added again. Save then returns no error but does not write the first bucket, because Load has
marked it as written: nothing can be loaded from the store, and a new process without that table among its scanners reports [2] as absent. -/
theorem C40_refuted_partial :
    let g := (BloomFilter.new 8 1 2 exPrefix).add exHash [2] |>.getD (BloomFilter.new 8 1 2 exPrefix)
    let store := (g.save exCodec (fun n => n != 2) (fun _ => none)).2.1
    let r := filterInitialize exHash exCodec true (BloomFilter.new 8 1 2 exPrefix) store [⟨[[2]], true⟩]
    let s := r.1.save exCodec (fun _ => true) r.2.1
    let r' := filterInitialize exHash exCodec true (BloomFilter.new 8 1 2 exPrefix) s.2.1 []
    r.2.2 = .ok ∧ r.1.mayContain exHash [2] = some true ∧ s.2.2 = .ok ∧
    ((BloomFilter.new 8 1 2 exPrefix).load exCodec s.2.1).2 = .err ∧ r'.2.2 = .ok ∧ r'.1.mayContain exHash [2] = some false := by
  decide

/-- With a key prefix that ends with 0xFF, Clear removes nothing. A filter with two buckets was saved; the configuration changes to one
bucket, Initialize rebuilds, and the process dies during Save after the number of buckets is written. The next Initialize loads the old
first bucket without error: key [1], which is still scanned, is reported as absent. -/
theorem C40_refuted_ff :
    let p : Bytes := [0, 255]
    let g := (BloomFilter.new 8 1 2 p).add exHash [1] |>.getD (BloomFilter.new 8 1 2 p)
    let store := (g.save exCodec (fun _ => true) (fun _ => none)).2.1
    let r := filterInitialize exHash exCodec true (BloomFilter.new 8 1 1 p) store [⟨[[1]], true⟩]
    let s := r.1.save exCodec (fun n => n == 0) r.2.1
    let r' := filterInitialize exHash exCodec true (BloomFilter.new 8 1 1 p) s.2.1 [⟨[[1]], true⟩]
    r.2.2 = .ok ∧ r'.2.2 = .ok ∧ r'.1.mayContain exHash [1] = some false := by
  decide

/-! ## C41 The filter is valid after a crash -/

/-- C41 for the keys added before the last Save that returned no error: whatever happens afterwards (Adds, further Saves that fail or are cut
off by the crash at any point, Loads), after a crash Initialize of a new filter with the same configuration loads without error and reports
all of them.
Missing for the full C41: keys added after that Save, see `C41_refuted`. -/
theorem C41_partial {h : BloomHash} (ok : HashOK h) {c : BFCodec} (cok : CodecOK c) (m k n : Nat) (p : Bytes) (hm : 0 < m) (hn : 0 < n)
    (hn64 : n < 2 ^ 64) (store : FStore) (ops : List BOp) (hown : ∀ op ∈ ops, op.own = true) (setOk : Nat → Bool)
    (hsave : let s := runBOps h c (BloomFilter.new m k n p, store) ops; (s.1.save c setOk s.2).2.2 = .ok)
    (later : List BOp) (hown' : ∀ op ∈ later, op.own = true) (delOk : Bool) (scanners : List KeyScan) :
    let crashed := runBOps h c (BloomFilter.new m k n p, store) (ops ++ .save setOk :: later)
    let r := filterInitialize h c delOk (BloomFilter.new m k n p) crashed.2 scanners
    r.2.2 = .ok ∧ ∀ key, .add key ∈ ops → r.1.mayContain h key = some true := by
  intro crashed r
  obtain ⟨sh, _, hadd⟩ := runBOps_sub ok cok (s := (BloomFilter.new m k n p, store)) hm hn ops (shape_new m k n p)
  have sy := runBOps_synced ok cok (s := (BloomFilter.new m k n p, store)) hm hn ops hown (shape_new m k n p) (synced_new c m k n p store)
  have has := storeHas_of_save cok sh sy hsave
  obtain ⟨sh', sub'⟩ := save_sub (c := c) sh setOk (runBOps h c (BloomFilter.new m k n p, store) ops).2
  have has' := runBOps_storeHas ok cok hm hn sh later hown'
    (s := BOp.run h c (runBOps h c (BloomFilter.new m k n p, store) ops) (.save setOk)) sh' sub' has
  have hcr : crashed = runBOps h c (BOp.run h c (runBOps h c (BloomFilter.new m k n p, store) ops) (.save setOk)) later := by
    simp only [crashed, runBOps, List.foldl_append, List.foldl_cons]
  rw [← hcr] at has'
  obtain ⟨l1, l2⟩ := load_has cok hn64 sh has'
  have hr : r = (((BloomFilter.new m k n p).load c crashed.2).1, crashed.2, .ok) := by
    have : (BloomFilter.new m k n p).load c crashed.2 = (((BloomFilter.new m k n p).load c crashed.2).1, .ok) := by rw [← l1]
    simp only [r, filterInitialize]
    rw [this]
  rw [hr]
  exact ⟨rfl, fun key hk => l2 h key (hadd key hk)⟩

example : let s := runBOps exHash exCodec (BloomFilter.new 8 2 2 exPrefix, fun _ => none) [.add [1], .add [2]]
    (s.1.save exCodec (fun _ => true) s.2).2.2 = .ok ∧
    (runBOps exHash exCodec (BloomFilter.new 8 2 2 exPrefix, fun _ => none)
      ([.add [1], .add [2]] ++ .save (fun _ => true) :: [.add [4], .save (fun n => n != 1)])).1.mayContain exHash [4] = some true := by
  decide

/-- calls that do not write to the store: Add and Load -/
def BOp.quiet : BOp → Bool
  | .add _ | .load => true
  | _ => false

theorem runBOps_quiet {h : BloomHash} {c : BFCodec} (ops : List BOp) (hq : ∀ op ∈ ops, op.quiet = true) (s : BloomFilter × FStore) :
    (runBOps h c s ops).2 = s.2 := by
  induction ops generalizing s with
  | nil => rfl
  | cons op ops ih =>
    have := ih (fun o ho => hq o (by simp [ho])) (op.run h c s)
    unfold runBOps at this ⊢
    rw [List.foldl_cons, this]
    have ho := hq op (by simp)
    cases op <;> first | rfl | cases ho

theorem saveLoop_filters (c : BFCodec) (setOk : Nat → Bool) (p : Bytes) : ∀ (bs : List FBucket) (i : Nat) (store : FStore),
    (saveLoop c setOk p bs i store).1.map (·.filter) = bs.map (·.filter) := by
  intro bs
  induction bs with
  | nil => intro i store; rfl
  | cons b bs ih =>
    intro i store
    unfold saveLoop
    split
    · simp [ih]
    · split
      · simp [ih]
      · rfl

/-- C41, exactly, when the process dies before the next Save: whatever was added or loaded after the last Save that returned no error, the
filter that Initialize makes after the crash answers every key as the filter in memory did at the moment of that Save. So a key added
later is denied (and its row not found) if and only if it was denied then. -/
theorem C41_exact {h : BloomHash} (ok : HashOK h) {c : BFCodec} (cok : CodecOK c) (m k n : Nat) (p : Bytes) (hm : 0 < m) (hn : 0 < n)
    (hn64 : n < 2 ^ 64) (store : FStore) (ops : List BOp) (hown : ∀ op ∈ ops, op.own = true) (setOk : Nat → Bool)
    (hsave : let s := runBOps h c (BloomFilter.new m k n p, store) ops; (s.1.save c setOk s.2).2.2 = .ok)
    (later : List BOp) (hq : ∀ op ∈ later, op.quiet = true) (delOk : Bool) (scanners : List KeyScan) :
    let saved := runBOps h c (BloomFilter.new m k n p, store) ops
    let crashed := runBOps h c (BloomFilter.new m k n p, store) (ops ++ .save setOk :: later)
    let r := filterInitialize h c delOk (BloomFilter.new m k n p) crashed.2 scanners
    r.2.2 = .ok ∧ r.2.1 = crashed.2 ∧ ∀ key, r.1.mayContain h key = saved.1.mayContain h key := by
  intro saved crashed r
  obtain ⟨sh, _, _⟩ := runBOps_sub ok cok (s := (BloomFilter.new m k n p, store)) hm hn ops (shape_new m k n p)
  have sy := runBOps_synced ok cok (s := (BloomFilter.new m k n p, store)) hm hn ops hown (shape_new m k n p) (synced_new c m k n p store)
  obtain ⟨h1, h2⟩ := (synced_save cok sh sy setOk).2 hsave
  obtain ⟨sh', _⟩ := save_sub (c := c) sh setOk saved.2
  have hcr : crashed.2 = (saved.1.save c setOk saved.2).2.1 := by
    simp only [crashed, runBOps, List.foldl_append, List.foldl_cons]
    exact runBOps_quiet later hq _
  obtain ⟨l1, l2⟩ := load_fresh cok hn64 sh' h1 h2
  have hr : r = (((BloomFilter.new m k n p).load c crashed.2).1, crashed.2, .ok) := by
    have : (BloomFilter.new m k n p).load c crashed.2 = (((BloomFilter.new m k n p).load c crashed.2).1, .ok) := by rw [hcr, ← l1]
    simp only [r, filterInitialize]
    rw [this]
  rw [hr]
  refine ⟨rfl, rfl, fun key => ?_⟩
  rw [hcr, l2 h key]
  refine mayContain_filters (by rw [sh'.num]; exact sh.num.symm) ?_ key
  unfold BloomFilter.save
  split
  · exact saveLoop_filters c setOk _ _ _ _
  · rfl

/-- `C41_exact`: key 4, added after the Save, is in the filter in memory and denied after the crash; key 1 is not -/
example : let s0 := (BloomFilter.new 8 2 2 exPrefix, fun _ => none)
    let s := runBOps exHash exCodec s0 [.add [1], .add [2]]
    let w := runBOps exHash exCodec s0 ([.add [1], .add [2]] ++ .save (fun _ => true) :: [.add [4]])
    let r := filterInitialize exHash exCodec true (BloomFilter.new 8 2 2 exPrefix) w.2 []
    (s.1.save exCodec (fun _ => true) s.2).2.2 = .ok ∧ w.1.mayContain exHash [4] = some true ∧
      r.1.mayContain exHash [4] = some false ∧ r.1.mayContain exHash [1] = some true := by
  decide

/-- example table with a bloom filter of one bucket with 8 bits -/
def exBloomTable : Table Rec BloomFilter :=
  { id := 7, pk := exTable.pk, indexes := exTable.indexes, ser := exTable.ser, deser := exTable.deser, nil := (0, 0),
    empty := (0, 0), prefetch := 100
    filter := some { add := fun f k => (f.add exHash k).getD f, may := fun f k => (f.mayContain exHash k).getD true } }

/-- C41 is false: row 1 is inserted, the filter is saved, row 2 is inserted, the process dies. After reopening, Initialize loads the filter
without error; row 2 is stored, but Get says it does not exist, and Insert accepts it a second time, leaving the index entry of the
first one behind. -/
theorem C41_refuted :
    let f0 := BloomFilter.new 8 1 1 exPrefix
    let w1 := exBloomTable.insert (stdEnv exBloomTable) KV.empty f0 none [(1, 5)]
    let s := w1.filt.save exCodec (fun _ => true) (fun _ => none)
    let w2 := exBloomTable.insert (stdEnv exBloomTable) w1.db s.1 none [(2, 6)]
    let r := filterInitialize exHash exCodec true f0 s.2.1 [⟨[dataKey 7 [1], dataKey 7 [2]], true⟩]
    let w3 := exBloomTable.insert (stdEnv exBloomTable) w2.db r.1 none [(2, 9)]
    w1.err = none ∧ w2.err = none ∧ r.2.2 = .ok ∧
    (w2.db.get (dataKey 7 [2])).isSome = true ∧ exBloomTable.getOne r.1 w2.db none (2, 0) = .error .notFound ∧
    w3.err = none ∧ (w3.db.get (exBloomTable.indexKey exIndex (2, 6))).isSome = true ∧
    (w3.db.get (exBloomTable.indexKey exIndex (2, 9))).isSome = true := by
  decide

/-! ## C72 A filter that is not ready denies nothing -/

/-- calls on a filter that is initialised later -/
inductive FIOp
  | add (key : Bytes)
  | init (delOk : Bool) (scanners : List KeyScan)
  | save (setOk : Nat → Bool)

/-- running calls: filter, store, and the results of the Initialize calls; an Add that panics leaves the filter as it was -/
def runFIOps (h : BloomHash) (c : BFCodec) : FilterInit × FStore → List FIOp → (FilterInit × FStore) × List FRes
  | s, [] => (s, [])
  | s, .add key :: ops => runFIOps h c ((s.1.add h key).getD s.1, s.2) ops
  | s, .init delOk scanners :: ops =>
    let r := s.1.initialize h c delOk s.2 scanners
    let o := runFIOps h c (r.1, r.2.1) ops
    (o.1, r.2.2 :: o.2)
  | s, .save setOk :: ops => let r := s.1.save c setOk s.2; runFIOps h c (r.1, r.2.1) ops

/-- C72: as long as no Initialize has succeeded, whatever else was called, the filter answers "maybe" for every key, and Save fails and
leaves the stored filter as it is. -/
theorem C72 (h : BloomHash) (c : BFCodec) (f : BloomFilter) (store : FStore) (ops : List FIOp)
    (hres : .ok ∉ (runFIOps h c (⟨f, false⟩, store) ops).2) :
    let s := (runFIOps h c (⟨f, false⟩, store) ops).1
    (∀ key, s.1.mayContain h key = some true) ∧ ∀ setOk, (s.1.save c setOk s.2).2 = (s.2, .err) := by
  intro s
  have key : ∀ (ops : List FIOp) (fi : FilterInit) (store : FStore), fi.isInitialized = false → .ok ∉ (runFIOps h c (fi, store) ops).2 →
      (runFIOps h c (fi, store) ops).1.1.isInitialized = false := by
    intro ops
    induction ops with
    | nil => intro fi store hf _; exact hf
    | cons op ops ih =>
      intro fi store hf hr
      cases op with
      | add key =>
        simp only [runFIOps] at hr ⊢
        refine ih _ _ ?_ hr
        unfold FilterInit.add
        cases fi.inner.add h key <;> exact hf
      | init delOk scanners =>
        simp only [runFIOps, List.mem_cons, not_or] at hr ⊢
        refine ih _ _ ?_ hr.2
        have h1 := hr.1
        simp only [FilterInit.initialize] at h1 ⊢
        rw [if_neg (fun e => h1 e.symm)]
        exact hf
      | save setOk =>
        simp only [runFIOps] at hr ⊢
        refine ih _ _ ?_ hr
        simp [FilterInit.save, hf]
  have hs := key ops ⟨f, false⟩ store rfl hres
  have hs' : s.1.isInitialized = false := hs
  constructor
  · intro k; simp [FilterInit.mayContain, hs']
  · intro setOk; simp [FilterInit.save, hs']

/-- C72, the other half: after an Initialize that succeeded the filter answers as the wrapped one, for which see C39 and C40. -/
theorem C72_ready (h : BloomHash) (c : BFCodec) (delOk : Bool) (f : FilterInit) (store : FStore) (scanners : List KeyScan)
    (hok : (f.initialize h c delOk store scanners).2.2 = .ok) (key : Bytes) :
    (f.initialize h c delOk store scanners).1.mayContain h key = (filterInitialize h c delOk f.inner store scanners).1.mayContain h key := by
  simp only [FilterInit.initialize] at hok ⊢
  simp [FilterInit.mayContain, hok]

theorem scanLoop_sub {h : BloomHash} (ok : HashOK h) {m k n : Nat} {p : Bytes} (hm : 0 < m) (hn : 0 < n) (scanners : List KeyScan) :
    ∀ {f : BloomFilter}, Shape m k n p f →
    Shape m k n p (scanLoop h f scanners).1 ∧ BSub f.buckets (scanLoop h f scanners).1.buckets := by
  induction scanners with
  | nil => intro f sh; exact ⟨sh, BSub.refl _⟩
  | cons s ss ih =>
    intro f sh
    obtain ⟨f', h1, h2, h3, _⟩ := addAll_spec ok hm hn s.keys sh
    unfold scanLoop
    rw [h1]
    simp only
    split
    · obtain ⟨i1, i2⟩ := ih h2
      exact ⟨i1, h3.trans i2⟩
    · exact ⟨h2, h3⟩

theorem filterInitialize_sub {h : BloomHash} (ok : HashOK h) {c : BFCodec} (cok : CodecOK c) {m k n : Nat} {p : Bytes} (hm : 0 < m) (hn : 0 < n)
    {f : BloomFilter} (sh : Shape m k n p f) (delOk : Bool) (store : FStore) (scanners : List KeyScan) :
    Shape m k n p (filterInitialize h c delOk f store scanners).1 ∧
    BSub f.buckets (filterInitialize h c delOk f store scanners).1.buckets := by
  have hl := load_sub cok sh store
  unfold filterInitialize
  split
  · rename_i f' he; rw [he] at hl; exact hl
  · rename_i f' he; rw [he] at hl; exact hl
  · rename_i f' he
    rw [he] at hl
    split
    · obtain ⟨i1, i2⟩ := scanLoop_sub ok hm hn scanners hl.1
      exact ⟨i1, hl.2.trans i2⟩
    · exact hl

/-- C72 for added keys: whatever is called, ready or not and however Initialize and Save end, every key added so far may be contained. -/
theorem C72_added {h : BloomHash} (ok : HashOK h) {c : BFCodec} (cok : CodecOK c) (m k n : Nat) (p : Bytes) (hm : 0 < m) (hn : 0 < n)
    (ready : Bool) (store : FStore) (ops : List FIOp) (key : Bytes) (hk : .add key ∈ ops) :
    (runFIOps h c (⟨BloomFilter.new m k n p, ready⟩, store) ops).1.1.mayContain h key = some true := by
  have main : ∀ (ops : List FIOp) (s : FilterInit × FStore), Shape m k n p s.1.inner →
      Shape m k n p (runFIOps h c s ops).1.1.inner ∧ BSub s.1.inner.buckets (runFIOps h c s ops).1.1.inner.buckets ∧
      (.add key ∈ ops → (runFIOps h c s ops).1.1.inner.mayContain h key = some true) := by
    intro ops
    induction ops with
    | nil => intro s sh; exact ⟨sh, BSub.refl _, by simp⟩
    | cons op ops ih =>
      intro s sh
      cases op with
      | add key' =>
        obtain ⟨f', h1, h2, h3, h4⟩ := add_spec ok sh hm hn key'
        simp only [runFIOps, FilterInit.add, h1, Option.map_some, Option.getD_some]
        obtain ⟨i1, i2, i3⟩ := ih (⟨f', s.1.isInitialized⟩, s.2) h2
        refine ⟨i1, h3.trans i2, ?_⟩
        intro hm'
        rcases List.mem_cons.1 hm' with he | hm'
        · cases he
          exact mayContain_mono (by rw [i1.num]; exact h2.num) i2 h4
        · exact i3 hm'
      | init delOk scanners =>
        obtain ⟨h2, h3⟩ := filterInitialize_sub ok cok hm hn sh delOk s.2 scanners
        simp only [runFIOps]
        obtain ⟨i1, i2, i3⟩ := ih ((s.1.initialize h c delOk s.2 scanners).1, (s.1.initialize h c delOk s.2 scanners).2.1) h2
        exact ⟨i1, h3.trans i2, fun hm' => i3 (by simpa using hm')⟩
      | save setOk =>
        have h2 : Shape m k n p (s.1.save c setOk s.2).1.inner ∧ BSub s.1.inner.buckets (s.1.save c setOk s.2).1.inner.buckets := by
          unfold FilterInit.save
          split
          · exact save_sub sh setOk s.2
          · exact ⟨sh, BSub.refl _⟩
        simp only [runFIOps]
        obtain ⟨i1, i2, i3⟩ := ih ((s.1.save c setOk s.2).1, (s.1.save c setOk s.2).2.1) h2.1
        exact ⟨i1, h2.2.trans i2, fun hm' => i3 (by simpa using hm')⟩
  have hr := (main ops (⟨BloomFilter.new m k n p, ready⟩, store) (shape_new m k n p)).2.2 hk
  unfold FilterInit.mayContain
  split
  · exact hr
  · rfl

/-- an Add before and one after the Initialize that succeeds; another key is denied -/
example : let ops : List FIOp := [.add [2], .init true [⟨[[1]], true⟩], .add [3], .save (fun _ => true)]
    let o := runFIOps exHash exCodec (⟨BloomFilter.new 8 1 1 exPrefix, false⟩, fun _ => none) ops
    o.2 = [.ok] ∧ o.1.1.mayContain exHash [2] = some true ∧ o.1.1.mayContain exHash [3] = some true ∧
    o.1.1.mayContain exHash [7] = some false := by
  decide

/-- a failed Initialize (a scan failed), then an Add and a Save -/
example : let ops : List FIOp := [.init true [⟨[[1]], false⟩], .add [2], .save (fun _ => true)]
    let o := runFIOps exHash exCodec (⟨BloomFilter.new 8 1 1 exPrefix, false⟩, fun _ => none) ops
    o.2 = [.err] ∧ o.1.1.mayContain exHash [7] = some true ∧ o.1.1.inner.mayContain exHash [7] = some false := by
  decide

end Bond
