import Verif.Together
import Verif.BloomStore
import Verif.RowsLemmas
/-
Lemmas: a filter call reads and writes only keys that begin with the key prefix of the filter.
-/
namespace Bond

/-- two stores agree on the keys that begin with `p` -/
def AgreeOn (p : Bytes) (s s' : FStore) : Prop := ∀ k, p <+: k → s k = s' k

theorem AgreeOn.set {p : Bytes} {s s' : FStore} (h : AgreeOn p s s') (k v : Bytes) : AgreeOn p (s.set k v) (s'.set k v) := by
  intro k' hk
  unfold FStore.set
  split
  · rfl
  · exact h k' hk

theorem AgreeOn.deleteRange {p : Bytes} {s s' : FStore} (h : AgreeOn p s s') (lo hi : Bytes) :
    AgreeOn p (s.deleteRange lo hi) (s'.deleteRange lo hi) := by
  intro k' hk
  unfold FStore.deleteRange
  split
  · rfl
  · exact h k' hk

theorem bloomKey_prefix (p : Bytes) (n : Nat) : p <+: bloomKey p n := List.prefix_append _ _
theorem bloomNumKey_prefix (p : Bytes) : p <+: bloomNumKey p := List.prefix_append _ _

/-- the keys between a prefix and the same with its last byte increased begin with the prefix -/
theorem prefix_of_range {p k : Bytes} (h1 : ble p k = true) (h2 : blt k (bumpLast p) = true) : p <+: k := by
  induction p generalizing k with
  | nil => exact List.nil_prefix
  | cons b bs ih =>
    cases k with
    | nil =>
      rw [ble_iff] at h1
      rcases h1 with h | h
      · cases h
      · rw [blt_nil_right] at h; cases h
    | cons x xs =>
      rw [List.cons_prefix_cons]
      have n1 : ¬ x < b := by
        intro hx
        simp [ble, blt, hx] at h1
      have n1' : ¬ x.toNat < b.toNat := fun h => n1 (UInt8.lt_iff_toNat_lt.2 h)
      cases bs with
      | nil =>
        refine ⟨?_, List.nil_prefix⟩
        have h3 : x < b + 1 := by
          apply Classical.byContradiction
          intro hx
          simp [bumpLast, blt, hx, blt_nil_right] at h2
        have a1 : x.toNat < (b + 1).toNat := UInt8.lt_iff_toNat_lt.1 h3
        have a3 : (b + 1).toNat ≤ b.toNat + 1 := by
          rw [UInt8.toNat_add]
          exact Nat.mod_le _ _
        exact UInt8.toNat_inj.1 (by omega)
      | cons b' bs =>
        have n2 : ¬ b < x := by
          intro hb
          simp [bumpLast, blt, hb, n1] at h2
        have n2' : ¬ b.toNat < x.toNat := fun h => n2 (UInt8.lt_iff_toNat_lt.2 h)
        have e : b = x := UInt8.toNat_inj.1 (by omega)
        subst e
        refine ⟨rfl, ih ?_ ?_⟩
        · simpa [ble, blt, UInt8.lt_irrefl] using h1
        · simpa [bumpLast, blt, UInt8.lt_irrefl] using h2

/-! ### Reads -/

theorem loadLoop_agree {c : BFCodec} {p : Bytes} {s s' : FStore} (h : AgreeOn p s s') (bs : List FBucket) :
    loadLoop c s p bs = loadLoop c s' p bs := by
  induction bs with
  | nil => rfl
  | cons b bs ih => rw [loadLoop, loadLoop, h _ (bloomKey_prefix p _), ih]

theorem load_agree {c : BFCodec} {f : BloomFilter} {s s' : FStore} (h : AgreeOn f.keyPrefix s s') : f.load c s = f.load c s' := by
  unfold BloomFilter.load
  rw [h _ (bloomNumKey_prefix _), loadLoop_agree h]

theorem loadLoop_keyPrefix (c : BFCodec) (f : BloomFilter) (s : FStore) : (f.load c s).1.keyPrefix = f.keyPrefix := by
  unfold BloomFilter.load
  split
  · rfl
  split
  · rfl
  split
  · rfl
  · rfl

theorem saveLoop_agree {c : BFCodec} {setOk : Nat → Bool} {p : Bytes} (bs : List FBucket) : ∀ (n : Nat) {s s' : FStore}, AgreeOn p s s' →
    (saveLoop c setOk p bs n s).1 = (saveLoop c setOk p bs n s').1 ∧ (saveLoop c setOk p bs n s).2.2 = (saveLoop c setOk p bs n s').2.2 ∧
    AgreeOn p (saveLoop c setOk p bs n s).2.1 (saveLoop c setOk p bs n s').2.1 := by
  induction bs with
  | nil => intro n s s' h; exact ⟨rfl, rfl, h⟩
  | cons b bs ih =>
    intro n s s' h
    rw [saveLoop, saveLoop]
    split
    · obtain ⟨a, b, c⟩ := ih n h
      exact ⟨by simp only; rw [a], b, c⟩
    split
    · obtain ⟨a, b, c⟩ := ih (n + 1) (h.set _ _)
      exact ⟨by simp only; rw [a], b, c⟩
    · exact ⟨rfl, rfl, h⟩

theorem scanLoop_keyPrefix (h : BloomHash) (scs : List KeyScan) : ∀ f : BloomFilter, (scanLoop h f scs).1.keyPrefix = f.keyPrefix := by
  have hadd : ∀ (f f' : BloomFilter) k, f.add h k = some f' → f'.keyPrefix = f.keyPrefix := by
    intro f f' k ha
    unfold BloomFilter.add at ha
    simp only at ha
    split at ha
    · cases ha
    · cases ha; rfl
  have hall : ∀ (keys : List Bytes) (f f' : BloomFilter), f.addAll h keys = some f' → f'.keyPrefix = f.keyPrefix := by
    intro keys
    induction keys with
    | nil => intro f f' hf; cases hf; rfl
    | cons k keys ih =>
      intro f f' hf
      unfold BloomFilter.addAll at hf
      rw [List.foldlM_cons] at hf
      cases ha : f.add h k with
      | none => rw [ha] at hf; cases hf
      | some g => rw [ha] at hf; rw [ih g f' hf, hadd f g k ha]
  induction scs with
  | nil => intro f; rfl
  | cons s ss ih =>
    intro f
    rw [scanLoop]
    split
    · rfl
    · rename_i f' hf'
      split
      · rw [ih, hall _ _ _ hf']
      · exact hall _ _ _ hf'

/-- a call does the same on two stores that agree on the keys of its filter, and leaves them in agreement -/
theorem FCall.run_agree {h : BloomHash} {c : BFCodec} {f : BloomFilter} {s s' : FStore} (ha : AgreeOn f.keyPrefix s s') (call : FCall) :
    (call.run h c f s).1 = (call.run h c f s').1 ∧ (call.run h c f s).2.2 = (call.run h c f s').2.2 ∧
    AgreeOn f.keyPrefix (call.run h c f s).2.1 (call.run h c f s').2.1 := by
  cases call with
  | add key =>
    simp only [FCall.run]
    split <;> exact ⟨rfl, rfl, ha⟩
  | load => simp only [FCall.run]; rw [load_agree ha]; exact ⟨rfl, rfl, ha⟩
  | save setOk =>
    simp only [FCall.run, BloomFilter.save]
    split
    · obtain ⟨a, b, d⟩ := saveLoop_agree (c := c) (setOk := setOk) f.buckets 1 (ha.set (bloomNumKey f.keyPrefix) (beBytes 8 f.numOfBuckets))
      exact ⟨by simp only; rw [a], b, d⟩
    · exact ⟨rfl, rfl, ha⟩
  | clear delOk =>
    simp only [FCall.run, BloomFilter.clear]
    split
    · exact ⟨trivial, rfl, ha⟩
    split
    · exact ⟨trivial, rfl, ha.deleteRange _ _⟩
    · exact ⟨trivial, rfl, ha⟩
  | init delOk scanners =>
    simp only [FCall.run, filterInitialize]
    rw [load_agree ha]
    have hp := loadLoop_keyPrefix c f s'
    generalize f.load c s' = r at hp
    obtain ⟨f', res⟩ := r
    cases res with
    | ok => exact ⟨rfl, rfl, ha⟩
    | panic => exact ⟨rfl, rfl, ha⟩
    | err =>
      simp only at hp
      simp only [BloomFilter.clear]
      by_cases he : f'.keyPrefix = []
      · simp only [if_pos he]; exact ⟨trivial, trivial, ha⟩
      · simp only [if_neg he]
        cases delOk
        · exact ⟨rfl, rfl, ha⟩
        · refine ⟨rfl, rfl, ?_⟩
          exact ha.deleteRange _ _

theorem FCall.run_keyPrefix (h : BloomHash) (c : BFCodec) (f : BloomFilter) (s : FStore) (call : FCall) :
    (call.run h c f s).1.keyPrefix = f.keyPrefix := by
  cases call with
  | add key =>
    simp only [FCall.run]
    split
    · rename_i f' hf'
      unfold BloomFilter.add at hf'
      simp only at hf'
      split at hf'
      · cases hf'
      · cases hf'; rfl
    · rfl
  | load => exact loadLoop_keyPrefix c f s
  | save setOk => simp only [FCall.run, BloomFilter.save]; split <;> rfl
  | clear delOk => rfl
  | init delOk scanners =>
    simp only [FCall.run, filterInitialize]
    have hp := loadLoop_keyPrefix c f s
    generalize f.load c s = r at hp
    obtain ⟨f', res⟩ := r
    cases res with
    | ok => exact hp
    | panic => exact hp
    | err =>
      simp only at hp ⊢
      split
      · rw [← hp]; exact scanLoop_keyPrefix h _ _
      · exact hp

/-! ### Writes -/

/-- a list of writes that touch only keys beginning with `p` -/
def OnlyPrefix (p : Bytes) (ops : List WOp) : Prop := ∀ o ∈ ops, ∀ k, o.touches k → p <+: k

/-- the store after the writes -/
def StoreAfter (s : FStore) (ops : List WOp) (s' : FStore) : Prop := ∀ db : KV, (∀ k, db.get k = s k) → ∀ k, (db.apply ops).get k = s' k

theorem StoreAfter.nil (s : FStore) : StoreAfter s [] s := fun _ h k => h k

theorem StoreAfter.trans {s s' s'' : FStore} {a b : List WOp} (h : StoreAfter s a s') (h' : StoreAfter s' b s'') : StoreAfter s (a ++ b) s'' := by
  intro db hd k
  rw [KV.apply_append]
  exact h' _ (h db hd) k

theorem StoreAfter.set (s : FStore) (k v : Bytes) : StoreAfter s [.set k v] (s.set k v) := by
  intro db h k'
  rw [KV.apply_cons, KV.apply_nil]
  show (db.set k v).get k' = _
  rw [KV.get_set]
  unfold FStore.set
  split
  · rfl
  · exact h k'

theorem StoreAfter.deleteRange (s : FStore) (lo hi : Bytes) : StoreAfter s [.delRange lo hi] (s.deleteRange lo hi) := by
  intro db h k'
  rw [KV.apply_cons, KV.apply_nil]
  show (db.delRange lo hi).get k' = _
  rw [KV.get_delRange]
  unfold FStore.deleteRange
  simp only [Bool.and_eq_true]
  split
  · rfl
  · exact h k'

theorem saveLoop_writes (c : BFCodec) (setOk : Nat → Bool) (p : Bytes) (bs : List FBucket) : ∀ (n : Nat) (s : FStore),
    ∃ ops, OnlyPrefix p ops ∧ StoreAfter s ops (saveLoop c setOk p bs n s).2.1 := by
  induction bs with
  | nil => intro n s; exact ⟨[], by intro o ho; simp at ho, StoreAfter.nil s⟩
  | cons b bs ih =>
    intro n s
    rw [saveLoop]
    split
    · exact ih n s
    split
    · obtain ⟨ops, h1, h2⟩ := ih (n + 1) (s.set (bloomKey p b.num) (c.enc b.filter))
      refine ⟨[.set (bloomKey p b.num) (c.enc b.filter)] ++ ops, ?_, (StoreAfter.set s _ _).trans h2⟩
      intro o ho k hk
      rcases List.mem_append.1 ho with ho | ho
      · simp only [List.mem_singleton] at ho
        subst ho
        have : k = bloomKey p b.num := Eq.symm hk
        rw [this]; exact bloomKey_prefix _ _
      · exact h1 o ho k hk
    · exact ⟨[], by intro o ho; simp at ho, StoreAfter.nil s⟩

theorem clear_writes (delOk : Bool) (f : BloomFilter) (s : FStore) :
    ∃ ops, OnlyPrefix f.keyPrefix ops ∧ StoreAfter s ops (f.clear delOk s).1 := by
  unfold BloomFilter.clear
  split
  · exact ⟨[], by intro o ho; simp at ho, StoreAfter.nil s⟩
  split
  · refine ⟨[.delRange f.keyPrefix (bumpLast f.keyPrefix)], ?_, StoreAfter.deleteRange s _ _⟩
    intro o ho k hk
    simp only [List.mem_singleton] at ho
    subst ho
    have : ble f.keyPrefix k = true ∧ blt k (bumpLast f.keyPrefix) = true := by simpa [WOp.touches] using hk
    exact prefix_of_range this.1 this.2
  · exact ⟨[], by intro o ho; simp at ho, StoreAfter.nil s⟩

/-- what a call writes begins with the key prefix of its filter -/
theorem FCall.run_writes (h : BloomHash) (c : BFCodec) (f : BloomFilter) (s : FStore) (call : FCall) :
    ∃ ops, OnlyPrefix f.keyPrefix ops ∧ StoreAfter s ops (call.run h c f s).2.1 := by
  have none : ∃ ops, OnlyPrefix f.keyPrefix ops ∧ StoreAfter s ops s := ⟨[], by intro o ho; simp at ho, StoreAfter.nil s⟩
  cases call with
  | add key => simp only [FCall.run]; split <;> exact none
  | load => exact none
  | save setOk =>
    simp only [FCall.run, BloomFilter.save]
    split
    · obtain ⟨ops, h1, h2⟩ := saveLoop_writes c setOk f.keyPrefix f.buckets 1 (s.set (bloomNumKey f.keyPrefix) (beBytes 8 f.numOfBuckets))
      refine ⟨[.set (bloomNumKey f.keyPrefix) (beBytes 8 f.numOfBuckets)] ++ ops, ?_, (StoreAfter.set s _ _).trans h2⟩
      intro o ho k hk
      rcases List.mem_append.1 ho with ho | ho
      · simp only [List.mem_singleton] at ho
        subst ho
        have : k = bloomNumKey f.keyPrefix := Eq.symm hk
        rw [this]; exact bloomNumKey_prefix _
      · exact h1 o ho k hk
    · exact none
  | clear delOk => exact clear_writes delOk f s
  | init delOk scanners =>
    simp only [FCall.run, filterInitialize]
    have hp := loadLoop_keyPrefix c f s
    generalize f.load c s = r at hp
    obtain ⟨f', res⟩ := r
    cases res with
    | ok => exact none
    | panic => exact none
    | err =>
      simp only at hp ⊢
      obtain ⟨ops, h1, h2⟩ := clear_writes delOk f' s
      rw [hp] at h1
      refine ⟨ops, h1, ?_⟩
      generalize f'.clear delOk s = q at h2
      obtain ⟨s', res'⟩ := q
      cases res' <;> exact h2

end Bond
