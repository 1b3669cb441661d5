import Verif.BloomRace
import Verif.BloomLemmas
/-
Lemmas on concurrent calls of Add.
-/
namespace Bond

theorem readWord_length (bits : List Bool) (l : Nat) : (readWord bits l).length = min 64 (bits.length - 64 * (l / 64)) := by
  simp [readWord]

theorem readWord_get (bits : List Bool) (l j : Nat) (hj : j < 64) : (readWord bits l)[j]? = bits[64 * (l / 64) + j]? := by
  unfold readWord
  rw [List.getElem?_take, if_pos hj, List.getElem?_drop]

theorem writeWord_get (bits : List Bool) (l : Nat) (w : List Bool) (hw : w.length = min 64 (bits.length - 64 * (l / 64))) (i : Nat) :
    (writeWord bits l w)[i]? = if 64 * (l / 64) ≤ i ∧ i < 64 * (l / 64) + w.length then w[i - 64 * (l / 64)]? else bits[i]? := by
  unfold writeWord
  generalize 64 * (l / 64) = s at *
  by_cases hs : s ≤ bits.length
  · have hl : (bits.take s).length = s := by simp [hs]
    by_cases h1 : i < s
    · rw [if_neg (by omega), List.append_assoc, List.getElem?_append_left (by omega), List.getElem?_take, if_pos h1]
    · by_cases h2 : i < s + w.length
      · rw [if_pos ⟨by omega, h2⟩, List.append_assoc, List.getElem?_append_right (by omega), List.getElem?_append_left (by omega), hl]
      · rw [if_neg (by omega), List.getElem?_append_right (by rw [List.length_append]; omega), List.getElem?_drop]
        congr 1
        rw [List.length_append]; omega
  · have : w = [] := List.length_eq_zero_iff.1 (by omega)
    subst this
    rw [if_neg (by simp only [List.length_nil]; omega), List.take_of_length_le (by omega)]
    rw [List.drop_eq_nil_of_le (by simp only [List.length_nil]; omega)]
    simp

theorem writeWord_length (bits : List Bool) (l : Nat) (w : List Bool) (hw : w.length = min 64 (bits.length - 64 * (l / 64))) :
    (writeWord bits l w).length = bits.length := by
  unfold writeWord
  simp only [List.length_append, List.length_take, List.length_drop]
  omega

/-- setting a bit through its word, undisturbed -/
theorem write_read (bits : List Bool) (l : Nat) :
    writeWord bits l ((readWord bits l).set (l % 64) true) = bits.set l true := by
  apply List.ext_getElem?
  intro i
  rw [writeWord_get _ _ _ (by rw [List.length_set, readWord_length]), List.length_set]
  have hd := Nat.div_add_mod l 64
  have hm := Nat.mod_lt l (show 64 > 0 by omega)
  by_cases h : 64 * (l / 64) ≤ i ∧ i < 64 * (l / 64) + (readWord bits l).length
  · rw [if_pos h]
    have hr := readWord_length bits l
    by_cases he : i = l
    · subst he
      rw [show i - 64 * (i / 64) = i % 64 by omega, List.getElem?_set_self (by omega), List.getElem?_set_self (by omega)]
    · rw [List.getElem?_set_ne (by omega), List.getElem?_set_ne (Ne.symm he), readWord_get _ _ _ (by omega)]
      congr 1; omega
  · rw [if_neg h]
    have hr := readWord_length bits l
    by_cases he : i = l
    · subst he
      rw [List.getElem?_eq_none (by omega), List.getElem?_eq_none (by simp; omega)]
    · rw [List.getElem?_set_ne (Ne.symm he)]

/-- The bits `b0` are in `bits` and in every word a call holds. -/
structure Kept (b0 : List Bool) (h : BloomHash) (s : AddSys) : Prop where
  len : s.bits.length = b0.length
  bits : ∀ i : Nat, b0[i]?.getD false = true → s.bits[i]?.getD false = true
  held : ∀ key i w, (key, APc.wr i w) ∈ s.calls → w.length = min 64 (b0.length - 64 * (h.loc key i s.m / 64)) ∧
    ∀ j, j < 64 → b0[64 * (h.loc key i s.m / 64) + j]?.getD false = true → w[j]?.getD false = true

theorem APc.next_ne_wr {k i i' : Nat} {p : Bool} {w : List Bool} : APc.next k i p ≠ .wr i' w := by
  unfold APc.next; split <;> simp

theorem Kept.step {b0 : List Bool} {h : BloomHash} {s : AddSys} (inv : Kept b0 h s) (t : Nat) : Kept b0 h (s.step h t) := by
  unfold AddSys.step
  split
  · exact inv
  · rename_i key pc hc
    have hmem : (key, pc) ∈ s.calls := List.mem_of_getElem? hc
    have hold : ∀ pc', (∀ i w, pc' ≠ .wr i w) → ∀ key' i w, (key', APc.wr i w) ∈ s.calls.set t (key, pc') → (key', APc.wr i w) ∈ s.calls := by
      intro pc' hne key' i w hm
      rcases List.mem_or_eq_of_mem_set hm with hm | hm
      · exact hm
      · cases hm; exact absurd rfl (hne i w)
    cases pc with
    | test i present =>
      simp only
      split
      · exact ⟨inv.len, inv.bits, fun key' i' w hm => inv.held _ _ _ (hold _ (fun _ _ => APc.next_ne_wr) _ _ _ hm)⟩
      · exact ⟨inv.len, inv.bits, fun key' i' w hm => inv.held _ _ _ (hold (.rd i) (fun _ _ => by simp) _ _ _ hm)⟩
    | rd i =>
      refine ⟨inv.len, inv.bits, fun key' i' w hm => ?_⟩
      rcases List.mem_or_eq_of_mem_set hm with hm | hm
      · exact inv.held _ _ _ hm
      · cases hm
        refine ⟨by rw [readWord_length, inv.len], fun j hj hb => ?_⟩
        rw [readWord_get _ _ _ hj]
        exact inv.bits _ hb
    | wr i w =>
      obtain ⟨w1, w2⟩ := inv.held key i w hmem
      have hwl : (w.set (h.loc key i s.m % 64) true).length = min 64 (s.bits.length - 64 * (h.loc key i s.m / 64)) := by
        rw [List.length_set, w1, inv.len]
      refine ⟨?_, ?_, fun key' i' w' hm => inv.held _ _ _ (hold _ (fun _ _ => APc.next_ne_wr) _ _ _ hm)⟩
      · simp only
        rw [writeWord_length _ _ _ hwl, inv.len]
      · intro q hq
        simp only
        rw [writeWord_get _ _ _ hwl]
        split
        · rename_i hr
          rw [set_getD]
          split
          · rfl
          · apply w2 _ (by rw [List.length_set] at hr; omega)
            rw [show 64 * (h.loc key i s.m / 64) + (q - 64 * (h.loc key i s.m / 64)) = q by omega]
            exact hq
        · exact inv.bits q hq
    | fin present => exact ⟨inv.len, inv.bits, fun key' i' w hm => inv.held _ _ _ (hold _ (fun _ _ => by simp) _ _ _ hm)⟩
    | st v => exact ⟨inv.len, inv.bits, fun key' i' w hm => inv.held _ _ _ (hold _ (fun _ _ => by simp) _ _ _ hm)⟩
    | done => exact inv

theorem AddSys.step_dims (h : BloomHash) (s : AddSys) (t : Nat) : (s.step h t).m = s.m ∧ (s.step h t).k = s.k := by
  unfold AddSys.step
  split
  · exact ⟨rfl, rfl⟩
  · split
    · split <;> exact ⟨rfl, rfl⟩
    all_goals exact ⟨rfl, rfl⟩

theorem AddSys.run_kept {b0 : List Bool} {h : BloomHash} (sched : List Nat) : ∀ {s : AddSys}, Kept b0 h s →
    Kept b0 h (s.run h sched) ∧ (s.run h sched).m = s.m ∧ (s.run h sched).k = s.k := by
  induction sched with
  | nil => intro s inv; exact ⟨inv, rfl, rfl⟩
  | cons t sched ih =>
    intro s inv
    have := ih (inv.step t)
    refine ⟨this.1, this.2.1.trans (s.step_dims h t).1, this.2.2.trans (s.step_dims h t).2⟩

theorem kept_start (h : BloomHash) (b : FBucket) (keys : List Bytes) : Kept b.filter.bits h (AddSys.start b keys) := by
  refine ⟨rfl, fun _ h => h, ?_⟩
  intro key i w hm
  simp only [AddSys.start, List.mem_map] at hm
  obtain ⟨k, _, he⟩ := hm
  split at he <;> cases he

/-- one call that runs alone, from position `i` on -/
theorem solo_loop (h : BloomHash) (key : Bytes) (m k : Nat) : ∀ (r i : Nat), r = k - i → i < k → ∀ (bits : List Bool) (hc p : Bool),
    let e := (List.range' i r).foldl (BF.testOrSet h key) (⟨m, k, bits⟩, p)
    ∃ N, AddSys.run h ⟨m, k, bits, hc, [(key, .test i p)]⟩ (List.replicate N 0) = ⟨m, k, e.1.bits, hc, [(key, .fin e.2)]⟩ ∧ e.1.m = m ∧ e.1.k = k := by
  intro r
  induction r with
  | zero => intro i hr hi; omega
  | succ r ih =>
    intro i hr hi bits hc p
    rw [List.range'_succ, List.foldl_cons]
    have next : ∀ (bits : List Bool) (p : Bool),
        let e := (List.range' (i + 1) r).foldl (BF.testOrSet h key) (⟨m, k, bits⟩, p)
        ∃ N, AddSys.run h ⟨m, k, bits, hc, [(key, APc.next k i p)]⟩ (List.replicate N 0) = ⟨m, k, e.1.bits, hc, [(key, .fin e.2)]⟩ ∧ e.1.m = m ∧ e.1.k = k := by
      intro bits p
      by_cases hk : i + 1 < k
      · have := ih (i + 1) (by omega) hk bits hc p
        unfold APc.next
        rw [if_pos hk]
        exact this
      · have : r = 0 := by omega
        subst this
        refine ⟨0, ?_, rfl, rfl⟩
        unfold APc.next
        rw [if_neg hk]
        rfl
    by_cases hb : bits[h.loc key i m]?.getD false = true
    · have he : BF.testOrSet h key (⟨m, k, bits⟩, p) i = (⟨m, k, bits⟩, p) := by
        unfold BF.testOrSet; rw [if_pos hb]
      rw [he]
      obtain ⟨N, h1, h2⟩ := next bits p
      refine ⟨N + 1, ?_, h2⟩
      rw [List.replicate_succ, AddSys.run, List.foldl_cons]
      have : AddSys.step h ⟨m, k, bits, hc, [(key, .test i p)]⟩ 0 = ⟨m, k, bits, hc, [(key, APc.next k i p)]⟩ := by
        unfold AddSys.step
        simp [hb]
      rw [this]
      exact h1
    · have he : BF.testOrSet h key (⟨m, k, bits⟩, p) i = (⟨m, k, bits.set (h.loc key i m) true⟩, false) := by
        unfold BF.testOrSet; rw [if_neg hb]
      rw [he]
      obtain ⟨N, h1, h2⟩ := next (bits.set (h.loc key i m) true) false
      refine ⟨N + 1 + 1 + 1, ?_, h2⟩
      rw [List.replicate_succ, List.replicate_succ, List.replicate_succ, AddSys.run, List.foldl_cons, List.foldl_cons, List.foldl_cons]
      have a1 : AddSys.step h ⟨m, k, bits, hc, [(key, .test i p)]⟩ 0 = ⟨m, k, bits, hc, [(key, .rd i)]⟩ := by
        unfold AddSys.step
        simp [hb]
      have a2 : AddSys.step h ⟨m, k, bits, hc, [(key, .rd i)]⟩ 0 = ⟨m, k, bits, hc, [(key, .wr i (readWord bits (h.loc key i m)))]⟩ := rfl
      have a3 : AddSys.step h ⟨m, k, bits, hc, [(key, .wr i (readWord bits (h.loc key i m)))]⟩ 0 =
          ⟨m, k, bits.set (h.loc key i m) true, hc, [(key, APc.next k i false)]⟩ := by
        rw [← write_read]
        rfl
      rw [a1, a2, a3]
      exact h1

/-- position `j` of `key` is set -/
def AddSys.isSet (h : BloomHash) (s : AddSys) (key : Bytes) (j : Nat) : Prop := s.bits[h.loc key j s.m]?.getD false = true

/-- the position number of a call is one of the `k` -/
def APc.Below (k : Nat) : APc → Prop
  | .test i _ => i < k
  | .rd i => i < k
  | .wr i _ => i < k
  | _ => True

/-- what a call that is the only one to write its words has achieved -/
def AddSys.Progress (h : BloomHash) (s : AddSys) (key : Bytes) : APc → Prop
  | .test i _ => ∀ j, j < i → s.isSet h key j
  | .rd i => ∀ j, j < i → s.isSet h key j
  | .wr i w => (∀ j, j < i → s.isSet h key j) ∧ w = readWord s.bits (h.loc key i s.m)
  | _ => ∀ j, j < s.k → s.isSet h key j

/-- Call number `t` adds `key`, and no other call has a position in one of its words. -/
structure OwnWords (h : BloomHash) (t : Nat) (key : Bytes) (s : AddSys) : Prop where
  below : ∀ (t' : Nat) (key' : Bytes) (pc : APc), s.calls[t']? = some (key', pc) → pc.Below s.k
  apart : ∀ (t' : Nat) (key' : Bytes) (pc : APc), t' ≠ t → s.calls[t']? = some (key', pc) → ∀ i j, i < s.k → j < s.k →
    h.loc key i s.m / 64 ≠ h.loc key' j s.m / 64
  progress : ∃ pc, s.calls[t]? = some (key, pc) ∧ s.Progress h key pc

theorem APc.next_below {k i : Nat} {p : Bool} : (APc.next k i p).Below k := by
  unfold APc.next; split
  · assumption
  · trivial

/-- a word written elsewhere leaves a bit as it is -/
theorem writeWord_other {bits w : List Bool} {l q : Nat} (hw : w.length = min 64 (bits.length - 64 * (l / 64))) (hq : q / 64 ≠ l / 64) :
    (writeWord bits l w)[q]? = bits[q]? := by
  rw [writeWord_get _ _ _ hw, if_neg]
  intro ⟨h1, h2⟩
  omega

theorem OwnWords.step {b0 : List Bool} {h : BloomHash} (ok : HashOK h) {t : Nat} {key : Bytes} {s : AddSys} (hm : 0 < s.m)
    (hlen : b0.length = s.m) (kept : Kept b0 h s) (inv : OwnWords h t key s) (t1 : Nat) : OwnWords h t key (s.step h t1) := by
  obtain ⟨hdm, hdk⟩ := s.step_dims h t1
  unfold AddSys.step at hdm hdk ⊢
  split
  · exact inv
  · rename_i key1 pc1 hc
    have hlt : t1 < s.calls.length := (List.getElem?_eq_some_iff.1 hc).1
    have hmem : (key1, pc1) ∈ s.calls := List.mem_of_getElem? hc
    have hbel1 := inv.below _ _ _ hc
    -- the parts that do not depend on the step
    have key' : ∀ (bits : List Bool) (hcg : Bool) (pc' : APc), pc'.Below s.k →
        (∃ pc, (s.calls.set t1 (key1, pc'))[t]? = some (key, pc) ∧
          AddSys.Progress h { s with bits := bits, hasChanges := hcg, calls := s.calls.set t1 (key1, pc') } key pc) →
        OwnWords h t key { s with bits := bits, hasChanges := hcg, calls := s.calls.set t1 (key1, pc') } := by
      intro bits hcg pc' hb hp
      refine ⟨?_, ?_, hp⟩
      · intro t' k' pc hg
        simp only at hg
        by_cases he : t' = t1
        · subst he
          rw [List.getElem?_set_self hlt] at hg
          cases hg; exact hb
        · rw [List.getElem?_set_ne (Ne.symm he)] at hg
          exact inv.below _ _ _ hg
      · intro t' k' pc hne hg
        simp only at hg
        by_cases he : t' = t1
        · subst he
          rw [List.getElem?_set_self hlt] at hg
          cases hg; exact inv.apart _ _ _ hne hc
        · rw [List.getElem?_set_ne (Ne.symm he)] at hg
          exact inv.apart _ _ _ hne hg
    obtain ⟨pc, hpc, hprog⟩ := inv.progress
    by_cases ht : t1 = t
    · subst ht
      rw [hc] at hpc
      cases hpc
      -- the call itself
      have hnext : ∀ (bits : List Bool) (i : Nat) (p : Bool), i < s.k → (∀ j, j ≤ i → bits[h.loc key j s.m]?.getD false = true) →
          AddSys.Progress h { s with bits := bits, calls := s.calls.set t1 (key, APc.next s.k i p) } key (APc.next s.k i p) := by
        intro bits i p hi hs
        unfold APc.next
        split
        · intro j hj; exact hs j (by omega)
        · intro j hj; exact hs j (by have : j < s.k := hj; omega)
      cases pc1 with
      | test i present =>
        simp only
        split
        · rename_i hset
          refine key' s.bits s.hasChanges _ APc.next_below ⟨_, List.getElem?_set_self hlt, hnext _ _ _ hbel1 ?_⟩
          intro j hj
          rcases Nat.lt_or_eq_of_le hj with hj | rfl
          · exact hprog j hj
          · exact hset
        · exact key' s.bits s.hasChanges (.rd i) hbel1 ⟨_, List.getElem?_set_self hlt, hprog⟩
      | rd i => exact key' s.bits s.hasChanges (.wr i _) hbel1 ⟨_, List.getElem?_set_self hlt, hprog, rfl⟩
      | wr i w =>
        obtain ⟨h1, rfl⟩ := hprog
        refine key' _ s.hasChanges _ APc.next_below ⟨_, List.getElem?_set_self hlt, hnext _ _ _ hbel1 ?_⟩
        intro j hj
        rw [write_read, set_getD]
        split
        · rfl
        · rename_i hne
          rcases Nat.lt_or_eq_of_le hj with hj | rfl
          · exact h1 j hj
          · exact absurd ⟨rfl, by rw [kept.len, hlen]; exact ok.loc _ _ _ hm⟩ hne
      | fin present => exact key' s.bits s.hasChanges (.st _) trivial ⟨_, List.getElem?_set_self hlt, hprog⟩
      | st v => exact key' s.bits v .done trivial ⟨_, List.getElem?_set_self hlt, hprog⟩
      | done => exact inv
    · -- another call
      have hat : ∀ pc', (s.calls.set t1 (key1, pc'))[t]? = some (key, pc) := by
        intro pc'; rw [List.getElem?_set_ne ht]; exact hpc
      cases pc1 with
      | test i present =>
        simp only
        split
        · exact key' s.bits s.hasChanges _ APc.next_below ⟨_, hat _, by cases pc <;> exact hprog⟩
        · exact key' s.bits s.hasChanges (.rd i) hbel1 ⟨_, hat _, by cases pc <;> exact hprog⟩
      | rd i => exact key' s.bits s.hasChanges (.wr i _) hbel1 ⟨_, hat _, by cases pc <;> exact hprog⟩
      | fin present => exact key' s.bits s.hasChanges (.st _) trivial ⟨_, hat _, by cases pc <;> exact hprog⟩
      | st v => exact key' s.bits v .done trivial ⟨_, hat _, by cases pc <;> exact hprog⟩
      | done => exact inv
      | wr i w =>
        refine key' _ s.hasChanges _ APc.next_below ⟨pc, hat _, ?_⟩
        have hwl : (w.set (h.loc key1 i s.m % 64) true).length = min 64 (s.bits.length - 64 * (h.loc key1 i s.m / 64)) := by
          rw [List.length_set, (kept.held key1 i w hmem).1, kept.len]
        have hsame : ∀ j, j < s.k → ∀ q, q / 64 = h.loc key j s.m / 64 →
            (writeWord s.bits (h.loc key1 i s.m) (w.set (h.loc key1 i s.m % 64) true))[q]? = s.bits[q]? := by
          intro j hj q hq
          exact writeWord_other hwl (by rw [hq]; exact inv.apart _ _ _ ht hc j i hj hbel1)
        have hset : ∀ j, j < s.k → s.isSet h key j →
            (writeWord s.bits (h.loc key1 i s.m) (w.set (h.loc key1 i s.m % 64) true))[h.loc key j s.m]?.getD false = true := by
          intro j hj hs
          rw [hsame j hj _ rfl]; exact hs
        have hb := inv.below _ _ _ hpc
        cases pc with
        | test i' p => exact fun j hj => hset j (Nat.lt_trans hj hb) (hprog j hj)
        | rd i' => exact fun j hj => hset j (Nat.lt_trans hj hb) (hprog j hj)
        | wr i' w' =>
          refine ⟨fun j hj => hset j (Nat.lt_trans hj hb) (hprog.1 j hj), ?_⟩
          rw [hprog.2]
          apply List.ext_getElem?
          intro q
          by_cases hq : q < 64
          · rw [readWord_get _ _ _ hq, readWord_get _ _ _ hq]
            exact (hsame i' hb _ (by omega)).symm
          · rw [List.getElem?_eq_none (by rw [readWord_length]; omega), List.getElem?_eq_none (by rw [readWord_length]; omega)]
        | fin p => exact fun j hj => hset j hj (hprog j hj)
        | st v => exact fun j hj => hset j hj (hprog j hj)
        | done => exact fun j hj => hset j hj (hprog j hj)

theorem OwnWords.run {b0 : List Bool} {h : BloomHash} (ok : HashOK h) {t : Nat} {key : Bytes} (sched : List Nat) : ∀ {s : AddSys}, 0 < s.m →
    b0.length = s.m → Kept b0 h s → OwnWords h t key s → OwnWords h t key (s.run h sched) := by
  induction sched with
  | nil => intro s _ _ _ inv; exact inv
  | cons t1 sched ih =>
    intro s hm hl kept inv
    obtain ⟨hdm, _⟩ := s.step_dims h t1
    exact ih (by rw [hdm]; exact hm) (by rw [hdm]; exact hl) (kept.step t1) (inv.step ok hm hl kept t1)

theorem ownWords_start {h : BloomHash} {b : FBucket} {keys : List Bytes} {t : Nat} {key : Bytes} (ht : keys[t]? = some key)
    (apart : ∀ t' key', t' ≠ t → keys[t']? = some key' → ∀ i j, i < b.filter.k → j < b.filter.k →
      h.loc key i b.filter.m / 64 ≠ h.loc key' j b.filter.m / 64) : OwnWords h t key (AddSys.start b keys) := by
  refine ⟨?_, ?_, ?_⟩
  · intro t' key' pc hg
    simp only [AddSys.start, List.getElem?_map, Option.map_eq_some_iff] at hg
    obtain ⟨k, _, he⟩ := hg
    cases he
    show APc.Below b.filter.k _
    split
    · assumption
    · trivial
  · intro t' key' pc hne hg
    simp only [AddSys.start, List.getElem?_map, Option.map_eq_some_iff] at hg
    obtain ⟨k, hk, he⟩ := hg
    cases he
    exact apart t' _ hne hk
  · refine ⟨if 0 < b.filter.k then .test 0 true else .fin true, by simp [AddSys.start, ht], ?_⟩
    split
    · intro j hj; omega
    · intro j hj
      exact absurd (show j < b.filter.k from hj) (by omega)

/-- the flag of a bucket that has unsaved changes is never lost -/
theorem AddSys.run_flag (h : BloomHash) (sched : List Nat) : ∀ {s : AddSys}, s.hasChanges = true → (∀ c ∈ s.calls, c.2 ≠ .st false) →
    (s.run h sched).hasChanges = true := by
  induction sched with
  | nil => intro s hs _; exact hs
  | cons t sched ih =>
    intro s hs hc
    suffices (s.step h t).hasChanges = true ∧ ∀ c ∈ (s.step h t).calls, c.2 ≠ .st false from ih this.1 this.2
    unfold AddSys.step
    split
    · exact ⟨hs, hc⟩
    · rename_i key pc hg
      have hset : ∀ pc' : APc, pc' ≠ .st false → ∀ c ∈ s.calls.set t (key, pc'), c.2 ≠ .st false := by
        intro pc' hne c hm
        rcases List.mem_or_eq_of_mem_set hm with hm | rfl
        · exact hc c hm
        · exact hne
      have hn : ∀ i p, APc.next s.k i p ≠ .st false := by
        intro i p; unfold APc.next; split <;> simp
      cases pc with
      | test i p =>
        simp only
        split
        · exact ⟨hs, hset _ (hn _ _)⟩
        · exact ⟨hs, hset _ (by simp)⟩
      | rd i => exact ⟨hs, hset _ (by simp)⟩
      | wr i w => exact ⟨hs, hset _ (hn _ _)⟩
      | fin p => exact ⟨hs, hset _ (by cases p <;> simp [hs])⟩
      | st v =>
        have : v = true := by
          have := hc _ (List.mem_of_getElem? hg)
          cases v <;> simp_all
        exact ⟨this, hset _ (by simp)⟩
      | done => exact ⟨hs, hc⟩

end Bond
