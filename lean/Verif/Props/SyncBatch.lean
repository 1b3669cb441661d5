import Verif.SyncBatch
/-
Properties C44 (SyncBatch serializes access) and C64 (a panicking function does not block the others).
-/
namespace Bond

/-- the events of one undisturbed run of call `i`'s function -/
def Spec.block (len : Nat → Nat) (i : Nat) : List SEv := .begin i :: (List.replicate (len i) (.work i) ++ [.ended i])

/-- `cur` is what call `h`'s function has done so far, alone: a part of its undisturbed run, or such a part ended by a panic -/
def Spec.PartOf (len : Nat → Nat) (h : Nat) (cur : List SEv) : Prop :=
  (∃ rest, Spec.block len h = cur ++ rest) ∨ ∃ k, k ≤ len h ∧ cur = .begin h :: (List.replicate k (.work h) ++ [.panic h])

/-- A serial history: complete undisturbed runs of different calls' functions one after the other, then possibly one that is still
going on (or has panicked). -/
def Spec.Serial (len : Nat → Nat) (tr : List SEv) (finished : List Nat) : Prop :=
  finished.Nodup ∧ (tr = finished.flatMap (Spec.block len) ∨
    ∃ h cur, h ∉ finished ∧ Spec.PartOf len h cur ∧ tr = finished.flatMap (Spec.block len) ++ cur)

/-- the mutex is held exactly while one call is between Lock and Unlock; the history is serial -/
def SyncInv (len : Nat → Nat) (s : SyncSys) : Prop :=
  ∃ ds : List Nat, ds.Nodup ∧ (∀ i, i ∈ ds ↔ s.pc i = .finished) ∧
    ((s.mu = false ∧ s.trace = ds.flatMap (Spec.block len) ∧ ∀ i, s.pc i = .start ∨ s.pc i = .finished) ∨
     (s.mu = true ∧ ∃ h, (∀ i, i ≠ h → s.pc i = .start ∨ s.pc i = .finished) ∧
       ((∃ k, s.pc h = .inF k ∧ k ≤ len h ∧
          s.trace = ds.flatMap (Spec.block len) ++ (.begin h :: List.replicate (len h - k) (.work h))) ∨
        (s.pc h = .ret ∧ s.trace = ds.flatMap (Spec.block len) ++ Spec.block len h) ∨
        (s.pc h = .panicked ∧ ∃ k, k ≤ len h ∧
          s.trace = ds.flatMap (Spec.block len) ++ (.begin h :: (List.replicate k (.work h) ++ [.panic h]))))))

theorem syncInv_new (len : Nat → Nat) : SyncInv len .new :=
  ⟨[], by simp, by simp [SyncSys.new], Or.inl ⟨rfl, rfl, fun _ => Or.inl rfl⟩⟩

theorem syncInv_act {len : Nat → Nat} {s : SyncSys} (hi : SyncInv len s) (a : SAct) : SyncInv len (s.act len a) := by
  obtain ⟨ds, hnd, hfin, hcase⟩ := hi
  have hin := hcase
  have hsame : SyncInv len s := ⟨ds, hnd, hfin, hcase⟩
  cases a with
  | lock i =>
    simp only [SyncSys.act]
    split
    · rename_i hpc hmu
      rcases hcase with ⟨_, htr, hall⟩ | ⟨hm, _⟩
      · refine ⟨ds, hnd, ?_, Or.inr ⟨rfl, i, ?_, Or.inl ⟨len i, by simp [SyncSys.setPc], Nat.le_refl _, by simp [htr]⟩⟩⟩
        · intro j
          simp only [SyncSys.setPc]
          by_cases hj : j = i
          · subst hj; simp [hfin, hpc]
          · simp [hj, hfin]
        · intro j hj; simpa [SyncSys.setPc, hj] using hall j
      · rw [hmu] at hm; cases hm
    · exact hsame
  | step i =>
    simp only [SyncSys.act]
    split
    · rename_i k hpc
      rcases hcase with ⟨_, _, hall⟩ | ⟨hm, h, hoth, hc⟩
      · rcases hall i with h | h <;> rw [hpc] at h <;> cases h
      · have hih : i = h := by
          by_cases hne : i = h
          · exact hne
          · rcases hoth i hne with h' | h' <;> rw [hpc] at h' <;> cases h'
        subst hih
        rcases hc with ⟨k', hk, hle, htr⟩ | ⟨hk, _⟩ | ⟨hk, _⟩
        · rw [hpc] at hk; cases hk
          refine ⟨ds, hnd, ?_, Or.inr ⟨hm, i, ?_, Or.inl ⟨k, by simp [SyncSys.setPc], by omega, ?_⟩⟩⟩
          · intro j
            simp only [SyncSys.setPc]
            by_cases hj : j = i
            · subst hj; simp [hfin, hpc]
            · simp [hj, hfin]
          · intro j hj; simpa [SyncSys.setPc, hj] using hoth j hj
          · have : len i - k = (len i - (k + 1)) + 1 := by omega
            simp [htr, this, List.replicate_succ']
        · rw [hpc] at hk; cases hk
        · rw [hpc] at hk; cases hk
    · rename_i hpc
      rcases hcase with ⟨_, _, hall⟩ | ⟨hm, h, hoth, hc⟩
      · rcases hall i with h | h <;> rw [hpc] at h <;> cases h
      · have hih : i = h := by
          by_cases hne : i = h
          · exact hne
          · rcases hoth i hne with h' | h' <;> rw [hpc] at h' <;> cases h'
        subst hih
        rcases hc with ⟨k', hk, hle, htr⟩ | ⟨hk, _⟩ | ⟨hk, _⟩
        · rw [hpc] at hk; cases hk
          refine ⟨ds, hnd, ?_, Or.inr ⟨hm, i, ?_, Or.inr (Or.inl ⟨by simp [SyncSys.setPc], ?_⟩)⟩⟩
          · intro j
            simp only [SyncSys.setPc]
            by_cases hj : j = i
            · subst hj; simp [hfin, hpc]
            · simp [hj, hfin]
          · intro j hj; simpa [SyncSys.setPc, hj] using hoth j hj
          · simp [htr, Spec.block]
        · rw [hpc] at hk; cases hk
        · rw [hpc] at hk; cases hk
    · exact hsame
  | unlock i =>
    simp only [SyncSys.act]
    split
    · rename_i hpc
      rcases hcase with ⟨_, _, hall⟩ | ⟨hm, h, hoth, hc⟩
      · rcases hall i with h | h <;> rw [hpc] at h <;> cases h
      · have hih : i = h := by
          by_cases hne : i = h
          · exact hne
          · rcases hoth i hne with h' | h' <;> rw [hpc] at h' <;> cases h'
        subst hih
        rcases hc with ⟨k', hk, hle, htr⟩ | ⟨_, htr⟩ | ⟨hk, _⟩
        · rw [hpc] at hk; cases hk
        · have hni : i ∉ ds := by rw [hfin, hpc]; simp
          refine ⟨ds ++ [i], ?_, ?_, Or.inl ⟨rfl, by simp [htr], ?_⟩⟩
          · rw [List.nodup_append]; exact ⟨hnd, by simp, by simp; exact fun a ha h => hni (h ▸ ha)⟩
          · intro j
            simp only [SyncSys.setPc]
            by_cases hj : j = i
            · subst hj; simp
            · simp [hj, hfin]
          · intro j
            by_cases hj : j = i
            · simp [SyncSys.setPc, hj]
            · simpa [SyncSys.setPc, hj] using hoth j hj
        · rw [hpc] at hk; cases hk
    · exact hsame
  | panic i =>
    simp only [SyncSys.act]
    split
    · rename_i k0 hpc
      rcases hcase with ⟨_, _, hall⟩ | ⟨hm, h, hoth, hc⟩
      · rcases hall i with h | h <;> rw [hpc] at h <;> cases h
      · have hih : i = h := by
          by_cases hne : i = h
          · exact hne
          · rcases hoth i hne with h' | h' <;> rw [hpc] at h' <;> cases h'
        subst hih
        rcases hc with ⟨k', hk, hle, htr⟩ | ⟨hk, _⟩ | ⟨hk, _⟩
        · rw [hpc] at hk; cases hk
          refine ⟨ds, hnd, ?_, Or.inr ⟨hm, i, ?_, Or.inr (Or.inr ⟨by simp [SyncSys.setPc], len i - k0, by omega, by simp [htr]⟩)⟩⟩
          · intro j
            simp only [SyncSys.setPc]
            by_cases hj : j = i
            · subst hj; simp [hfin, hpc]
            · simp [hj, hfin]
          · intro j hj; simpa [SyncSys.setPc, hj] using hoth j hj
        · rw [hpc] at hk; cases hk
        · rw [hpc] at hk; cases hk
    · exact hsame

theorem syncInv_run {len : Nat → Nat} (sched : List SAct) : ∀ {s : SyncSys}, SyncInv len s → SyncInv len (s.run len sched) := by
  induction sched with
  | nil => intro s h; exact h
  | cons a sched ih => intro s h; exact ih (syncInv_act h a)

/-- C44: under every schedule of any number of calls the functions run one at a time, without any event of another call in between;
the calls that have returned are exactly those whose function has run completely, once each. -/
theorem C44_serial (len : Nat → Nat) (sched : List SAct) :
    ∃ ds, Spec.Serial len (SyncSys.new.run len sched).trace ds ∧ ∀ i, (SyncSys.new.run len sched).pc i = .finished ↔ i ∈ ds := by
  obtain ⟨ds, hnd, hfin, hc⟩ := syncInv_run sched (syncInv_new len)
  refine ⟨ds, ⟨hnd, ?_⟩, fun i => (hfin i).symm⟩
  rcases hc with ⟨_, h, _⟩ | ⟨_, h, _, hc⟩
  · exact Or.inl h
  · right
    rcases hc with ⟨k, hpc, hk, htr⟩ | ⟨hpc, htr⟩ | ⟨hpc, k, hk, htr⟩
    · refine ⟨h, _, by rw [hfin, hpc]; simp, Or.inl ⟨List.replicate k (.work h) ++ [.ended h], ?_⟩, htr⟩
      have : len h = (len h - k) + k := by omega
      unfold Spec.block
      conv => lhs; rw [this]
      rw [← List.replicate_append_replicate, List.append_assoc, List.cons_append]
    · exact ⟨h, _, by rw [hfin, hpc]; simp, Or.inl ⟨[], by simp⟩, htr⟩
    · exact ⟨h, _, by rw [hfin, hpc]; simp, Or.inr ⟨k, hk, rfl⟩, htr⟩

/-- C44, mutual exclusion: two different calls are never both inside their functions. -/
theorem C44_exclusive (len : Nat → Nat) (sched : List SAct) (i j m n : Nat)
    (hi : (SyncSys.new.run len sched).pc i = .inF m) (hj : (SyncSys.new.run len sched).pc j = .inF n) : i = j := by
  obtain ⟨ds, _, _, hc⟩ := syncInv_run sched (syncInv_new len)
  rcases hc with ⟨_, _, hall⟩ | ⟨_, h, hoth, _⟩
  · rcases hall i with h | h <;> rw [hi] at h <;> cases h
  · have hone : ∀ x p, (SyncSys.new.run len sched).pc x = .inF p → x = h := by
      intro x p hx
      by_cases hne : x = h
      · exact hne
      · rcases hoth x hne with h' | h' <;> rw [hx] at h' <;> cases h'
    rw [hone i m hi, hone j n hj]

/-- a state in which the function of one call runs while another call waits -/
example : (SyncSys.new.run (fun _ => 2) [.lock 1, .lock 2, .step 1, .lock 2]).pc 1 = .inF 1 ∧
    (SyncSys.new.run (fun _ => 2) [.lock 1, .lock 2, .step 1, .lock 2]).pc 2 = .start := by decide

/-- C44, exactly once: a call that has returned has started its function once, made all its steps and ended once. -/
theorem C44_once (len : Nat → Nat) (sched : List SAct) (i : Nat) (hf : (SyncSys.new.run len sched).pc i = .finished) :
    let tr := (SyncSys.new.run len sched).trace
    tr.count (.begin i) = 1 ∧ tr.count (.work i) = len i ∧ tr.count (.ended i) = 1 ∧ tr.count (.panic i) = 0 := by
  obtain ⟨ds, ⟨hnd, hser⟩, hfin⟩ := C44_serial len sched
  have hmem : i ∈ ds := (hfin i).1 hf
  have hblock : ∀ j e, e ∈ Spec.block len j → e = .begin j ∨ e = .work j ∨ e = .ended j := by
    intro j e he
    simp [Spec.block] at he
    rcases he with rfl | ⟨_, rfl⟩ | rfl <;> simp
  have hzero : ∀ (e : SEv), (e = .begin i ∨ e = .work i ∨ e = .ended i ∨ e = .panic i) → ∀ l : List Nat, i ∉ l →
      (l.flatMap (Spec.block len)).count e = 0 := by
    intro e he l hl
    rw [List.count_eq_zero]
    intro hm
    obtain ⟨j, hj, hb⟩ := List.mem_flatMap.1 hm
    have hji : j ≠ i := fun h => hl (h ▸ hj)
    rcases hblock j e hb with rfl | rfl | rfl <;> simp at he <;> omega
  have hcur : ∀ (e : SEv), (e = .begin i ∨ e = .work i ∨ e = .ended i ∨ e = .panic i) → ∀ h cur, h ≠ i → Spec.PartOf len h cur →
      cur.count e = 0 := by
    intro e he h cur hne hp
    rw [List.count_eq_zero]
    intro hm
    rcases hp with ⟨rest, hr⟩ | ⟨k, _, rfl⟩
    · have := hblock h e (by rw [hr]; simp [hm])
      rcases this with rfl | rfl | rfl <;> simp at he <;> omega
    · simp at hm
      rcases hm with rfl | ⟨_, rfl⟩ | rfl <;> simp at he <;> omega
  obtain ⟨l1, l2, hsplit⟩ := List.append_of_mem hmem
  have h1 : i ∉ l1 := by
    intro h; rw [hsplit, List.nodup_append] at hnd
    exact hnd.2.2 i h i (by simp) rfl
  have h2 : i ∉ l2 := by
    intro h; rw [hsplit, List.nodup_append] at hnd
    exact (List.nodup_cons.1 hnd.2.1).1 h
  have hds : ∀ e, (e = .begin i ∨ e = .work i ∨ e = .ended i ∨ e = .panic i) →
      (ds.flatMap (Spec.block len)).count e = (Spec.block len i).count e := by
    intro e he
    rw [hsplit, List.flatMap_append, List.flatMap_cons, List.count_append, List.count_append, hzero e he l1 h1, hzero e he l2 h2]
    omega
  have hall : ∀ e, (e = .begin i ∨ e = .work i ∨ e = .ended i ∨ e = .panic i) →
      (SyncSys.new.run len sched).trace.count e = (Spec.block len i).count e := by
    intro e he
    rcases hser with h | ⟨h, cur, hh, hp, ht⟩
    · rw [h, hds e he]
    · rw [ht, List.count_append, hds e he, hcur e he h cur (fun hhi => hh (hhi ▸ hmem)) hp]
      omega
  refine ⟨?_, ?_, ?_, ?_⟩
  · rw [hall _ (by simp)]; simp [Spec.block, List.count_cons, List.count_replicate]
  · rw [hall _ (by simp)]; simp [Spec.block, List.count_cons]
  · rw [hall _ (by simp)]; simp [Spec.block, List.count_cons, List.count_replicate]
  · rw [hall _ (by simp)]; simp [Spec.block, List.count_cons, List.count_replicate]

theorem finish_inF (len : Nat → Nat) (h : Nat) : ∀ (k : Nat) (s : SyncSys), s.pc h = .inF k →
    let s' := s.run len (List.replicate (k + 1) (.step h) ++ [.unlock h])
    s'.pc h = .finished ∧ s'.mu = false ∧ ∀ j, j ≠ h → s'.pc j = s.pc j := by
  intro k
  induction k with
  | zero =>
    intro s hs
    refine ⟨?_, ?_, ?_⟩
    · simp [SyncSys.run, SyncSys.act, hs, SyncSys.setPc]
    · simp [SyncSys.run, SyncSys.act, hs, SyncSys.setPc]
    · intro j hj; simp [SyncSys.run, SyncSys.act, hs, SyncSys.setPc, hj]
  | succ k ih =>
    intro s hs
    have hact : s.act len (.step h) = { s with pc := s.setPc h (.inF k), trace := s.trace ++ [.work h] } := by simp [SyncSys.act, hs]
    have := ih (s.act len (.step h)) (by rw [hact]; simp [SyncSys.setPc])
    rw [List.replicate_succ, List.cons_append]
    simp only [SyncSys.run, List.foldl_cons] at this ⊢
    refine ⟨this.1, this.2.1, ?_⟩
    intro j hj
    rw [this.2.2 j hj, hact]
    simp [SyncSys.setPc, hj]

/-- C44, no deadlock: while no function has panicked, whatever has happened so far, every call can still be completed. -/
theorem C44_progress (len : Nat → Nat) (sched : List SAct) (i : Nat) (hp : ∀ j, (SyncSys.new.run len sched).pc j ≠ .panicked) :
    ∃ more, (SyncSys.new.run len (sched ++ more)).pc i = .finished := by
  obtain ⟨ds, _, _, hc⟩ := syncInv_run sched (syncInv_new len)
  have happ : ∀ more, SyncSys.new.run len (sched ++ more) = (SyncSys.new.run len sched).run len more := by
    intro more; simp [SyncSys.run]
  simp only [happ]
  generalize SyncSys.new.run len sched = s at *
  have free : ∀ s : SyncSys, s.mu = false → (s.pc i = .start ∨ s.pc i = .finished) → ∃ more, (s.run len more).pc i = .finished := by
    intro s hm hi
    rcases hi with hi | hi
    · have hl : s.act len (.lock i) = { mu := true, pc := s.setPc i (.inF (len i)), trace := s.trace ++ [.begin i] } := by
        simp [SyncSys.act, hi, hm]
      have := finish_inF len i (len i) (s.act len (.lock i)) (by rw [hl]; simp [SyncSys.setPc])
      exact ⟨.lock i :: (List.replicate (len i + 1) (SAct.step i) ++ [SAct.unlock i]), this.1⟩
    · exact ⟨[], hi⟩
  have cat : ∀ a, (∃ more, ((s.run len a).run len more).pc i = .finished) → ∃ more, (s.run len more).pc i = .finished := by
    intro a ⟨more, h⟩; exact ⟨a ++ more, by simpa [SyncSys.run] using h⟩
  rcases hc with ⟨hm, _, hall⟩ | ⟨_, h, hoth, hc⟩
  · exact free s hm (hall i)
  · have hfin : ∃ a, (s.run len a).mu = false ∧ (s.run len a).pc h = .finished ∧ ∀ j, j ≠ h → (s.run len a).pc j = s.pc j := by
      rcases hc with ⟨k, hk, _⟩ | ⟨hk, _⟩ | ⟨hk, _⟩
      · have := finish_inF len h k s hk
        exact ⟨_, this.2.1, this.1, this.2.2⟩
      · refine ⟨[.unlock h], ?_, ?_, ?_⟩
        · simp [SyncSys.run, SyncSys.act, hk]
        · simp [SyncSys.run, SyncSys.act, hk, SyncSys.setPc]
        · intro j hj; simp [SyncSys.run, SyncSys.act, hk, SyncSys.setPc, hj]
      · exact absurd hk (hp h)
    obtain ⟨a, hm, hh, ho⟩ := hfin
    apply cat a
    apply free _ hm
    by_cases hih : i = h
    · subst hih; exact Or.inr hh
    · rw [ho i hih]; exact hoth i hih

/-- a non-trivial schedule: call 2 tries to lock while call 1 is inside, and gets its turn later -/
example : (SyncSys.new.run (fun _ => 1) [.lock 1, .lock 2, .step 1, .step 1, .lock 2, .unlock 1, .lock 2, .step 2, .step 2, .unlock 2]).trace =
    [.begin 1, .work 1, .ended 1, .begin 2, .work 2, .ended 2] := by decide

/-- C64 is false: once a function has panicked inside WithSync (and the caller has recovered), no other call's function ever starts,
under any schedule. -/
theorem C64_refuted (len : Nat → Nat) (sched : List SAct) (p : Nat) (hp : (SyncSys.new.run len sched).pc p = .panicked) (more : List SAct) :
    ((SyncSys.new.run len sched).run len more).pc = (SyncSys.new.run len sched).pc ∧
    ((SyncSys.new.run len sched).run len more).trace = (SyncSys.new.run len sched).trace := by
  obtain ⟨ds, _, _, hc⟩ := syncInv_run sched (syncInv_new len)
  generalize SyncSys.new.run len sched = s at *
  have hstuck : s.mu = true ∧ ∀ i, i ≠ p → s.pc i = .start ∨ s.pc i = .finished := by
    rcases hc with ⟨_, _, hall⟩ | ⟨hm, h, hoth, _⟩
    · rcases hall p with h | h <;> rw [hp] at h <;> cases h
    · refine ⟨hm, ?_⟩
      have : p = h := by
        by_cases hne : p = h
        · exact hne
        · rcases hoth p hne with h' | h' <;> rw [hp] at h' <;> cases h'
      subst this; exact hoth
  have hact : ∀ a, s.act len a = s := by
    intro a
    have hpc : ∀ i, s.pc i = .start ∨ s.pc i = .finished ∨ s.pc i = .panicked := by
      intro i
      by_cases hi : i = p
      · subst hi; exact Or.inr (Or.inr hp)
      · rcases hstuck.2 i hi with h | h <;> simp [h]
    cases a with
    | lock i => simp only [SyncSys.act, hstuck.1]; rcases hpc i with h | h | h <;> simp [h]
    | step i => simp only [SyncSys.act]; rcases hpc i with h | h | h <;> simp [h]
    | unlock i => simp only [SyncSys.act]; rcases hpc i with h | h | h <;> simp [h]
    | panic i => simp only [SyncSys.act]; rcases hpc i with h | h | h <;> simp [h]
  have : s.run len more = s := by
    induction more with
    | nil => rfl
    | cons a more ih => rw [SyncSys.run, List.foldl_cons, hact a]; exact ih
  rw [this]; exact ⟨rfl, rfl⟩

/-- the hypothesis of `C64_refuted` is met by call 1 panicking; call 2 waits forever -/
example : (SyncSys.new.run (fun _ => 1) [.lock 1, .panic 1]).pc 1 = .panicked ∧
    (SyncSys.new.run (fun _ => 1) [.lock 1, .panic 1, .lock 2, .step 2]).pc 2 = .start := by decide

end Bond
