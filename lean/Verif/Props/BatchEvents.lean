import Verif.BatchEvents
/-
Property C42: callbacks of batches.
-/
namespace Bond

theorem notifyOnCommit_eq (env : BEnv) (ids : List Nat) : ∀ tr, ∃ ran,
    notifyOnCommit env ids tr = (tr ++ ran.map (.onCommit · true), true) ∧ ran = ids ∨
    ∃ id rest, notifyOnCommit env ids tr = (tr ++ ran.map (.onCommit · true) ++ [.onCommit id false], false) ∧ ids = ran ++ id :: rest := by
  induction ids with
  | nil => intro tr; exact ⟨[], Or.inl ⟨by simp [notifyOnCommit], rfl⟩⟩
  | cons i ids ih =>
    intro tr
    unfold notifyOnCommit
    cases h : env.cbOk tr i with
    | false => exact ⟨[], Or.inr ⟨i, ids, by simp, by simp⟩⟩
    | true =>
      simp only [if_true]
      obtain ⟨ran, ⟨h1, h2⟩ | ⟨id, rest, h1, h2⟩⟩ := ih (tr ++ [.onCommit i true])
      · exact ⟨i :: ran, Or.inl ⟨by rw [h1]; simp, by rw [h2]⟩⟩
      · exact ⟨i :: ran, Or.inr ⟨id, rest, by rw [h1]; simp, by rw [h2]; simp⟩⟩

/-- What a Commit call may do, as sequences of events: nothing if the batch is empty; otherwise the OnCommit callbacks run in order; if
one returns an error, nothing else happens; otherwise there is one commit, and then the OnCommitted callbacks run once each if it
succeeded, the OnError callbacks if not. -/
inductive Spec.CommitTrace (b : CBatch) : List BEv → Bool → Prop
  | empty : b.writes = 0 → Spec.CommitTrace b [] true
  | veto (ran : List Nat) (id : Nat) (rest : List Nat) : b.writes ≠ 0 → b.onCommit = ran ++ id :: rest →
      Spec.CommitTrace b (ran.map (.onCommit · true) ++ [.onCommit id false]) false
  | failed : b.writes ≠ 0 →
      Spec.CommitTrace b (b.onCommit.map (.onCommit · true) ++ [.commit false] ++ b.onError.map .onError) false
  | done : b.writes ≠ 0 →
      Spec.CommitTrace b (b.onCommit.map (.onCommit · true) ++ [.commit true] ++ b.onCommitted.map .onCommitted) true

/-- C42, every Commit call behaves as specified, whatever the callbacks return and whether the engine's commit fails. -/
theorem C42_commit (env : BEnv) (b : CBatch) (tr : List BEv) :
    ∃ new, (b.commit env tr).1 = tr ++ new ∧ Spec.CommitTrace b new (b.commit env tr).2 := by
  unfold CBatch.commit
  by_cases hw : b.writes = 0
  · rw [if_pos hw]; exact ⟨[], by simp, .empty hw⟩
  · rw [if_neg hw]
    obtain ⟨ran, ⟨h1, h2⟩ | ⟨id, rest, h1, h2⟩⟩ := notifyOnCommit_eq env b.onCommit tr
    · rw [h1]
      simp only
      subst h2
      cases hc : env.commitOk (tr ++ b.onCommit.map (.onCommit · true)) with
      | true => exact ⟨_, by simp [CBatch.notifyOnCommitted]; rfl, by simpa using Spec.CommitTrace.done hw⟩
      | false => exact ⟨_, by simp [CBatch.notifyOnError]; rfl, by simpa using Spec.CommitTrace.failed hw⟩
    · rw [h1]
      exact ⟨_, by simp; rfl, by simpa using Spec.CommitTrace.veto ran id rest hw h2⟩

/-- a list with one marked element splits in one way only -/
theorem split_unique {α : Type} {P : α → Prop} {A B pre post : List α} {c d : α} (hA : ∀ a ∈ A, ¬ P a) (hB : ∀ b ∈ B, ¬ P b) (hd : P d)
    (h : A ++ c :: B = pre ++ d :: post) : A = pre ∧ c = d ∧ B = post := by
  induction A generalizing pre with
  | nil =>
    cases pre with
    | nil => simp at h; exact ⟨rfl, h.1, h.2⟩
    | cons p pre =>
      simp at h
      exact absurd hd (hB d (by rw [h.2]; simp))
  | cons a A ih =>
    cases pre with
    | nil =>
      simp at h
      exact absurd hd (h.1 ▸ hA a (by simp))
    | cons p pre =>
      simp at h
      obtain ⟨h1, h2, h3⟩ := ih (fun a ha => hA a (by simp [ha])) h.2
      exact ⟨by rw [h.1, h1], h2, h3⟩

/-- Consequences in counts: an OnCommitted callback registered `n` times runs exactly `n` times in a Commit call that commits
something, and not at all in any other; the OnCommit callbacks run before the commit, and a commit happens only if none of them
returned an error. -/
theorem C42_counts (env : BEnv) (b : CBatch) (tr : List BEv) : ∃ new, (b.commit env tr).1 = tr ++ new ∧
    (∀ id, new.count (.onCommitted id) = if .commit true ∈ new then b.onCommitted.count id else 0) ∧
    (∀ ok pre post, new = pre ++ .commit ok :: post → (∀ id, .onCommit id false ∉ new) ∧
      (∀ id ∈ b.onCommit, .onCommit id true ∈ pre) ∧ (∀ id r, .onCommit id r ∉ post) ∧ ∀ id, .onCommitted id ∉ pre) ∧
    (b.writes = 0 → new = []) := by
  obtain ⟨new, h1, h2⟩ := C42_commit env b tr
  have hcount : ∀ (id : Nat) (l : List Nat), (l.map BEv.onCommitted).count (.onCommitted id) = l.count id := by
    intro id l
    induction l with
    | nil => rfl
    | cons a l ih => simp [List.count_cons, ih]
  have hzero : ∀ (id : Nat) (l : List BEv), (∀ e ∈ l, ∀ i, e ≠ .onCommitted i) → l.count (.onCommitted id) = 0 := by
    intro id l hl
    rw [List.count_eq_zero]
    intro hm; exact hl _ hm id rfl
  refine ⟨new, h1, ?_⟩
  generalize (b.commit env tr).2 = ok at h2
  clear h1
  cases h2 with
  | empty hw =>
    refine ⟨by simp, ?_, fun _ => rfl⟩
    intro ok pre post he
    have := congrArg List.length he
    simp at this
  | veto ran id rest hw he =>
    refine ⟨?_, ?_, fun h => absurd h hw⟩
    · intro i
      rw [if_neg (by simp), hzero]
      intro e he' j
      simp at he'
      rcases he' with ⟨a, _, rfl⟩ | rfl <;> simp
    · intro ok pre post he'
      exfalso
      have : BEv.commit ok ∈ ran.map (.onCommit · true) ++ [BEv.onCommit id false] := by rw [he']; simp
      simp at this
  | failed hw =>
    refine ⟨?_, ?_, fun h => absurd h hw⟩
    · intro i
      rw [if_neg (by simp), hzero]
      intro e he' j
      simp at he'
      rcases he' with ⟨a, _, rfl⟩ | rfl | ⟨a, _, rfl⟩ <;> simp
    · intro ok pre post he'
      rw [List.append_assoc] at he'
      obtain ⟨rfl, _, rfl⟩ := split_unique (P := fun e => ∃ r, e = BEv.commit r) (by simp) (by simp) ⟨ok, rfl⟩ he'
      simp
  | done hw =>
    refine ⟨?_, ?_, fun h => absurd h hw⟩
    · intro i
      rw [if_pos (by simp), List.count_append, List.count_append, hcount, hzero, hzero]
      · simp
      · simp
      · simp
    · intro ok pre post he'
      rw [List.append_assoc] at he'
      obtain ⟨rfl, _, rfl⟩ := split_unique (P := fun e => ∃ r, e = BEv.commit r) (by simp) (by simp) ⟨ok, rfl⟩ he'
      simp

example : CBatch.run ⟨fun _ _ => true, fun _ => true, fun _ => true, fun _ => true⟩ [.onCommit 1, .onCommitted 2, .onCommitted 3, .write, .commit] =
    (⟨1, [1], [2, 3], [], []⟩, [.onCommit 1 true, .commit true, .onCommitted 2, .onCommitted 3]) := by decide

/-- every OnCommitted callback event directly follows a successful commit or application, with at most other OnCommitted callbacks
in between -/
def Spec.OnlyAfterCommit (tr : List BEv) : Prop :=
  ∀ pre id post, tr = pre ++ .onCommitted id :: post →
    ∃ p c, ∃ cs : List Nat, pre = p ++ c :: cs.map .onCommitted ∧ (c = .commit true ∨ c = .apply true)

theorem onlyAfterCommit_append {tr l : List BEv} (h : Spec.OnlyAfterCommit tr) (hl : ∀ i, .onCommitted i ∉ l) :
    Spec.OnlyAfterCommit (tr ++ l) := by
  intro pre id post he
  rw [List.append_eq_append_iff] at he
  rcases he with ⟨as, rfl, hq⟩ | ⟨bs, rfl, hq⟩
  · exact absurd (by rw [hq]; simp) (hl id)
  · cases bs with
    | nil => simp at hq; exact absurd (by rw [← hq]; simp) (hl id)
    | cons b bs =>
      simp at hq
      exact h pre id bs (by rw [hq.1])

theorem onlyAfterCommit_committed {tr : List BEv} {c : BEv} (h : Spec.OnlyAfterCommit (tr ++ [c])) (hc : c = .commit true ∨ c = .apply true)
    (ids : List Nat) : Spec.OnlyAfterCommit (tr ++ [c] ++ ids.map .onCommitted) := by
  intro pre id post he
  rw [List.append_eq_append_iff] at he
  rcases he with ⟨as, rfl, hq⟩ | ⟨bs, hp, hq⟩
  · have := hq
    rw [List.map_eq_append_iff] at this
    obtain ⟨l1, l2, _, rfl, _⟩ := this
    exact ⟨tr, c, l1, by simp, hc⟩
  · cases bs with
    | nil =>
      simp at hq hp
      exact ⟨tr, c, [], by simp [hp], hc⟩
    | cons b bs =>
      simp at hq
      exact h pre id bs (by rw [hp, hq.1])

/-- C42, whole histories without Close and without failed Apply: an OnCommitted callback runs only directly after a successful commit
(or application to another batch).
Missing for the full C42: Close (`C42_refuted_close`, `C42_onClose_never`) and failed Apply (`C42_refuted_apply`). -/
theorem C42_partial (env : BEnv) (happ : ∀ tr, env.applyOk tr = true) (calls : List BCall) (hc : .close ∉ calls) :
    Spec.OnlyAfterCommit (CBatch.run env calls).2 := by
  have key : ∀ (calls : List BCall) (s : CBatch × List BEv), .close ∉ calls → Spec.OnlyAfterCommit s.2 →
      Spec.OnlyAfterCommit (calls.foldl (CBatch.step env) s).2 := by
    intro calls
    induction calls with
    | nil => intro s _ h; exact h
    | cons c calls ih =>
      intro s hc h
      rw [List.foldl_cons]
      have hc' : BCall.close ∉ calls := fun h => hc (by simp [h])
      apply ih _ hc'
      cases c <;> try exact h
      · -- commit
        obtain ⟨new, h1, h2⟩ := C42_commit env s.1 s.2
        simp only [CBatch.step]
        rw [h1]
        generalize (s.1.commit env s.2).2 = ok at h2
        cases h2 with
        | empty _ => simpa using h
        | veto ran id rest _ _ => exact onlyAfterCommit_append h (by simp)
        | failed _ => exact onlyAfterCommit_append h (by simp)
        | done _ =>
          rw [← List.append_assoc, ← List.append_assoc]
          apply onlyAfterCommit_committed _ (Or.inl rfl)
          rw [List.append_assoc]
          exact onlyAfterCommit_append h (by simp)
      · -- apply
        simp only [CBatch.step, CBatch.applyTo]
        obtain ⟨ran, ⟨h1, h2⟩ | ⟨id, rest, h1, h2⟩⟩ := notifyOnCommit_eq env s.1.onCommit s.2
        · rw [h1]
          simp only [happ, if_true, CBatch.notifyOnCommitted]
          apply onlyAfterCommit_committed _ (Or.inr rfl)
          rw [List.append_assoc]
          exact onlyAfterCommit_append h (by simp)
        · rw [h1]
          simp only
          rw [List.append_assoc]
          exact onlyAfterCommit_append h (by simp)
      · exact absurd (by simp) hc
  refine key calls _ hc ?_
  intro pre id post he
  have := congrArg List.length he
  simp at this

/-- the theorem at a program that commits twice and whose second commit fails -/
example : Spec.OnlyAfterCommit (CBatch.run ⟨fun tr _ => tr.length < 5, fun tr => tr.length < 3, fun _ => true, fun _ => true⟩
    [.onCommitted 2, .write, .commit, .onCommitted 3, .write, .commit]).2 :=
  C42_partial _ (fun _ => rfl) _ (by decide)

/-- C42 is false for OnClose: no history of calls ever runs an OnClose callback. -/
theorem C42_onClose_never (env : BEnv) (calls : List BCall) (id : Nat) : .onClose id ∉ (CBatch.run env calls).2 := by
  have key : ∀ (calls : List BCall) (s : CBatch × List BEv), .onClose id ∉ s.2 → .onClose id ∉ (calls.foldl (CBatch.step env) s).2 := by
    intro calls
    induction calls with
    | nil => intro s h; exact h
    | cons c calls ih =>
      intro s h
      rw [List.foldl_cons]
      apply ih
      cases c <;> try exact h
      · obtain ⟨new, h1, h2⟩ := C42_commit env s.1 s.2
        simp only [CBatch.step]
        rw [h1]
        generalize (s.1.commit env s.2).2 = ok at h2
        cases h2 <;> simp [h]
      · simp only [CBatch.step, CBatch.applyTo]
        obtain ⟨ran, ⟨h1, h2⟩ | ⟨id, rest, h1, h2⟩⟩ := notifyOnCommit_eq env s.1.onCommit s.2
        · rw [h1]
          simp only [CBatch.notifyOnCommitted, CBatch.notifyOnError]
          split <;> simp [h]
        · rw [h1]; simp [h]
      · have hn : .onClose id ∉ s.1.notifyOnClose s.2 := by simp [CBatch.notifyOnClose, h]
        show _ ∉ (s.1.close env s.2).1
        unfold CBatch.close
        generalize s.1.notifyOnClose s.2 = tr at hn
        simp only [CBatch.notifyOnError]
        cases env.closeOk tr <;> simp [hn]
  exact key calls _ (by simp)

theorem committed_registered (env : BEnv) (id : Nat) (calls : List BCall) (s : CBatch × List BEv) :
    ∃ new, (calls.foldl (CBatch.step env) s).2 = s.2 ++ new ∧
      (.onCommitted id ∈ new → id ∈ s.1.onCommitted ∨ .onCommitted id ∈ calls) := by
  induction calls generalizing s with
  | nil => exact ⟨[], by simp, by simp⟩
  | cons c calls ih =>
    rw [List.foldl_cons]
    have hstep : ∃ n1, (CBatch.step env s c).2 = s.2 ++ n1 ∧ (.onCommitted id ∈ n1 → id ∈ s.1.onCommitted) ∧
        (id ∈ (CBatch.step env s c).1.onCommitted → id ∈ s.1.onCommitted ∨ c = .onCommitted id) := by
      cases c with
      | commit =>
        obtain ⟨new, h1, h2⟩ := C42_commit env s.1 s.2
        refine ⟨new, h1, ?_, fun h => Or.inl h⟩
        generalize (s.1.commit env s.2).2 = ok at h2
        cases h2 <;> simp
      | apply =>
        simp only [CBatch.step, CBatch.applyTo]
        obtain ⟨ran, ⟨h1, h2⟩ | ⟨i, rest, h1, h2⟩⟩ := notifyOnCommit_eq env s.1.onCommit s.2
        · rw [h1]
          simp only [CBatch.notifyOnCommitted, CBatch.notifyOnError]
          cases env.applyOk (s.2 ++ ran.map (.onCommit · true)) with
          | true =>
            exact ⟨ran.map (.onCommit · true) ++ [.apply true] ++ s.1.onCommitted.map .onCommitted, by simp, by simp, fun h => Or.inl h⟩
          | false =>
            exact ⟨ran.map (.onCommit · true) ++ [.apply false] ++ s.1.onError.map .onError ++ s.1.onCommitted.map .onCommitted,
              by simp, by simp, fun h => Or.inl h⟩
        · rw [h1]
          exact ⟨ran.map (.onCommit · true) ++ [.onCommit i false], by simp, by simp, fun h => Or.inl h⟩
      | close =>
        simp only [CBatch.step, CBatch.close, CBatch.notifyOnClose, CBatch.notifyOnError]
        by_cases hc : env.closeOk (s.2 ++ s.1.onCommitted.map .onCommitted) = true
        · exact ⟨s.1.onCommitted.map .onCommitted ++ [.close true], by simp [hc], by simp, fun h => Or.inl h⟩
        · exact ⟨s.1.onCommitted.map .onCommitted ++ [.close false] ++ s.1.onError.map .onError, by simp [hc], by simp, fun h => Or.inl h⟩
      | onCommitted i =>
        refine ⟨[], by simp [CBatch.step], by simp, ?_⟩
        simp only [CBatch.step, List.mem_append, List.mem_singleton]
        rintro (h | rfl)
        · exact Or.inl h
        · exact Or.inr rfl
      | reset => exact ⟨[], by simp [CBatch.step], by simp, by simp [CBatch.step, CBatch.new]⟩
      | write => exact ⟨[], by simp [CBatch.step], by simp, fun h => Or.inl h⟩
      | onCommit i => exact ⟨[], by simp [CBatch.step], by simp, fun h => Or.inl h⟩
      | onError i => exact ⟨[], by simp [CBatch.step], by simp, fun h => Or.inl h⟩
      | onClose i => exact ⟨[], by simp [CBatch.step], by simp, fun h => Or.inl h⟩
    obtain ⟨n1, g1, g2, g3⟩ := hstep
    obtain ⟨n2, h1, h2⟩ := ih (CBatch.step env s c)
    refine ⟨n1 ++ n2, by rw [h1, g1, List.append_assoc], ?_⟩
    rw [List.mem_append]
    rintro (h | h)
    · exact Or.inl (g2 h)
    · rcases h2 h with h | h
      · rcases g3 h with h | h
        · exact Or.inl h
        · exact Or.inr (by simp [h])
      · exact Or.inr (by simp [h])

/-- C42, Reset: after a Reset no OnCommitted callback runs that was registered before it (and not again after it), whatever is called. -/
theorem C42_reset (env : BEnv) (before after : List BCall) (id : Nat) (hid : .onCommitted id ∉ after) :
    ∃ new, (CBatch.run env (before ++ .reset :: after)).2 = (CBatch.run env before).2 ++ new ∧ .onCommitted id ∉ new := by
  obtain ⟨new, h1, h2⟩ := committed_registered env id after (CBatch.new, (CBatch.run env before).2)
  refine ⟨new, ?_, fun h => ?_⟩
  · rw [← h1]; simp [CBatch.run, CBatch.step]
  · rcases h2 h with h | h
    · simp [CBatch.new] at h
    · exact hid h

/-- a callback registered before Reset does not run -/
example : let env : BEnv := ⟨fun _ _ => true, fun _ => true, fun _ => true, fun _ => true⟩
    (CBatch.run env [.onCommitted 1, .write, .reset, .write, .commit]).2 = [.commit true] := by decide

/-- C42 is false for Close: an OnCommitted callback runs when a batch is closed that was never committed, and runs a second time when
a committed batch is closed. -/
theorem C42_refuted_close :
    let env : BEnv := ⟨fun _ _ => true, fun _ => true, fun _ => true, fun _ => true⟩
    (CBatch.run env [.onCommitted 1, .onClose 2, .write, .close]).2 = [.onCommitted 1, .close true] ∧
    (CBatch.run env [.onCommitted 1, .write, .commit, .close]).2 = [.commit true, .onCommitted 1, .onCommitted 1, .close true] := by
  decide

/-- C42 is false for Apply: an OnCommitted callback runs although applying the batch failed. -/
theorem C42_refuted_apply :
    let env : BEnv := ⟨fun _ _ => true, fun _ => true, fun _ => false, fun _ => true⟩
    (CBatch.run env [.onCommitted 1, .write, .apply]).2 = [.apply false, .onCommitted 1] := by
  decide

end Bond
