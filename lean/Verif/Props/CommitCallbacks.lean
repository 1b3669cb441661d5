import Verif.CommitCallbacks
/-
C112: what OnCommit callbacks write belongs to the transaction.
-/
namespace Bond

/-- the callback only writes and registers callbacks -/
def Spec.noCommit (c : OcCb) : Prop := ∀ a ∈ c.acts, a ≠ .commit

/-- the actions of a callback made on a store, one after the other, with no batch between -/
def Spec.directActs : List OcAct → KV → KV
  | [], s => s
  | .write f :: acts, s => Spec.directActs acts (s.apply1 (f s))
  | .onCommit _ :: acts, s => Spec.directActs acts s
  | .commit :: acts, s => Spec.directActs acts s

/-- callbacks run on a store one after the other until one returns an error; `none`: one did -/
def Spec.direct : List OcCb → KV → Option KV
  | [], s => some s
  | c :: cs, s => if c.ok (Spec.directActs c.acts s) then Spec.direct cs (Spec.directActs c.acts s) else none

theorem ocSt_view_write (s : OcSt) (f : KV → WOp) : (OcSt.mk s.store (s.ops ++ [f s.view]) s.callbacks s.applied).view = s.view.apply1 (f s.view) := by
  simp [OcSt.view, KV.apply]

theorem ocActs_spec (commit : OcSt → Option (OcSt × OcRes)) (acts : List OcAct) (hno : ∀ a ∈ acts, a ≠ .commit) (s : OcSt) :
    ∃ s', ocActs commit acts s = some (s', .done) ∧ s'.store = s.store ∧ s'.applied = s.applied ∧ s'.view = Spec.directActs acts s.view ∧
      (∃ more, s'.ops = s.ops ++ more) ∧ ∃ more, s'.callbacks = s.callbacks ++ more := by
  induction acts generalizing s with
  | nil => exact ⟨s, rfl, rfl, rfl, rfl, ⟨[], by simp⟩, [], by simp⟩
  | cons a acts ih =>
    have hno' : ∀ a ∈ acts, a ≠ .commit := fun b hb => hno b (List.mem_cons_of_mem _ hb)
    cases a with
    | write f =>
      obtain ⟨s', h, hs, ha, hv, ⟨m, hm⟩, c, hc⟩ := ih hno' (OcSt.mk s.store (s.ops ++ [f s.view]) s.callbacks s.applied)
      refine ⟨s', h, hs, ha, ?_, ⟨f s.view :: m, by rw [hm]; simp⟩, c, hc⟩
      rw [hv, ocSt_view_write]; rfl
    | onCommit id =>
      obtain ⟨s', h, hs, ha, hv, hm, c, hc⟩ := ih hno' (OcSt.mk s.store s.ops (s.callbacks ++ [id]) s.applied)
      exact ⟨s', h, hs, ha, hv, hm, id :: c, by rw [hc]; simp⟩
    | commit => exact (hno _ (List.mem_cons_self ..) rfl).elim

theorem ocNotify_spec (commit : OcSt → Option (OcSt × OcRes)) (beh : Nat → OcCb) (ids : List Nat) (hno : ∀ id ∈ ids, Spec.noCommit (beh id)) (s : OcSt) :
    ∃ s', ocNotify commit beh ids s = some (s', if (Spec.direct (ids.map beh) s.view).isSome then .done else .failed) ∧
      s'.store = s.store ∧ s'.applied = s.applied ∧ (∀ d, Spec.direct (ids.map beh) s.view = some d → s'.view = d) ∧
      (∃ more, s'.ops = s.ops ++ more) ∧ ∃ more, s'.callbacks = s.callbacks ++ more := by
  induction ids generalizing s with
  | nil => exact ⟨s, rfl, rfl, rfl, fun d h => by simpa [Spec.direct] using h, ⟨[], by simp⟩, [], by simp⟩
  | cons id ids ih =>
    obtain ⟨s1, h1, hs1, ha1, hv1, ⟨m1, hm1⟩, c1, hc1⟩ := ocActs_spec commit (beh id).acts (hno id (by simp)) s
    simp only [ocNotify, h1, List.map_cons, Spec.direct]
    by_cases hk : (beh id).ok (Spec.directActs (beh id).acts s.view) = true
    · obtain ⟨s2, h2, hs2, ha2, hv2, ⟨m2, hm2⟩, c2, hc2⟩ := ih (fun i hi => hno i (by simp [hi])) s1
      refine ⟨s2, ?_, by rw [hs2, hs1], by rw [ha2, ha1], ?_, ⟨m1 ++ m2, by rw [hm2, hm1]; simp⟩, c1 ++ c2, by rw [hc2, hc1]; simp⟩
      · rw [hv1, if_pos hk, if_pos hk, h2, hv1]
      · intro d hd; rw [if_pos hk] at hd; exact hv2 d (by rw [hv1]; exact hd)
    · refine ⟨s1, ?_, hs1, ha1, ?_, ⟨m1, hm1⟩, c1, hc1⟩
      · rw [hv1, if_neg hk, if_neg hk]; rfl
      · intro d hd; rw [if_neg hk] at hd; exact absurd hd (by simp)

/-- C112 for callbacks that do not call `Commit` and a batch with at least one write: if every callback returns no error and the engine
commits, the store is as if the writes of the batch and then the callbacks, in the order of registration, had been run on it directly,
and it changes in one step; in all other cases `Commit` fails and the store is as before.
Missing for the full C112: a batch without writes (`C112_refuted_empty`), a second try (`C112_refuted_retry`), callbacks registered by
callbacks (`C112_refuted_late`), callbacks that call `Commit` (`C112_refuted_loop`). -/
theorem C112_partial (beh : Nat → OcCb) (engineOk : OcSt → Bool) (fuel : Nat) (s : OcSt) (hne : s.ops ≠ []) (hap : s.applied = false)
    (hno : ∀ id ∈ s.callbacks, Spec.noCommit (beh id)) :
    ∃ s' r, ocCommit beh engineOk (fuel + 1) s = some (s', r) ∧
      ((r = .done ∧ Spec.direct (s.callbacks.map beh) (s.store.apply s.ops) = some s'.store) ∨
       (r = .failed ∧ s'.store = s.store ∧ s'.applied = false)) ∧
      ((∀ x, engineOk x = true) → (Spec.direct (s.callbacks.map beh) (s.store.apply s.ops)).isSome → r = .done) := by
  obtain ⟨s1, h1, hs1, ha1, hv1, _, _⟩ := ocNotify_spec (ocCommit beh engineOk fuel) beh s.callbacks hno s
  have hemp : s.ops.isEmpty = false := by cases h : s.ops with
    | nil => exact absurd h hne
    | cons => rfl
  have hview : s.view = s.store.apply s.ops := rfl
  simp only [ocCommit, hemp, h1, Bool.false_eq_true, if_false]
  rw [← hview]
  cases hd : Spec.direct (s.callbacks.map beh) s.view with
  | none =>
    simp only [Option.isSome_none, Bool.false_eq_true, if_false]
    exact ⟨s1, .failed, rfl, .inr ⟨rfl, hs1, by rw [ha1, hap]⟩, fun _ h => h.elim⟩
  | some d =>
    simp only [Option.isSome_some, if_true]
    rw [ha1, hap]
    by_cases he : engineOk s1 = true
    · refine ⟨_, .done, by simp [he]; rfl, .inl ⟨rfl, ?_⟩, fun _ _ => rfl⟩
      have := hv1 d hd
      simp only
      rw [← this]; rfl
    · exact ⟨s1, .failed, by simp [he], .inr ⟨rfl, hs1, by rw [ha1, hap]⟩, fun h => absurd (h s1) he⟩

/-- a callback that appends a byte to the value of key [7] -/
def bumpCb : OcCb := ⟨[.write (fun v => .set [7] (((v.get [7]).getD []) ++ [1]))], fun _ => true⟩

/-- a callback that refuses until the value of key [7] has two bytes -/
def pickyCb : OcCb := ⟨[], fun v => decide (2 ≤ ((v.get [7]).getD []).length)⟩

/-- a transaction with one write and two callbacks that add to it -/
example : (ocCommit (fun _ => bumpCb) (fun _ => true) 1 ⟨KV.empty, [.set [8] [9]], [1, 2], false⟩).map (fun r => (r.1.store.l, r.2)) =
    some ([([7], [1, 1]), ([8], [9])], .done) := by decide

/-- C112 is false for a batch without writes: its callbacks, which would write, or refuse, are not run, and `Commit` succeeds. -/
theorem C112_refuted_empty (beh : Nat → OcCb) (engineOk : OcSt → Bool) (fuel : Nat) (s : OcSt) (h : s.ops = []) :
    ocCommit beh engineOk (fuel + 1) s = some (s, .done) := by simp [ocCommit, h]

/-- C112 is false for a transaction that is tried again: what the callbacks wrote before one of them returned an error stays in the batch,
and they write again. Here the callback appends one byte, and two are stored. -/
theorem C112_refuted_retry :
    let beh : Nat → OcCb := fun id => if id = 1 then bumpCb else pickyCb
    let s : OcSt := ⟨KV.empty, [.set [8] [9]], [1, 2], false⟩
    ((ocCommit beh (fun _ => true) 1 s).map (fun r => (r.1.store.l, r.2)) = some ([], .failed)) ∧
    (((ocCommit beh (fun _ => true) 1 s).bind (fun r => ocCommit beh (fun _ => true) 1 r.1)).map (fun r => (r.1.store.l, r.2)) =
      some ([([7], [1, 1]), ([8], [9])], .done)) := by decide

/-- C112 is false for callbacks that are registered by callbacks: they are not run. -/
theorem C112_refuted_late :
    let beh : Nat → OcCb := fun id => if id = 1 then ⟨[.onCommit 2], fun _ => true⟩ else bumpCb
    (ocCommit beh (fun _ => true) 1 ⟨KV.empty, [.set [8] [9]], [1], false⟩).map (fun r => (r.1.store.l, r.1.callbacks, r.2)) =
      some ([([8], [9])], [1, 2], .done) := by decide

/-- C112 is false for callbacks that call `Commit`: it never returns. -/
theorem C112_refuted_loop (engineOk : OcSt → Bool) (fuel : Nat) (st : KV) :
    ocCommit (fun _ => ⟨[.commit], fun _ => true⟩) engineOk fuel ⟨st, [.set [8] [9]], [1], false⟩ = none := by
  induction fuel with
  | zero => rfl
  | succ fuel ih => simp [ocCommit, ocNotify, ocActs, ih]

end Bond
