import Verif.Spec.Crash
import Verif.Props.Batches
/-
C87: crashes.
-/
namespace Bond
open Spec
variable {T F : Type}

theorem snoc_induction {α : Type} {P : List α → Prop} (h0 : P []) (h1 : ∀ l x, P l → P (l ++ [x])) (l : List α) : P l := by
  have : ∀ r : List α, P r.reverse := by
    intro r
    induction r with
    | nil => exact h0
    | cons x r ih => rw [List.reverse_cons]; exact h1 _ _ ih
  simpa using this l.reverse

/-- a step makes at most one commit, which is all it does to the database -/
theorem stepCommits_spec (t : Table T F) (rw : Nat → Bool) (w : BatchWorld T F) (s : BatchStep T) :
    (t.stepCommits rw w s = [] ∧ (t.batchStep rw w s).db = w.db) ∨
    (∃ ops, t.stepCommits rw w s = [ops] ∧ (t.batchStep rw w s).db = w.db.apply ops) := by
  cases s with
  | call j env c => exact Or.inl ⟨rfl, rfl⟩
  | put j ops => exact Or.inl ⟨rfl, rfl⟩
  | drop j => exact Or.inl ⟨rfl, rfl⟩
  | others ops =>
    by_cases h : ops = []
    · exact Or.inl ⟨by simp [Table.stepCommits, h], by simp [Table.batchStep, h, KV.apply]⟩
    · exact Or.inr ⟨ops, by simp [Table.stepCommits, h], rfl⟩
  | commit j ok =>
    by_cases h : (w.bats j).ops = []
    · exact Or.inl ⟨by simp [Table.stepCommits, h], by simp [Table.batchStep, Batch.commit, h]⟩
    · cases ok
      · exact Or.inl ⟨by simp [Table.stepCommits], by simp [Table.batchStep, Batch.commit, h]⟩
      · exact Or.inr ⟨_, by simp only [Table.stepCommits, if_neg h]; rfl, by simp [Table.batchStep, Batch.commit, h]⟩
  | direct env c =>
    have hfin : ∀ r : WSt T F × Option Err,
        ((finish env w.db none r).commits = [] ∧ (finish env w.db none r).db = w.db) ∨
        (∃ ops, (finish env w.db none r).commits = [ops] ∧ (finish env w.db none r).db = w.db.apply ops) := by
      intro r
      unfold finish
      simp only
      split
      · exact Or.inl ⟨rfl, rfl⟩
      · split
        · exact Or.inl ⟨rfl, rfl⟩
        · split
          · exact Or.inr ⟨_, rfl, rfl⟩
          · exact Or.inl ⟨rfl, rfl⟩
    simp only [Table.stepCommits, Table.batchStep]
    rw [Table.run_eq]
    split
    · exact Or.inl ⟨rfl, rfl⟩
    · exact hfin _

/-- the run that also keeps track of the disk -/
def diskRun (t : Table T F) (rw : Nat → Bool) (x : BatchWorld T F × WalState) (l : List (BatchStep T × Bool)) : BatchWorld T F × WalState :=
  l.foldl (fun x s => t.diskStep rw x s.1 s.2) x

theorem diskRun_fst (t : Table T F) (rw : Nat → Bool) (l : List (BatchStep T × Bool)) : ∀ x : BatchWorld T F × WalState,
    (diskRun t rw x l).1 = t.batchRun rw x.1 (l.map Prod.fst) := by
  induction l with
  | nil => intro x; rfl
  | cons s l ih => intro x; exact ih _

theorem nothingPromised_snoc (t : Table T F) (rw : Nat → Bool) (l : List (BatchStep T × Bool)) (s : BatchStep T × Bool) :
    ∀ w : BatchWorld T F, NothingPromised t rw w l →
    (s.2 = true → (t.batchStep rw (t.batchRun rw w (l.map Prod.fst)) s.1).db = (t.batchRun rw w (l.map Prod.fst)).db ∧
      t.stepCommits rw (t.batchRun rw w (l.map Prod.fst)) s.1 = []) → NothingPromised t rw w (l ++ [s]) := by
  induction l with
  | nil => intro w _ h; exact ⟨h, trivial⟩
  | cons x l ih => intro w hl h; exact ⟨hl.1, ih _ hl.2 h⟩

/-- where the disk stands: whatever is found after a crash is the database at some earlier moment, after which nothing was
promised; with everything found it is the database of now -/
theorem diskRun_inv (t : Table T F) (rw : Nat → Bool) (w : BatchWorld T F) (l : List (BatchStep T × Bool)) :
    (diskRun t rw (w, ⟨w.db, []⟩) l).2.kept.apply (diskRun t rw (w, ⟨w.db, []⟩) l).2.later.flatten = (t.batchRun rw w (l.map Prod.fst)).db ∧
    ∀ n, ∃ pre post, l = pre ++ post ∧ (diskRun t rw (w, ⟨w.db, []⟩) l).2.crash n = (t.batchRun rw w (pre.map Prod.fst)).db ∧
      NothingPromised t rw (t.batchRun rw w (pre.map Prod.fst)) post := by
  induction l using snoc_induction with
  | h0 => exact ⟨rfl, fun n => ⟨[], [], rfl, by simp [diskRun, WalState.crash, KV.apply, Table.batchRun], trivial⟩⟩
  | h1 l s ih =>
    obtain ⟨hnow, hcr⟩ := ih
    have hstep : diskRun t rw (w, ⟨w.db, []⟩) (l ++ [s]) = t.diskStep rw (diskRun t rw (w, ⟨w.db, []⟩) l) s.1 s.2 := by
      simp [diskRun, List.foldl_append]
    have hrun : t.batchRun rw w ((l ++ [s]).map Prod.fst) = t.batchStep rw (t.batchRun rw w (l.map Prod.fst)) s.1 := by
      simp [Table.batchRun, List.foldl_append]
    have hw := diskRun_fst t rw l (w, ⟨w.db, []⟩)
    rw [hstep, hrun]
    generalize diskRun t rw (w, ⟨w.db, []⟩) l = x at *
    obtain ⟨x1, kept, later⟩ := x
    simp only at hw hnow hcr
    subst hw
    have hsame : ∀ (hc : s.2 = true → (t.batchStep rw (t.batchRun rw w (l.map Prod.fst)) s.1).db = (t.batchRun rw w (l.map Prod.fst)).db ∧
        t.stepCommits rw (t.batchRun rw w (l.map Prod.fst)) s.1 = []) (n : Nat),
        ∃ pre post, l ++ [s] = pre ++ post ∧ (WalState.mk kept later).crash n = (t.batchRun rw w (pre.map Prod.fst)).db ∧
          NothingPromised t rw (t.batchRun rw w (pre.map Prod.fst)) post := by
      intro hc n
      obtain ⟨pre, post, e, h1, h2⟩ := hcr n
      refine ⟨pre, post ++ [s], by rw [e, List.append_assoc], h1, nothingPromised_snoc t rw post s _ h2 ?_⟩
      have : t.batchRun rw (t.batchRun rw w (pre.map Prod.fst)) (post.map Prod.fst) = t.batchRun rw w (l.map Prod.fst) := by
        rw [e]; simp [Table.batchRun, List.foldl_append]
      rw [this]; exact hc
    simp only [Table.diskStep]
    rcases stepCommits_spec t rw (t.batchRun rw w (l.map Prod.fst)) s.1 with ⟨h1, h2⟩ | ⟨ops, h1, h2⟩
    · rw [h1, h2]
      exact ⟨hnow, hsame (fun _ => ⟨h2, h1⟩)⟩
    · rw [h1, h2]
      simp only [List.foldl_cons, List.foldl_nil]
      have hall : (t.batchRun rw w ((l ++ [s]).map Prod.fst)).db = (t.batchRun rw w (l.map Prod.fst)).db.apply ops := by rw [hrun, h2]
      cases hs : s.2 with
      | true =>
        simp only [WalState.commit, if_true, WalState.crash, List.flatten_nil, List.take_nil]
        rw [KV.apply_append, hnow]
        exact ⟨rfl, fun n => ⟨l ++ [s], [], by simp, hall.symm, trivial⟩⟩
      | false =>
        simp only [WalState.commit, Bool.false_eq_true, if_false, WalState.crash]
        refine ⟨by rw [List.flatten_append, KV.apply_append, hnow]; simp, fun n => ?_⟩
        by_cases hn : n ≤ later.length
        · rw [List.take_append_of_le_length hn]
          exact hsame (by rw [hs]; simp) n
        · refine ⟨l ++ [s], [], by simp, ?_, trivial⟩
          rw [List.take_of_length_le (by simp; omega), List.flatten_append, KV.apply_append, hnow, hall]
          simp

theorem sync_promised (s : BatchStep T × Bool) : s.1.sync s.2 = promised s := by
  obtain ⟨s, b⟩ := s
  cases s <;> rfl

theorem lifeEnd_eq (t : Table T F) (rw : Nat → Bool) (db : KV) (e : Life T F) :
    t.lifeEnd rw db e = diskRun t rw (BatchWorld.start db e.filt, ⟨db, []⟩) (done e) := by
  have h : ∀ (l : List (BatchStep T × Bool)) (x : BatchWorld T F × WalState),
      l.foldl (fun x s => t.diskStep rw x s.1 (s.1.sync s.2)) x = diskRun t rw x (l.map (fun s => (s.1, promised s))) := by
    intro l
    induction l with
    | nil => intro x; rfl
    | cons s l ih =>
      intro x
      simp only [List.foldl_cons, List.map_cons, diskRun]
      rw [ih, sync_promised]
      rfl
  unfold Table.lifeEnd done
  simp only
  rw [h]
  cases e.last with
  | none => simp
  | some s => simp [diskRun, List.foldl_append]

theorem isolated_append {t : Table T F} {rw : Nat → Bool} {Q : Env T → KV → WCall T → Prop} {l l' : List (BatchStep T)} :
    ∀ {w : BatchWorld T F}, Isolated t rw Q w (l ++ l') → Isolated t rw Q w l := by
  induction l with
  | nil => intro w _; trivial
  | cons x l ih => intro w h; exact ⟨h.1, ih h.2⟩

/-- C87 (one life of the process, all tables, calls, batches, interleavings, write options and crash points, also in the middle of
a call or commit): what the next Open finds is the database as it was at some earlier moment. After that moment nothing with a
promise of durability has committed anything: no call without batch, no commit with Sync. -/
theorem C87_crash (t : Table T F) (rw : Nat → Bool) (db : KV) (e : Life T F) :
    ∃ pre post, done e = pre ++ post ∧
      t.afterCrash rw db e = (t.batchRun rw (BatchWorld.start db e.filt) (pre.map Prod.fst)).db ∧
      NothingPromised t rw (t.batchRun rw (BatchWorld.start db e.filt) (pre.map Prod.fst)) post := by
  unfold Table.afterCrash
  rw [lifeEnd_eq]
  exact (diskRun_inv t rw (BatchWorld.start db e.filt) (done e)).2 e.found

/-- C87 (durability): once a call without batch, or a commit with Sync, that wrote something has returned, neither its writes nor
anything committed before it can be lost. -/
theorem C87_durable (t : Table T F) (rw : Nat → Bool) (db : KV) (e : Life T F) {a b : List (BatchStep T × Bool)} {s : BatchStep T}
    (hd : done e = a ++ (s, true) :: b)
    (hw : t.stepCommits rw (t.batchRun rw (BatchWorld.start db e.filt) (a.map Prod.fst)) s ≠ []) :
    ∃ b1 b2, b = b1 ++ b2 ∧
      t.afterCrash rw db e = (t.batchRun rw (BatchWorld.start db e.filt) (a.map Prod.fst ++ s :: b1.map Prod.fst)).db := by
  obtain ⟨pre, post, e1, e2, e3⟩ := C87_crash t rw db e
  have h := hd.symm.trans e1
  have key : ∀ (pre a : List (BatchStep T × Bool)) (w : BatchWorld T F), a ++ (s, true) :: b = pre ++ post →
      t.stepCommits rw (t.batchRun rw w (a.map Prod.fst)) s ≠ [] → NothingPromised t rw (t.batchRun rw w (pre.map Prod.fst)) post →
      ∃ b1 b2, b = b1 ++ b2 ∧ pre = a ++ (s, true) :: b1 := by
    intro pre
    induction pre with
    | nil =>
      intro a w h hw hn
      rw [List.nil_append] at h
      subst h
      exfalso
      have : ∀ (a : List (BatchStep T × Bool)) (w : BatchWorld T F), t.stepCommits rw (t.batchRun rw w (a.map Prod.fst)) s ≠ [] →
          NothingPromised t rw w (a ++ (s, true) :: b) → False := by
        intro a
        induction a with
        | nil => intro w h1 h2; exact h1 (h2.1 rfl).2
        | cons x a ih => intro w h1 h2; exact ih _ h1 h2.2
      exact this a w hw hn
    | cons x pre ih =>
      intro a w h hw hn
      cases a with
      | nil =>
        simp only [List.nil_append, List.cons_append, List.cons.injEq] at h
        exact ⟨pre, post, h.2, by rw [h.1]; rfl⟩
      | cons y a =>
        simp only [List.cons_append, List.cons.injEq] at h
        obtain ⟨b1, b2, h1, h2⟩ := ih a (t.batchStep rw w x.1) h.2 (by rw [← h.1]; exact hw) hn
        exact ⟨b1, b2, h1, by rw [h2, h.1]; rfl⟩
  obtain ⟨b1, b2, h1, h2⟩ := key pre a _ h hw e3
  exact ⟨b1, b2, h1, by rw [e2, h2]; simp⟩

/-- C87 (content and indexes): after any number of lives that ended by crashes, the table stores exactly the rows produced by some
first part of what was done in every life, which includes all that was promised to be durable, and every index agrees with the
rows. A batch is found completely or not at all, and nothing is found of a batch that was not committed. -/
theorem C87_content {t : Table T F} (wf : t.WF) (rt : t.RoundTrip) (fs : t.FilterSound) {rw : Nat → Bool} (hrw : ∀ j, rw j = true)
    (es : List (Life T F)) : ∀ {db : KV} {m : Rows T}, Holds t db m → GoodLives t rw db es →
    ∃ m', Survives t rw db m es m' ∧ Holds t (t.afterCrashes rw db es) m' := by
  induction es with
  | nil => intro db m h _; exact ⟨m, rfl, h⟩
  | cons e es ih =>
    intro db m hH hg
    obtain ⟨⟨g1, g2, g3⟩, hes⟩ := hg
    obtain ⟨pre, post, e1, e2, e3⟩ := C87_crash t rw db e
    have hmap : (done e).map Prod.fst = pre.map Prod.fst ++ post.map Prod.fst := by rw [e1, List.map_append]
    have hi := isolated_append (hmap ▸ g2)
    have hlog : ∀ j rs, .commit j rs none ∈ (t.batchRun rw (BatchWorld.start db e.filt) (pre.map Prod.fst)).log → ∀ x ∈ rs, x = none := by
      intro j rs hm
      obtain ⟨os, ho⟩ := log_grows t rw (post.map Prod.fst) (t.batchRun rw (BatchWorld.start db e.filt) (pre.map Prod.fst))
      refine g3 j rs ?_
      rw [hmap, show t.batchRun rw (BatchWorld.start db e.filt) (pre.map Prod.fst ++ post.map Prod.fst) =
        t.batchRun rw (t.batchRun rw (BatchWorld.start db e.filt) (pre.map Prod.fst)) (post.map Prod.fst) by
          simp [Table.batchRun, List.foldl_append], ho]
      exact List.mem_append_left _ hm
    have hc := C86_content wf rt fs hrw hH (filterCovers_of_covKV hH g1) (pre.map Prod.fst) hi hlog
    rw [e2] at hes
    obtain ⟨m', s1, s2⟩ := ih hc hes
    refine ⟨m', ⟨pre, post, e1, e3, s1⟩, ?_⟩
    rw [← e2] at s2
    exact s2

/-- two lives: in the first, batch 1 is committed without Sync after a direct call and is lost in the crash, which happens while
batch 0 is being committed; in the second a row is inserted, and the process dies in the middle of another call -/
def exLives : List (Life Rec Unit) :=
  [⟨(), (exBatchSteps.take 9).map (·, false), some (.commit 0 true), 0⟩,
   ⟨(), [(.direct (stdEnv exTable) (.insert [(4, 8)]), false)], some (.direct (stdEnv exTable) (.update [(1, 9)])), 1⟩]

/-- the hypotheses of `C87_content` hold -/
example : GoodLives exTable (fun _ => true) exDB exLives ∧
    (exTable.afterCrash (fun _ => true) exDB (exLives.headD ⟨(), [], none, 0⟩)).get (exTable.key (4, 0)) = none ∧
    (exTable.afterCrash (fun _ => true) exDB (exLives.headD ⟨(), [], none, 0⟩)).get (exTable.key (2, 0)) = some [2, 9] ∧
    (exTable.afterCrashes (fun _ => true) exDB exLives).get (exTable.key (1, 0)) = some [1, 9] ∧
    (exTable.afterCrashes (fun _ => true) exDB exLives).get (exTable.key (4, 0)) = some [4, 8] := by
  have gi : ∀ V a, GoodRun exTable (stdEnv exTable) V (.insert [a]) := fun V a => ⟨Or.inr (by simp), by intro trs h; simp at h⟩
  have gu : ∀ V a, GoodRun exTable (stdEnv exTable) V (.update [a]) :=
    fun V a => ⟨Or.inr (by simp), fun trs _ => Or.inr (stdEnv_stable _)⟩
  refine ⟨⟨⟨by intro fl h; simp [exTable] at h, exBatchSteps_isolated, ?_⟩,
    ⟨by intro fl h; simp [exTable] at h, ⟨⟨stdEnv_ok _, gi _ _, ?_⟩, ⟨stdEnv_ok _, gu _ _, ?_⟩, trivial⟩, ?_⟩, trivial⟩, by decide, by decide, by decide, by decide⟩
  · intro j rs hm x hx
    have hl : (exTable.batchRun (fun _ => true) (BatchWorld.start exDB ()) exBatchSteps).log =
      [.direct none, .direct (some .alreadyExist), .commit 1 [none] none, .commit 0 [none, none, none] none] := by decide
    have hm' : Outcome.commit j rs none ∈ (exTable.batchRun (fun _ => true) (BatchWorld.start exDB ()) exBatchSteps).log := hm
    rw [hl] at hm'
    simp only [List.mem_cons, reduceCtorEq, Outcome.commit.injEq, and_true, List.not_mem_nil, or_false, false_or] at hm'
    rcases hm' with ⟨_, rfl⟩ | ⟨_, rfl⟩ <;> simp_all
  · intro i k _; simp [BatchWorld.start, OpenBatch.new, askedKeys]
  · intro i k _; simp [Table.batchStep, BatchWorld.start, OpenBatch.new, askedKeys]
  · intro j rs hm
    simp [done, exLives, Table.batchRun, Table.batchStep, BatchWorld.start] at hm

/-- the hypotheses of `C87_durable` hold for the direct call of the first life -/
example : let e := exLives.headD ⟨(), [], none, 0⟩
    (done e)[3]?.map Prod.snd = some true ∧
    exTable.stepCommits (fun _ => true) (exTable.batchRun (fun _ => true) (BatchWorld.start exDB ()) (((done e).take 3).map Prod.fst))
      (.direct (stdEnv exTable) (.update [(2, 9)])) ≠ [] := by
  decide

/-- Sync on something that writes nothing makes nothing durable: a batch is committed without Sync, then Insert is called with no
rows, and an empty batch is committed with Sync; both return success, and the row of the first batch is lost in a crash. -/
theorem C87_refuted_empty :
    let e : Life Rec Unit := ⟨(), [(.call 0 (stdEnv exTable) (.insert [(9, 5)]), false), (.commit 0 true, false),
      (.direct (stdEnv exTable) (.insert []), true), (.commit 1 true, true)], none, 0⟩
    (exTable.lifeEnd (fun _ => true) exDB e).1.log = [.commit 0 [none] none, .direct none, .commit 1 [] none] ∧
    (exTable.lifeEnd (fun _ => true) exDB e).1.db.get (exTable.key (9, 0)) = some [9, 5] ∧
    (exTable.afterCrash (fun _ => true) exDB e).get (exTable.key (9, 0)) = none := by
  decide

end Bond
