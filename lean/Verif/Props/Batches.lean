import Verif.BatchInv
import Verif.Props.Concurrent
import Verif.Props.Reads
/-
C86: several open batches and direct calls at the same time.
-/
namespace Bond
open Spec
variable {T F : Type}

/-- UnsafeUpdate only of stored rows, which depends only on the rows with the keys of the call -/
theorem localCond_stored (t : Table T F) : LocalCond t (fun _ V c => StoredOld t V c) := by
  refine ⟨fun env V W c h hs trs olds e hl x hx => ?_, fun _ _ _ h => h⟩
  rw [← h _ (by subst e; exact List.mem_map.2 ⟨x, hx, rfl⟩)]
  exact hs trs olds e hl x hx

theorem localCond_good (t : Table T F) : LocalCond t (fun env V c => GoodRun t env V c) := by
  refine ⟨fun env V W c h hg => goodRun_same h hg, fun env V c hg trs olds e hl x hx => ?_⟩
  subst e
  obtain ⟨i, hi, rfl⟩ := List.getElem_of_mem hx
  have hz : (trs[i], olds[i]'(hl ▸ hi)) ∈ trs.zip olds := by
    rw [List.mem_iff_getElem]; exact ⟨i, by simp; omega, by simp⟩
  have := (hg.1 hl).2 _ hz
  unfold storedRow at this
  simp only at this
  cases hv : V.get (t.key trs[i]) with
  | none => rw [show dataKey t.id (t.pk trs[i]) = t.key trs[i] from rfl, hv] at this; simp at this
  | some v => rfl

/-- C86 (any number of batches of either kind, any calls, failing or not, any interleaving): as long as the keys of a call are
not in another open batch, it makes no difference whether the calls on a batch are made one by one while other calls and other
commits happen, or all at once when the batch is committed. The database is the same at any moment, and so are the results of
all direct calls, of all commits, and of all calls on the committed batches. UnsafeUpdate is given stored rows only. -/
theorem C86_serial {t : Table T F} (wf : t.WF) (fs : t.FilterSound) (rw : Nat → Bool) {db : KV} {f : F} (hc : CovKV t f db)
    (l : List (BatchStep T)) (hi : Isolated t rw (fun _ V c => StoredOld t V c) (BatchWorld.start db f) l) :
    (t.batchRun rw (BatchWorld.start db f) l).db = (atCommit t rw db f l).db ∧
    (t.batchRun rw (BatchWorld.start db f) l).log = (atCommit t rw db f l).log := by
  have := (BInv.start (rw := rw) hc).run wf fs (localCond_stored t) l hi
  exact ⟨this.db, this.log⟩

/-- what filling a batch at once does to the content -/
theorem fill_holds {t : Table T F} (wf : t.WF) (rt : t.RoundTrip) (fs : t.FilterSound) {db : KV}
    (l : List ((Env T × WCall T) ⊕ List WOp)) : ∀ {s : Filling F} {m : Rows T},
    FillOK t true (fun env V c => GoodRun t env V c) db s l → Holds t (db.apply s.ops) m → FilterCovers t s.filt m →
    (∀ e ∈ (l.foldl (fill1 t true db) s).res, e = none) →
    Holds t (db.apply (l.foldl (fill1 t true db) s).ops) ((l.filterMap Sum.getLeft?).foldl (fun m c => effect t.pk m c.2) m) ∧
    FilterCovers t (l.foldl (fill1 t true db) s).filt ((l.filterMap Sum.getLeft?).foldl (fun m c => effect t.pk m c.2) m) := by
  have hmono : ∀ (l : List ((Env T × WCall T) ⊕ List WOp)) (s : Filling F), ∀ e ∈ s.res, e ∈ (l.foldl (fill1 t true db) s).res := by
    intro l
    induction l with
    | nil => intro s e h; exact h
    | cons x l ih =>
      intro s e h
      refine ih _ e ?_
      rcases x with ⟨env, c⟩ | ops
      · exact List.mem_append_left _ h
      · exact h
  induction l with
  | nil => intro s m _ hH hF _; exact ⟨hH, hF⟩
  | cons x l ih =>
    intro s m hok hH hF hr
    rcases x with ⟨env, c⟩ | ops
    · obtain ⟨⟨ok, hg⟩, hok⟩ := hok
      have he : (t.run env db s.filt (some ⟨true, s.ops⟩) c).err = none :=
        hr _ (hmono l (fill1 t true db s (.inl (env, c))) _ (by simp [fill1]))
      have hrd : Readable (some ⟨true, s.ops⟩) := by intro b hb; cases hb; rfl
      obtain ⟨a1, _, a3⟩ := run_effect wf rt fs ok hrd hH hF hg he
      have hv : (t.run env db s.filt (some ⟨true, s.ops⟩) c).view = db.apply (t.run env db s.filt (some ⟨true, s.ops⟩) c).batchOps := by
        unfold WOut.view WOut.batchOps
        obtain ⟨l', hl', _⟩ := C61_partial ok db s.filt ⟨true, s.ops⟩ c
        rw [hl', (run_db_batch t env db s.filt _ c).1]; rfl
      rw [hv] at a1
      exact ih (s := fill1 t true db s (.inl (env, c))) hok a1 a3 hr
    · obtain ⟨ho, hok⟩ := hok
      refine ih (s := fill1 t true db s (.inr ops)) hok ?_ hF hr
      simp only [fill1]
      rw [KV.apply_append]
      exact hH.congr (fun k hk => get_outside ho _ hk)

/-- the calls asked of a batch -/
def callsOf (l : List ((Env T × WCall T) ⊕ List WOp)) : List (WCall T) := (l.filterMap Sum.getLeft?).map Prod.snd

theorem log_grows (t : Table T F) (rw : Nat → Bool) (l : List (BatchStep T)) : ∀ (w : BatchWorld T F),
    ∃ os, (t.batchRun rw w l).log = w.log ++ os := by
  induction l with
  | nil => intro w; exact ⟨[], by simp [Table.batchRun]⟩
  | cons x l ih =>
    intro w
    obtain ⟨os, e⟩ := ih (t.batchStep rw w x)
    have h1 : ∃ o1, (t.batchStep rw w x).log = w.log ++ o1 := by
      cases x with
      | direct env c => exact ⟨_, rfl⟩
      | commit j ok => exact ⟨_, rfl⟩
      | call j env c => exact ⟨[], by simp [Table.batchStep]⟩
      | put j ops => exact ⟨[], by simp [Table.batchStep]⟩
      | others ops => exact ⟨[], by simp [Table.batchStep]⟩
      | drop j => exact ⟨[], by simp [Table.batchStep]⟩
    obtain ⟨o1, e1⟩ := h1
    exact ⟨o1 ++ os, by rw [show t.batchRun rw w (x :: l) = t.batchRun rw (t.batchStep rw w x) l from rfl, e, e1, List.append_assoc]⟩

theorem callsOf_setBat (a : Nat → List ((Env T × WCall T) ⊕ List WOp)) (j : Nat) (x : List ((Env T × WCall T) ⊕ List WOp)) :
    (fun i => callsOf (setBat a j x i)) = setBat (fun i => callsOf (a i)) j (callsOf x) := by
  funext i
  simp only [setBat]
  split <;> rfl

theorem FilterCovers.mono {t : Table T F} {f f' : F} {m : Rows T} (h : FilterCovers t f m) (hl : FiltLe t f f') : FilterCovers t f' m :=
  fun fl hfl pk x hm => hl fl hfl _ (h fl hfl pk x hm)

theorem BInv.content {t : Table T F} (wf : t.WF) (rt : t.RoundTrip) (fs : t.FilterSound) {rw : Nat → Bool} (hrw : ∀ j, rw j = true)
    (l : List (BatchStep T)) : ∀ {w : BatchWorld T F} {s : AtCommit T F} {m : Rows T} {os : List Outcome},
    BInv t rw (fun env V c => GoodRun t env V c) w s → Isolated t rw (fun env V c => GoodRun t env V c) w l →
    Holds t s.db m → FilterCovers t s.filt m → (t.batchRun rw w l).log = w.log ++ os →
    (∀ j rs, .commit j rs none ∈ os → ∀ e ∈ rs, e = none) →
    Holds t (t.batchRun rw w l).db (contentB t.pk l os (fun j => callsOf (s.asked j)) m) := by
  induction l with
  | nil => intro w s m os h _ hH _ _ _; rw [← h.db] at hH; exact hH
  | cons x l ih =>
    intro w s m os h hi hH hF hlog hr
    have h' := h.step wf fs (localCond_good t) hi.1
    have hx := hi.1
    have hrun : t.batchRun rw w (x :: l) = t.batchRun rw (t.batchStep rw w x) l := rfl
    rw [hrun] at hlog ⊢
    cases x with
    | call j env c =>
      have := ih h' hi.2 hH hF hlog hr
      simp only [atCommit1] at this
      rw [callsOf_setBat] at this
      rw [contentB]
      simpa [callsOf] using this
    | put j ops =>
      have := ih h' hi.2 hH hF hlog hr
      simp only [atCommit1] at this
      rw [callsOf_setBat] at this
      rw [contentB]
      have hid : setBat (fun i => callsOf (s.asked i)) j (callsOf (s.asked j ++ [.inr ops])) = fun i => callsOf (s.asked i) := by
        funext i
        simp only [setBat]
        split
        · rename_i e; subst e; simp [callsOf]
        · rfl
      rw [hid] at this
      exact this
    | drop j =>
      have := ih h' hi.2 hH hF hlog hr
      simp only [atCommit1] at this
      rw [callsOf_setBat] at this
      rw [contentB]
      exact this
    | others ops =>
      rw [contentB]
      exact ih (s := atCommit1 t rw s (.others ops)) h' hi.2 (hH.congr (fun k hk => get_outside hx _ hk)) hF hlog hr
    | direct env c =>
      obtain ⟨ok, hg, _⟩ := hx
      rw [h.db] at hg
      have hl1 : (t.batchStep rw w (.direct env c)).log = w.log ++ [.direct (t.run env s.db s.filt none c).err] := by
        rw [h'.log, h.log]; rfl
      have hnext : Holds t (atCommit1 t rw s (.direct env c)).db
            (if (t.run env s.db s.filt none c).err = none then effect t.pk m c else m) ∧
          FilterCovers t (atCommit1 t rw s (.direct env c)).filt
            (if (t.run env s.db s.filt none c).err = none then effect t.pk m c else m) := by
        by_cases he : (t.run env s.db s.filt none c).err = none
        · rw [if_pos he]
          obtain ⟨a, _, b⟩ := run_effect wf rt fs ok (ob := none) (by intro b hb; simp at hb) hH hF hg he
          rw [run_view_nobatch] at a
          exact ⟨a, b⟩
        · rw [if_neg he]
          have hdb : (t.run env s.db s.filt none c).db = s.db := ((C13 t env s.db s.filt c).1 he).1
          simp only [atCommit1]
          rw [hdb]
          exact ⟨hH, run_filt_covers fs ok s.db none c hF⟩
      obtain ⟨os', e⟩ := log_grows t rw l (t.batchStep rw w (.direct env c))
      have hos : os = .direct (t.run env s.db s.filt none c).err :: os' := by
        rw [hlog, hl1, List.append_assoc] at e
        exact List.append_cancel_left e
      subst hos
      have := ih h' hi.2 hnext.1 hnext.2 e (fun j rs hm => hr j rs (List.mem_cons_of_mem _ hm))
      rw [contentB]
      simp only [List.head?_cons, List.tail_cons, Option.some.injEq, Outcome.direct.injEq]
      exact this
    | commit j okc =>
      have hops := (h.slot j).ops
      have hres := (h.slot j).res
      have hok := (h.slot j).ok
      obtain ⟨g1, _, _⟩ := h.fills wf fs (localCond_good t) j
      have hl1 : (t.batchStep rw w (.commit j okc)).log =
          w.log ++ [.commit j (w.bats j).res (Batch.commit okc s.db ⟨rw j, (w.bats j).ops⟩).2] := by
        simp only [Table.batchStep]; rw [h.db]
      obtain ⟨os', e⟩ := log_grows t rw l (t.batchStep rw w (.commit j okc))
      have hos : os = .commit j (w.bats j).res (Batch.commit okc s.db ⟨rw j, (w.bats j).ops⟩).2 :: os' := by
        rw [hlog, hl1, List.append_assoc] at e
        exact List.append_cancel_left e
      subst hos
      have hr' := fun j rs hm => hr j rs (List.mem_cons_of_mem _ hm)
      have hdb : (atCommit1 t rw s (.commit j okc)).db = (Batch.commit okc s.db ⟨rw j, (w.bats j).ops⟩).1 := by
        simp only [atCommit1]; rw [hops]
      have hnext : Holds t (atCommit1 t rw s (.commit j okc)).db
            (match (Batch.commit okc s.db ⟨rw j, (w.bats j).ops⟩).2 with
              | none => (callsOf (s.asked j)).foldl (effect t.pk) m
              | some _ => m) ∧
          FilterCovers t (atCommit1 t rw s (.commit j okc)).filt
            (match (Batch.commit okc s.db ⟨rw j, (w.bats j).ops⟩).2 with
              | none => (callsOf (s.asked j)).foldl (effect t.pk) m
              | some _ => m) := by
        rw [hdb]
        cases hc : (Batch.commit okc s.db ⟨rw j, (w.bats j).ops⟩).2 with
        | some x =>
          simp only
          have : (Batch.commit okc s.db ⟨rw j, (w.bats j).ops⟩).1 = s.db := by
            unfold Batch.commit at hc ⊢
            split at hc
            · simp at hc
            · split at hc
              · simp at hc
              · simp_all
          rw [this]
          exact ⟨hH, FilterCovers.mono hF g1⟩
        | none =>
          simp only
          have hall := hr j (w.bats j).res (by rw [hc]; simp)
          rw [hrw j] at hops hres hok
          obtain ⟨f1, f2⟩ := fill_holds wf rt fs (s.asked j) (s := ⟨[], s.filt, []⟩) hok hH hF (by
            rw [show ((s.asked j).foldl (fill1 t true s.db) ⟨[], s.filt, []⟩).res = (w.bats j).res from hres]; exact hall)
          rw [show ((s.asked j).foldl (fill1 t true s.db) ⟨[], s.filt, []⟩).ops = (w.bats j).ops from hops] at f1
          have hfold : ((s.asked j).filterMap Sum.getLeft?).foldl (fun m c => effect t.pk m c.2) m =
              (callsOf (s.asked j)).foldl (effect t.pk) m := by simp [callsOf, List.foldl_map]
          rw [hfold] at f1 f2
          have hcom : (Batch.commit okc s.db ⟨rw j, (w.bats j).ops⟩).1 = s.db.apply (w.bats j).ops := by
            unfold Batch.commit at hc ⊢
            split at hc
            · rename_i h0; simp only at h0; simp [h0, KV.apply]
            · split at hc
              · simp_all
              · simp at hc
          rw [hcom]
          refine ⟨f1, ?_⟩
          simp only [atCommit1]
          rw [hrw j]
          exact f2
      have := ih h' hi.2 hnext.1 hnext.2 e hr'
      simp only [atCommit1] at this
      rw [callsOf_setBat] at this
      rw [contentB]
      simp only [List.head?_cons, List.tail_cons]
      cases hc : (Batch.commit okc s.db ⟨rw j, (w.bats j).ops⟩).2 with
      | none => rw [hc] at this; exact this
      | some x => rw [hc] at this; exact this

/-- C86 (content and indexes): if the table is consistent at the start, every call is within the documented use given what it
sees, the batches are read-write and the calls on the committed batches succeeded, then at any moment the database stores
exactly the rows produced by the direct calls that succeeded and the committed batches, in the order of the direct calls and
commits, and every index agrees with them. -/
theorem C86_content {t : Table T F} (wf : t.WF) (rt : t.RoundTrip) (fs : t.FilterSound) {rw : Nat → Bool} (hrw : ∀ j, rw j = true)
    {db : KV} {f : F} {m : Rows T} (hH : Holds t db m) (hF : FilterCovers t f m) (l : List (BatchStep T))
    (hi : Isolated t rw (fun env V c => GoodRun t env V c) (BatchWorld.start db f) l)
    (hr : ∀ j rs, .commit j rs none ∈ (t.batchRun rw (BatchWorld.start db f) l).log → ∀ e ∈ rs, e = none) :
    Holds t (t.batchRun rw (BatchWorld.start db f) l).db
      (contentB t.pk l (t.batchRun rw (BatchWorld.start db f) l).log (fun _ => []) m) :=
  (BInv.start (covKV_of_holds hH hF)).content wf rt fs hrw l hi hH hF rfl hr

theorem filterCovers_of_covKV {t : Table T F} {f : F} {V : KV} {m : Rows T} (hH : Holds t V m) (hc : CovKV t f V) : FilterCovers t f m := by
  intro fl hfl pk x hm
  obtain ⟨b, _, hb⟩ := hH.present pk x hm
  exact hc fl hfl _ (by rw [hb]; rfl)

/-- C86 (reads): at any moment a read through an open batch shows the committed rows with the effect of the calls made on that
batch so far (all of which succeeded), whatever other batches hold; a read without batch shows the committed rows only. Through
the batch every index agrees with the rows too, so the properties of scans and queries hold there. -/
theorem C86_reads {t : Table T F} (wf : t.WF) (rt : t.RoundTrip) (fs : t.FilterSound) {rw : Nat → Bool} (hrw : ∀ j, rw j = true)
    {db : KV} {f : F} {m : Rows T} (hH : Holds t db m) (hF : FilterCovers t f m) (l : List (BatchStep T))
    (hi : Isolated t rw (fun env V c => GoodRun t env V c) (BatchWorld.start db f) l)
    (hr : ∀ j rs, .commit j rs none ∈ (t.batchRun rw (BatchWorld.start db f) l).log → ∀ e ∈ rs, e = none)
    (j : Nat) (hj : ∀ e ∈ ((t.batchRun rw (BatchWorld.start db f) l).bats j).res, e = none) :
    let w := t.batchRun rw (BatchWorld.start db f) l
    let committed := contentB t.pk l w.log (fun _ => []) m
    let seen := (callsOf (w.bats j).done).foldl (effect t.pk) committed
    Holds t (w.db.apply (w.bats j).ops) seen ∧
    (∀ x, t.getPoint w.filt w.db (some ⟨rw j, (w.bats j).ops⟩) x = (match seen (t.pk x) with | some y => .ok y | none => .error .notFound) ∧
      t.exist w.filt w.db (some ⟨rw j, (w.bats j).ops⟩) x = (seen (t.pk x)).isSome) ∧
    (∀ x, t.getPoint w.filt w.db none x = (match committed (t.pk x) with | some y => .ok y | none => .error .notFound) ∧
      t.exist w.filt w.db none x = (committed (t.pk x)).isSome) := by
  have hinv := (BInv.start (rw := rw) (Q := fun env V c => GoodRun t env V c) (covKV_of_holds hH hF)).run wf fs (localCond_good t) l hi
  have hC := C86_content wf rt fs hrw hH hF l hi hr
  simp only
  generalize t.batchRun rw (BatchWorld.start db f) l = w at *
  generalize List.foldl (atCommit1 t rw) _ l = s at *
  generalize contentB t.pk l w.log (fun _ => []) m = committed at *
  have hS : Holds t s.db committed := hinv.db ▸ hC
  have hsl := hinv.slot j
  rw [hrw j] at hsl
  obtain ⟨f1, _⟩ := fill_holds wf rt fs (s.asked j) (s := ⟨[], s.filt, []⟩) hsl.ok hS (filterCovers_of_covKV hS hinv.covS) (by
    rw [show ((s.asked j).foldl (fill1 t true s.db) ⟨[], s.filt, []⟩).res = (w.bats j).res from hsl.res]; exact hj)
  rw [show ((s.asked j).foldl (fill1 t true s.db) ⟨[], s.filt, []⟩).ops = (w.bats j).ops from hsl.ops] at f1
  have hfold : ((s.asked j).filterMap Sum.getLeft?).foldl (fun m c => effect t.pk m c.2) committed =
      (callsOf (w.bats j).done).foldl (effect t.pk) committed := by rw [hinv.asked]; simp [callsOf, List.foldl_map]
  rw [hfold, ← hinv.db] at f1
  have rtf : t.RoundTripFresh := fun x b hb => rt x b hb _
  have hFs := filterCovers_of_covKV f1 (covKV_apply _ hinv.covW (hinv.covB j))
  have hFc := filterCovers_of_covKV hC hinv.covW
  have hv : readable w.db (some ⟨rw j, (w.bats j).ops⟩) = some (w.db.apply (w.bats j).ops) := by rw [hrw j]; rfl
  exact ⟨f1, fun x => ⟨getPoint_eq rtf hv f1 hFs x, exist_eq hv f1 hFs x⟩, fun x => ⟨getPoint_eq rtf rfl hC hFc x, exist_eq rfl hC hFc x⟩⟩

/-- two batches and direct calls, interleaved: batch 0 changes row 1 and inserts row 3, batch 1 inserts row 4, a direct call
changes row 2; batch 1 is committed first -/
def exBatchSteps : List (BatchStep Rec) :=
  [.call 0 (stdEnv exTable) (.update [(1, 7)]), .call 1 (stdEnv exTable) (.insert [(4, 4)]), .put 1 [.set [9] [9]],
   .direct (stdEnv exTable) (.update [(2, 9)]), .call 0 (stdEnv exTable) (.insert [(3, 3)]), .others [.set [8] [8]],
   .direct (stdEnv exTable) (.insert [(2, 2)]), .commit 1 true, .call 0 (stdEnv exTable) (.update [(3, 5)]), .commit 0 true]

theorem exBatchSteps_isolated :
    Isolated exTable (fun _ => true) (fun env V c => GoodRun exTable env V c) (BatchWorld.start exDB ()) exBatchSteps := by
  have gi : ∀ V a, GoodRun exTable (stdEnv exTable) V (.insert [a]) := fun V a => ⟨Or.inr (by simp), by intro trs h; simp at h⟩
  have gu : ∀ V a, GoodRun exTable (stdEnv exTable) V (.update [a]) :=
    fun V a => ⟨Or.inr (by simp), fun trs _ => Or.inr (stdEnv_stable _)⟩
  have hout : ∀ b, OutsideOps exTable [.set [b] [b]] := by
    intro b o ho k hk
    simp only [List.mem_singleton] at ho; subst ho
    simp only [WOp.touches] at hk; subst hk
    refine ⟨fun h => ?_, fun idx _ h => ?_⟩ <;> exact absurd h (by intro h; simp [InSpace] at h)
  refine ⟨⟨stdEnv_ok _, gu _ _, ?_⟩, ⟨stdEnv_ok _, gi _ _, ?_⟩, hout 9, ⟨stdEnv_ok _, gu _ _, ?_⟩, ⟨stdEnv_ok _, gi _ _, ?_⟩, hout 8,
    ⟨stdEnv_ok _, gi _ _, ?_⟩, trivial, ⟨stdEnv_ok _, gu _ _, ?_⟩, trivial, trivial⟩
  all_goals
    intro i
    rcases i with _ | _ | i
    all_goals
      first
        | (intro hi; exact absurd rfl hi)
        | (intro (_ : (_ : Nat) ≠ _) k hk; simp [Table.batchStep, setBat, BatchWorld.start, OpenBatch.new, askedKeys, WCall.keys] at hk ⊢; try (subst hk; decide))
        | (intro k hk; simp [Table.batchStep, setBat, BatchWorld.start, OpenBatch.new, askedKeys, WCall.keys] at hk ⊢; try (subst hk; decide))

/-- `C86_content` at these steps -/
example := C86_content exTable_wf exTable_rt exTable_fs (fun _ => rfl) exDB_holds (covers_nofilter rfl _ _) exBatchSteps exBatchSteps_isolated (by
  intro j rs hm x hx
  have hl : (exTable.batchRun (fun _ => true) (BatchWorld.start exDB ()) exBatchSteps).log =
    [.direct none, .direct (some .alreadyExist), .commit 1 [none] none, .commit 0 [none, none, none] none] := by decide
  rw [hl] at hm
  simp only [List.mem_cons, reduceCtorEq, Outcome.commit.injEq, and_true, List.not_mem_nil, or_false, false_or] at hm
  rcases hm with ⟨_, rfl⟩ | ⟨_, rfl⟩ <;> simp_all)

/-- the hypotheses of C86 hold for these steps; the second direct call fails, all others and both commits succeed -/
example : Isolated exTable (fun _ => true) (fun env V c => GoodRun exTable env V c) (BatchWorld.start exDB ()) exBatchSteps ∧
    Holds exTable exDB (Rows.putAll (fun _ => none) exTable.pk [(1, 5), (2, 6)]) ∧ CovKV exTable () exDB ∧
    (exTable.batchRun (fun _ => true) (BatchWorld.start exDB ()) exBatchSteps).log =
      [.direct none, .direct (some .alreadyExist), .commit 1 [none] none, .commit 0 [none, none, none] none] ∧
    exTable.getPoint () (exTable.batchRun (fun _ => true) (BatchWorld.start exDB ()) exBatchSteps).db none (3, 0) = .ok (3, 5) :=
  ⟨exBatchSteps_isolated, exDB_holds, by intro fl h; simp [exTable] at h, by decide, by decide⟩

/-- the hypotheses of `C86_reads` before the last step: batch 0 is open with three calls that succeeded, and row 1 is seen
changed through it but not without it -/
example : let w := exTable.batchRun (fun _ => true) (BatchWorld.start exDB ()) (exBatchSteps.take 9)
    (w.bats 0).res = [none, none, none] ∧ w.log = [.direct none, .direct (some .alreadyExist), .commit 1 [none] none] ∧
    exTable.getPoint () w.db (some ⟨true, (w.bats 0).ops⟩) (1, 0) = .ok (1, 7) ∧ exTable.getPoint () w.db none (1, 0) = .ok (1, 5) := by
  decide

/-- a batch and a direct call that change the same row -/
def exOverlap : List (BatchStep Rec) :=
  [.call 0 (stdEnv exTable) (.update [(1, 7)]), .direct (stdEnv exTable) (.update [(1, 8)]), .commit 0 true]

/-- C86 is false if the keys overlap: a direct call changes a row that an open batch has changed too. Everything succeeds, but
afterwards no content agrees with the index: the row has value 7, and there are index entries for 7 and for 8. -/
theorem C86_refuted_overlap :
    (exTable.batchRun (fun _ => true) (BatchWorld.start exDB ()) exOverlap).log = [.direct none, .commit 0 [none] none] ∧
    (exTable.batchRun (fun _ => true) (BatchWorld.start exDB ()) exOverlap).db.get (exTable.key (1, 0)) = some [1, 7] ∧
    (exTable.batchRun (fun _ => true) (BatchWorld.start exDB ()) exOverlap).db.get (exTable.indexKey exIndex (1, 7)) = some [] ∧
    (exTable.batchRun (fun _ => true) (BatchWorld.start exDB ()) exOverlap).db.get (exTable.indexKey exIndex (1, 8)) = some [] ∧
    (exTable.batchRun (fun _ => true) (BatchWorld.start exDB ()) exOverlap).db ≠ (atCommit exTable (fun _ => true) exDB () exOverlap).db := by
  refine ⟨by decide, by decide, by decide, by decide, ?_⟩
  intro h
  have := congrArg (fun db : KV => db.get (exTable.indexKey exIndex (1, 8))) h
  revert this
  decide

/-- the same for two batches: both insert the same new key, all calls and both commits succeed, the row of the first commit is
lost and its index entry stays -/
theorem C86_refuted_batches :
    let w := exTable.batchRun (fun _ => true) (BatchWorld.start exDB ())
      [.call 0 (stdEnv exTable) (.insert [(9, 5)]), .call 1 (stdEnv exTable) (.insert [(9, 6)]), .commit 0 true, .commit 1 true]
    w.log = [.commit 0 [none] none, .commit 1 [none] none] ∧ w.db.get (exTable.key (9, 0)) = some [9, 6] ∧
    w.db.get (exTable.indexKey exIndex (9, 5)) = some [] := by
  decide

end Bond
