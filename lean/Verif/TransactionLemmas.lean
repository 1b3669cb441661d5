import Verif.TransactionActs
import Verif.WorldLemmas
/-
Invariant of goroutines with batches: every task in progress will do what it would do alone, at its end.
-/
namespace Bond
open Spec
variable {T F : Type}

/-- what the end of a task depends on -/
def TxSt.key (s : TxSt T) : List WOp × List WOp × Option Err × List (Option Err) := (s.pre, s.loc.ops, s.err, s.res)

theorem SameTx.key {t : Table T F} {keys : List Bytes} {f1 f2 : F} {s1 s2 : TxSt T} (h : SameTx t keys f1 f2 s1 s2) : s1.key = s2.key := by
  simp only [TxSt.key, h.pre, h.loc.ops, h.err, h.res]

theorem taskEnd_key (t : Table T F) (i : Nat) (db : KV) (f1 f2 : F) {s1 s2 : TxSt T} (h : s1.key = s2.key) (k : Task T) :
    t.taskEnd i db f1 s1 k = t.taskEnd i db f2 s2 k := by
  simp only [TxSt.key, Prod.mk.injEq] at h
  obtain ⟨h1, h2, h3, h4⟩ := h
  cases k with
  | direct env c =>
    have := finish_ops env db (s1.loc.toW f1) (s2.loc.toW f1) s1.err h2
    have e : ∀ g1 g2 : F, (finish env db none (s2.loc.toW g1, s1.err)).db = (finish env db none (s2.loc.toW g2, s1.err)).db ∧
      (finish env db none (s2.loc.toW g1, s1.err)).err = (finish env db none (s2.loc.toW g2, s1.err)).err :=
      fun g1 g2 => finish_ops env db (s2.loc.toW g1) (s2.loc.toW g2) s1.err rfl
    simp only [Table.taskEnd]
    rw [this.1, this.2, (e f1 f2).1, (e f1 f2).2, h3]
  | batch rw l fin =>
    cases fin with
    | none => rfl
    | some ok => simp only [Table.taskEnd, h1, h4]

theorem taskEnd_get {t : Table T F} {keys : List Bytes} (i : Nat) (db : KV) (f : F) {s : TxSt T} (h1 : KeyedOps t (fun k _ => k ∈ keys) s.pre)
    (h2 : KeyedOps t (fun k _ => k ∈ keys) s.loc.ops) (a : Task T) {k : Bytes} (hk : ∃ pk, k = dataKey t.id pk) (hn : k ∉ keys) :
    (t.taskEnd i db f s a).1.get k = db.get k := by
  obtain ⟨pk, rfl⟩ := hk
  cases a with
  | direct env c => exact finish_get env db (s.loc.toW f) s.err _ (fun o ho ht => hn (h2 o ho pk ht))
  | batch rw l fin =>
    cases fin with
    | none => rfl
    | some ok =>
      simp only [Table.taskEnd, Batch.commit]
      split
      · rfl
      split
      · exact get_apply_of_not_touch _ _ _ (fun o ho ht => hn (h1 o ho pk ht))
      · rfl

theorem taskEnd_cov {t : Table T F} (i : Nat) {db : KV} {f : F} {s : TxSt T} (hc : CovKV t f db) (h1 : CovOps t f s.pre)
    (h2 : CovOps t f s.loc.ops) (a : Task T) (f' : F) : CovKV t f (t.taskEnd i db f' s a).1 := by
  cases a with
  | direct env c =>
    simp only [Table.taskEnd, finish]
    split
    · exact hc
    split
    · exact hc
    split
    · exact covKV_apply _ hc h2
    · exact hc
  | batch rw l fin =>
    cases fin with
    | none => exact hc
    | some ok =>
      simp only [Table.taskEnd, Batch.commit]
      split
      · exact hc
      split
      · exact covKV_apply _ hc h1
      · exact hc

theorem batchRun_append (t : Table T F) (rw : Nat → Bool) (w : BatchWorld T F) (a b : List (BatchStep T)) :
    t.batchRun rw w (a ++ b) = t.batchRun rw (t.batchRun rw w a) b := by simp [Table.batchRun]

/-- a task done without interruption -/
theorem task_alone (t : Table T F) {rwf : Nat → Bool} (i : Nat) (s : BatchWorld T F) (hb : ∀ j, s.bats j = OpenBatch.new) (k : Task T)
    (hrw : ∀ rw l fin, k = .batch rw l fin → rwf i = rw) :
    (t.batchRun rwf s (taskSteps i k)).db =
      (t.taskEnd i s.db s.filt (execTx (t.taskActs k) s.db s.filt t.txSt0).1 k).1 ∧
    (t.batchRun rwf s (taskSteps i k)).log =
      s.log ++ (t.taskEnd i s.db s.filt (execTx (t.taskActs k) s.db s.filt t.txSt0).1 k).2 ∧
    (t.batchRun rwf s (taskSteps i k)).filt = (execTx (t.taskActs k) s.db s.filt t.txSt0).2 ∧
    ∀ j, (t.batchRun rwf s (taskSteps i k)).bats j = OpenBatch.new := by
  cases k with
  | direct env c =>
    have h := run_execDirect t env s.db s.filt c
    have e := taskEnd_key t i s.db s.filt (execTx ((t.acts env c).map (txAct none)) s.db s.filt t.txSt0).2
      (s1 := (execTx ((t.acts env c).map (txAct none)) s.db s.filt t.txSt0).1) rfl (.direct env c)
    simp only [taskSteps, Table.batchRun, List.foldl_cons, List.foldl_nil, Table.batchStep, Table.taskActs]
    rw [e, h]
    refine ⟨rfl, rfl, ?_, hb⟩
    rw [finish_filt]; rfl
  | batch rw l fin =>
    have hr := hrw rw l fin rfl
    obtain ⟨d, hd⟩ := execTx_items t rwf i l s
    rw [hr, hb i] at hd
    have hb' : ∀ (x : OpenBatch T) j, setBat (setBat s.bats i x) i OpenBatch.new j = OpenBatch.new := by
      intro x j
      simp only [setBat]
      split
      · rfl
      · exact hb j
    simp only [taskSteps]
    rw [batchRun_append]
    rw [show (OpenBatch.new (T := T)).ops = [] from rfl, show (OpenBatch.new (T := T)).res = [] from rfl,
      show (⟨[], t.loc0, none, []⟩ : TxSt T) = t.txSt0 from rfl, show l.flatMap (t.itemActs rw) = t.taskActs (.batch rw l fin) from rfl] at hd
    rw [hd]
    cases fin with
    | none => exact ⟨rfl, by simp [Table.batchRun, Table.batchStep, Table.taskEnd], rfl, hb' _⟩
    | some ok =>
      simp only [Table.batchRun, List.foldl_cons, List.foldl_nil, Table.batchStep, Table.taskEnd, setBat_same, hr]
      exact ⟨trivial, trivial, trivial, hb' _⟩

/-- a task in progress, in the world `(db, f)` -/
structure TxRunning (t : Table T F) (db0 : KV) (f0 : F) (k : Task T) (th : TxThread T F) (db : KV) (f : F) : Prop where
  task : th.task = k
  good : ∀ a ∈ th.acts, GoodTx t (taskKeys t k) a
  base : ∀ x ∈ taskKeys t k, db.get x = db0.get x
  self : SameTx t (taskKeys t k) f f th.st th.st
  pred : (execTx th.acts db f th.st).1.key = (execTx (t.taskActs k) db0 f0 t.txSt0).1.key

theorem SameLoc.mono {t : Table T F} {keys : List Bytes} {f1 f2 g1 g2 : F} {l1 l2 : Loc T} (h : SameLoc t keys f1 f2 l1 l2)
    (h1 : FiltLe t f1 g1) (h2 : FiltLe t f2 g2) : SameLoc t keys g1 g2 l1 l2 :=
  ⟨h.ops, h.clock, h.oldTr, h.prev, h.i, h.items, fun e he => ⟨(h.seek e he).1, fun x => ⟨((h.seek e he).2 x).1.mono h1, ((h.seek e he).2 x).2.mono h2⟩⟩⟩

theorem SameTx.mono {t : Table T F} {keys : List Bytes} {f1 f2 g1 g2 : F} {s1 s2 : TxSt T} (h : SameTx t keys f1 f2 s1 s2)
    (h1 : FiltLe t f1 g1) (h2 : FiltLe t f2 g2) : SameTx t keys g1 g2 s1 s2 :=
  ⟨h.pre, h.err, h.res, h.loc.mono h1 h2, h.items, h.keyedPre, h.keyedOps, h.covPre1.mono h1, h.covPre2.mono h2, h.covOps1.mono h1,
    h.covOps2.mono h2⟩

/-- what others do to other keys does not matter to a task -/
theorem TxRunning.frame {t : Table T F} {db0 : KV} {f0 : F} {k : Task T} {th : TxThread T F} {db db' : KV} {f f' : F}
    (h : TxRunning t db0 f0 k th db f) (hg : ∀ x ∈ taskKeys t k, db'.get x = db.get x) (hf : FiltLe t f f') (c : CovKV t f db)
    (c' : CovKV t f' db') : TxRunning t db0 f0 k th db' f' := by
  have he := execTx_same h.good (fun x hx => (hg x hx).symm) c c' (h.self.mono (filtLe_refl _ _) hf)
  exact ⟨h.task, h.good, fun x hx => (hg x hx).trans (h.base x hx), h.self.mono hf hf, he.key.symm.trans h.pred⟩

/-- the invariant: `s` is the run of the ended tasks one by one -/
structure TxInv (t : Table T F) (ks : List (Task T)) (db0 : KV) (f0 : F) (w : TxWorld T F) (s : BatchWorld T F) : Prop where
  seq : s = t.batchRun (taskRw ks) (BatchWorld.start db0 f0) (oneByOne ks w.log)
  db : w.db = s.db
  outs : w.outs = s.log
  bats : ∀ i, s.bats i = OpenBatch.new
  covW : CovKV t w.filt w.db
  covS : CovKV t s.filt s.db
  len : w.threads.length = ks.length
  run : ∀ (i : Nat) (th : TxThread T F) (k : Task T), w.threads[i]? = some th → ks[i]? = some k → th.ended = false →
    TxRunning t db0 f0 k th w.db w.filt
  ids : (w.log.filterMap Sum.getLeft?).Nodup
  idsEnd : ∀ i, .inl i ∈ w.log ↔ ∃ th, w.threads[i]? = some th ∧ th.ended = true

theorem oneByOne_append (ks : List (Task T)) (a b : List (Nat ⊕ List WOp)) : oneByOne ks (a ++ b) = oneByOne ks a ++ oneByOne ks b := by
  simp [oneByOne]

theorem TxInv.start {t : Table T F} (wf : t.WF) (fs : t.FilterSound) {ks : List (Task T)} (hs : Separate t ks) {db0 : KV} {f0 : F}
    (hc : CovKV t f0 db0) : TxInv t ks db0 f0 (t.txWorld db0 f0 ks) (BatchWorld.start db0 f0) := by
  refine ⟨rfl, rfl, rfl, fun _ => rfl, hc, hc, by simp [Table.txWorld], ?_, by simp [Table.txWorld], ?_⟩
  · intro i th k hth hk _
    simp only [Table.txWorld, List.getElem?_map, hk, Option.map_some, Option.some.injEq] at hth
    subst hth
    have hm := List.mem_of_getElem? hk
    exact ⟨rfl, taskActs_good wf fs (hs.env k hm) (hs.upd.imp id (fun h => h k hm)) (hs.puts k hm), fun _ _ => rfl,
      sameTx0 t _ f0 f0, rfl⟩
  · intro i
    simp only [Table.txWorld, List.not_mem_nil, List.getElem?_map, false_iff]
    rintro ⟨th, h1, h2⟩
    cases hk : ks[i]? with
    | none => rw [hk] at h1; simp at h1
    | some k => rw [hk] at h1; simp only [Option.map_some, Option.some.injEq] at h1; subst h1; simp [Table.txSpawn] at h2

theorem TxInv.others {t : Table T F} {ks : List (Task T)} {db0 : KV} {f0 : F} {w : TxWorld T F} {s : BatchWorld T F}
    (h : TxInv t ks db0 f0 w s) {ops : List WOp} (ho : OutsideOps t ops) :
    TxInv t ks db0 f0 (w.step t (.inr ops)) (t.batchStep (taskRw ks) s (.others ops)) := by
  have cw := covKV_apply (t := t) ops h.covW (covOps_outside ho)
  refine ⟨?_, ?_, h.outs, h.bats, cw, covKV_apply ops h.covS (covOps_outside ho), h.len, ?_, ?_, ?_⟩
  · simp only [TxWorld.step]
    rw [oneByOne_append, batchRun_append, ← h.seq]
    simp [oneByOne, Table.batchRun]
  · simp only [TxWorld.step, Table.batchStep, h.db]
  · intro i th k hth hk he
    refine (h.run i th k hth hk he).frame (fun x hx => ?_) (filtLe_refl _ _) h.covW cw
    obtain ⟨pk, rfl⟩ := taskKeys_data hx
    exact get_outside ho _ (fun hout => hout.1 (inSpace_dataKey t.id pk))
  · simp only [TxWorld.step, List.filterMap_append, List.filterMap_cons, Sum.getLeft?_inr, List.filterMap_nil, List.append_nil]
    exact h.ids
  · intro i
    simp only [TxWorld.step, List.mem_append, List.mem_singleton, reduceCtorEq, or_false]
    exact h.idsEnd i

theorem TxInv.act {t : Table T F} {ks : List (Task T)} {db0 : KV} {f0 : F} {w : TxWorld T F} {s : BatchWorld T F}
    (h : TxInv t ks db0 f0 w s) {i : Nat} {th : TxThread T F} (hth : w.threads[i]? = some th) (he : th.ended = false)
    {a : TxAct T F} {as : List (TxAct T F)} (ha : th.acts = a :: as) :
    TxInv t ks db0 f0 { w with filt := (a w.db w.filt th.st).2, threads := w.threads.set i { th with acts := as, st := (a w.db w.filt th.st).1 } } s := by
  have hi : i < w.threads.length := (List.getElem?_eq_some_iff.1 hth).1
  have hk : ks[i]? = some (ks[i]'(h.len ▸ hi)) := List.getElem?_eq_getElem _
  have hr := h.run i th _ hth hk he
  have ga := hr.good a (by rw [ha]; simp)
  have hle := ga.filt w.db w.filt th.st
  have hcw := h.covW.mono hle
  refine ⟨h.seq, h.db, h.outs, h.bats, hcw, h.covS, by simp [h.len], ?_, h.ids, ?_⟩
  · intro j thj k hj hkj hej
    simp only at hj
    by_cases hij : i = j
    · subst hij
      rw [List.getElem?_set_self hi, Option.some.injEq] at hj
      subst hj
      rw [hk, Option.some.injEq] at hkj
      subst hkj
      have hp := hr.pred
      rw [ha, execTx] at hp
      exact ⟨hr.task, fun x hx => hr.good x (by rw [ha]; exact List.mem_cons.2 (Or.inr hx)), hr.base,
        ga.same _ _ _ _ _ _ (fun _ _ => rfl) h.covW h.covW hr.self, hp⟩
    · rw [List.getElem?_set_ne hij] at hj
      exact (h.run j thj k hj hkj hej).frame (fun _ _ => rfl) hle h.covW hcw
  · intro j
    rw [h.idsEnd j]
    by_cases hij : i = j
    · subst hij
      simp only [List.getElem?_set_self hi, hth, Option.some.injEq, exists_eq_left', he, Bool.false_eq_true]
    · simp only [List.getElem?_set_ne hij]

theorem TxInv.finish {t : Table T F} (wf : t.WF) (fs : t.FilterSound) {ks : List (Task T)} (hs : Separate t ks) {db0 : KV} {f0 : F}
    {w : TxWorld T F} {s : BatchWorld T F} (hc : CovKV t f0 db0)
    (h : TxInv t ks db0 f0 w s) {i : Nat} {th : TxThread T F} (hth : w.threads[i]? = some th) (he : th.ended = false) (ha : th.acts = []) :
    TxInv t ks db0 f0 (w.step t (.inl i)) (t.batchRun (taskRw ks) s ((ks[i]?.map (taskSteps i)).getD [])) := by
  have hi : i < w.threads.length := (List.getElem?_eq_some_iff.1 hth).1
  obtain ⟨k, hk⟩ : ∃ k, ks[i]? = some k := ⟨_, List.getElem?_eq_getElem (h.len ▸ hi)⟩
  have hr := h.run i th k hth hk he
  have hm := List.mem_of_getElem? hk
  have hgood := taskActs_good wf fs (hs.env k hm) (hs.upd.imp id (fun h => h k hm)) (hs.puts k hm)
  -- the same task alone, from `s`
  have hsame := execTx_same hgood (db1 := db0) (db2 := s.db) (fun x hx => by rw [← h.db]; exact (hr.base x hx).symm) hc h.covS
    (sameTx0 t (taskKeys t k) f0 s.filt)
  have hkey : th.st.key = (execTx (t.taskActs k) s.db s.filt t.txSt0).1.key := by
    have := hr.pred
    rw [ha, execTx] at this
    exact this.trans hsame.key
  obtain ⟨a1, a2, a3, a4⟩ := task_alone t (rwf := taskRw ks) i s h.bats k (by
    rintro rw l fin rfl; simp [taskRw, hk])
  rw [hk, Option.map_some, Option.getD_some]
  have hend : t.taskEnd i s.db s.filt (execTx (t.taskActs k) s.db s.filt t.txSt0).1 k = t.taskEnd i w.db w.filt th.st th.task := by
    rw [h.db, hr.task]; exact (taskEnd_key t i s.db w.filt s.filt hkey k).symm
  rw [hend] at a1 a2
  have hstep : w.step t (.inl i) = { w with db := (t.taskEnd i w.db w.filt th.st th.task).1, threads := w.threads.set i { th with ended := true }, log := w.log ++ [.inl i], outs := w.outs ++ (t.taskEnd i w.db w.filt th.st th.task).2 } := by
    simp only [TxWorld.step, hth, he, ha, Bool.false_eq_true, if_false]
  have hcw : CovKV t w.filt (t.taskEnd i w.db w.filt th.st th.task).1 := taskEnd_cov i h.covW hr.self.covPre1 hr.self.covOps1 _ _
  have hfle := execTx_filt hgood s.db s.filt t.txSt0
  have hself := execTx_same hgood (db1 := s.db) (db2 := s.db) (fun _ _ => rfl) h.covS h.covS (sameTx0 t (taskKeys t k) s.filt s.filt)
  have hcs : CovKV t (execTx (t.taskActs k) s.db s.filt t.txSt0).2
      (t.taskEnd i s.db s.filt (execTx (t.taskActs k) s.db s.filt t.txSt0).1 k).1 :=
    taskEnd_cov i (h.covS.mono hfle) hself.covPre1 hself.covOps1 _ _
  rw [hstep]
  refine ⟨?_, a1.symm, ?_, a4, hcw, ?_, by simp [h.len], ?_, ?_, ?_⟩
  · rw [oneByOne_append, batchRun_append, ← h.seq]
    simp [oneByOne, hk]
  · rw [a2, h.outs]
  · rw [a3, a1, ← hend]; exact hcs
  · intro j thj kj hj hkj hej
    simp only at hj
    by_cases hij : i = j
    · subst hij
      rw [List.getElem?_set_self hi, Option.some.injEq] at hj
      subst hj
      simp at hej
    · rw [List.getElem?_set_ne hij] at hj
      refine (h.run j thj kj hj hkj hej).frame (fun x hx => ?_) (filtLe_refl _ _) h.covW hcw
      exact taskEnd_get i w.db w.filt hr.self.keyedPre hr.self.keyedOps _ (taskKeys_data hx) (hs.keys j i kj k (Ne.symm hij) hkj hk x hx)
  · simp only [List.filterMap_append, List.filterMap_cons, Sum.getLeft?_inl, List.filterMap_nil]
    rw [List.nodup_append]
    refine ⟨h.ids, by simp, ?_⟩
    intro a hma b hb
    rw [List.mem_singleton] at hb
    subst hb
    rintro rfl
    obtain ⟨x, hx, hxx⟩ := List.mem_filterMap.1 hma
    rcases x with x | x
    · simp only [Sum.getLeft?_inl, Option.some.injEq] at hxx
      subst hxx
      obtain ⟨th', h1, h2⟩ := (h.idsEnd x).1 hx
      rw [hth, Option.some.injEq] at h1
      subst h1
      rw [he] at h2; simp at h2
    · simp at hxx
  · intro j
    simp only [List.mem_append, List.mem_singleton, Sum.inl.injEq]
    rw [h.idsEnd j]
    by_cases hij : i = j
    · subst hij
      simp [List.getElem?_set_self hi]
    · simp only [List.getElem?_set_ne hij]
      constructor
      · rintro (hx | rfl)
        · exact hx
        · exact absurd rfl hij
      · exact Or.inl

theorem TxInv.run_all {t : Table T F} (wf : t.WF) (fs : t.FilterSound) {ks : List (Task T)} (hs : Separate t ks) {db0 : KV} {f0 : F}
    (hc : CovKV t f0 db0) (sched : List (Nat ⊕ List WOp)) (ho : ∀ ops, .inr ops ∈ sched → OutsideOps t ops) :
    ∀ {w : TxWorld T F} {s : BatchWorld T F}, TxInv t ks db0 f0 w s → ∃ s', TxInv t ks db0 f0 (w.run t sched) s' := by
  induction sched with
  | nil => intro w s h; exact ⟨s, h⟩
  | cons x sched ih =>
    intro w s h
    have ih := fun {w} {s} => @ih (fun ops h => ho ops (List.mem_cons.2 (Or.inr h))) w s
    rcases x with i | ops
    · cases hth : w.threads[i]? with
      | none =>
        have : w.step t (.inl i) = w := by simp only [TxWorld.step, hth]
        rw [TxWorld.run, List.foldl_cons, this]; exact ih h
      | some th =>
        cases he : th.ended with
        | true =>
          have : w.step t (.inl i) = w := by simp only [TxWorld.step, hth, he, if_true]
          rw [TxWorld.run, List.foldl_cons, this]; exact ih h
        | false =>
          cases ha : th.acts with
          | nil => exact ih (h.finish wf fs hs hc hth he ha)
          | cons a as =>
            have : w.step t (.inl i) = { w with filt := (a w.db w.filt th.st).2, threads := w.threads.set i { th with acts := as, st := (a w.db w.filt th.st).1 } } := by
              simp only [TxWorld.step, hth, he, ha, Bool.false_eq_true, if_false]
            rw [TxWorld.run, List.foldl_cons, this]
            exact ih (h.act hth he ha)
    · exact ih (h.others (ho ops (List.mem_cons_self)))

/-! ### Documented use -/

/-- every call of the task is allowed by `Q`, if the task is done alone on the database at the start -/
def TaskOK (t : Table T F) (Q : Env T → KV → WCall T → Prop) (db : KV) (f : F) : Task T → Prop
  | .direct env c => Q env db c
  | .batch rw l _ => FillOK t rw Q db ⟨[], f, []⟩ l

theorem isolated_join {t : Table T F} {rw : Nat → Bool} {Q : Env T → KV → WCall T → Prop} (a b : List (BatchStep T)) :
    ∀ {w : BatchWorld T F}, Isolated t rw Q w a → Isolated t rw Q (t.batchRun rw w a) b → Isolated t rw Q w (a ++ b) := by
  induction a with
  | nil => intro w _ h; exact h
  | cons x a ih => intro w h1 h2; exact ⟨h1.1, ih h1.2 h2⟩

theorem isolated_items {t : Table T F} {rwf : Nat → Bool} {Q : Env T → KV → WCall T → Prop} (i : Nat) {e : BatchStep T}
    (he : ∀ w, Allowed t Q w e) (l : List ((Env T × WCall T) ⊕ List WOp)) : ∀ {w : BatchWorld T F},
    (∀ j, j ≠ i → w.bats j = OpenBatch.new) → FillOK t (rwf i) Q w.db ⟨(w.bats i).ops, w.filt, (w.bats i).res⟩ l →
    Isolated t rwf Q w (l.map (itemStep i) ++ [e]) := by
  induction l with
  | nil => intro w _ _; exact ⟨he w, trivial⟩
  | cons x l ih =>
    intro w hb hf
    rcases x with ⟨env, c⟩ | ops
    · refine ⟨⟨hf.1.1, hf.1.2, fun j hj k hk => ?_⟩, ?_⟩
      · rw [hb j hj]; simp [OpenBatch.new, askedKeys]
      · refine ih (fun j hj => ?_) ?_
        · simp only [itemStep, Table.batchStep]; rw [setBat_other _ _ hj]; exact hb j hj
        · simp only [itemStep, Table.batchStep, setBat_same]; exact hf.2
    · refine ⟨hf.1, ?_⟩
      refine ih (fun j hj => ?_) ?_
      · simp only [itemStep, Table.batchStep]; rw [setBat_other _ _ hj]; exact hb j hj
      · simp only [itemStep, Table.batchStep, setBat_same]; exact hf.2

theorem task_isolated {t : Table T F} (wf : t.WF) (fs : t.FilterSound) {rwf : Nat → Bool} {Q : Env T → KV → WCall T → Prop}
    (hQ : LocalCond t Q) {db0 : KV} {f0 : F} (hc : CovKV t f0 db0) {k : Task T} (ok : ∀ c ∈ taskCalls k, c.1.OK t)
    (hk : TaskOK t Q db0 f0 k) (i : Nat) {s : BatchWorld T F} (hb : ∀ j, s.bats j = OpenBatch.new) (cs : CovKV t s.filt s.db)
    (hbase : ∀ x ∈ taskKeys t k, s.db.get x = db0.get x) (hrw : ∀ rw l fin, k = .batch rw l fin → rwf i = rw) :
    Isolated t rwf Q s (taskSteps i k) := by
  cases k with
  | direct env c =>
    refine ⟨⟨ok (env, c) (by simp [taskCalls]), hQ.congr env _ _ c (fun x hx => (hbase x hx).symm) hk, fun j x _ => ?_⟩, trivial⟩
    rw [hb j]; simp [OpenBatch.new, askedKeys]
  | batch rw l fin =>
    refine isolated_items i (fun w => by cases fin <;> trivial) l (fun j _ => hb j) ?_
    rw [hb i, hrw rw l fin rfl]
    exact (fill_same wf fs hQ l (s1 := ⟨[], f0, []⟩) (s2 := ⟨[], s.filt, []⟩) (fun x hx => (hbase x hx).symm) hk rfl rfl hc (covOps_nil _ _) cs
      (covOps_nil _ _)).2.2.1

theorem TxInv.run_isolated {t : Table T F} (wf : t.WF) (fs : t.FilterSound) {ks : List (Task T)} (hs : Separate t ks) {db0 : KV} {f0 : F}
    (hc : CovKV t f0 db0) {Q : Env T → KV → WCall T → Prop} (hQ : LocalCond t Q) (hok : ∀ k ∈ ks, TaskOK t Q db0 f0 k)
    (sched : List (Nat ⊕ List WOp)) (ho : ∀ ops, .inr ops ∈ sched → OutsideOps t ops) :
    ∀ {w : TxWorld T F} {s : BatchWorld T F}, TxInv t ks db0 f0 w s →
    Isolated t (taskRw ks) Q (BatchWorld.start db0 f0) (oneByOne ks w.log) →
    Isolated t (taskRw ks) Q (BatchWorld.start db0 f0) (oneByOne ks (w.run t sched).log) := by
  induction sched with
  | nil => intro w s _ h; exact h
  | cons x sched ih =>
    intro w s h hi
    have ih := fun {w} {s} => @ih (fun ops h => ho ops (List.mem_cons.2 (Or.inr h))) w s
    rcases x with i | ops
    · cases hth : w.threads[i]? with
      | none =>
        have : w.step t (.inl i) = w := by simp only [TxWorld.step, hth]
        rw [TxWorld.run, List.foldl_cons, this]; exact ih h hi
      | some th =>
        cases he : th.ended with
        | true =>
          have : w.step t (.inl i) = w := by simp only [TxWorld.step, hth, he, if_true]
          rw [TxWorld.run, List.foldl_cons, this]; exact ih h hi
        | false =>
          cases ha : th.acts with
          | nil =>
            refine ih (h.finish wf fs hs hc hth he ha) ?_
            have hlt : i < w.threads.length := (List.getElem?_eq_some_iff.1 hth).1
            obtain ⟨k, hk⟩ : ∃ k, ks[i]? = some k := ⟨_, List.getElem?_eq_getElem (h.len ▸ hlt)⟩
            have hm := List.mem_of_getElem? hk
            have hr := h.run i th k hth hk he
            simp only [TxWorld.step, hth, he, ha, Bool.false_eq_true, if_false]
            rw [oneByOne_append]
            refine isolated_join _ _ hi ?_
            rw [← h.seq]
            have hone : oneByOne ks [.inl i] = taskSteps i k := by simp [oneByOne, hk]
            rw [hone]
            exact task_isolated wf fs hQ hc (hs.env k hm) (hok k hm) i h.bats h.covS (fun x hx => by rw [← h.db]; exact hr.base x hx)
              (by rintro rw l fin rfl; simp [taskRw, hk])
          | cons a as =>
            have : w.step t (.inl i) = { w with filt := (a w.db w.filt th.st).2, threads := w.threads.set i { th with acts := as, st := (a w.db w.filt th.st).1 } } := by
              simp only [TxWorld.step, hth, he, ha, Bool.false_eq_true, if_false]
            rw [TxWorld.run, List.foldl_cons, this]
            exact ih (h.act hth he ha) hi
    · refine ih (h.others (ho ops (List.mem_cons_self))) ?_
      simp only [TxWorld.step]
      rw [oneByOne_append]
      refine isolated_join _ _ hi ?_
      rw [show oneByOne ks [.inr ops] = [.others ops] from rfl]
      exact ⟨ho ops (List.mem_cons_self), trivial⟩

/-! ### Tasks end -/

/-- turns a task still needs -/
def TxThread.left (th : TxThread T F) : Nat := if th.ended then 0 else th.acts.length + 1

theorem txStep_left (t : Table T F) (w : TxWorld T F) (x : Nat ⊕ List WOp) (i : Nat) {th : TxThread T F} (h : w.threads[i]? = some th) :
    ∃ th', (w.step t x).threads[i]? = some th' ∧ th'.left ≤ th.left - (if x = .inl i then 1 else 0) := by
  have hi : i < w.threads.length := (List.getElem?_eq_some_iff.1 h).1
  rcases x with j | ops
  · by_cases hij : j = i
    · subst hij
      simp only [TxWorld.step, h, if_true]
      cases he : th.ended with
      | true => exact ⟨th, h, by simp [TxThread.left, he]⟩
      | false =>
        simp only [Bool.false_eq_true, if_false]
        cases ha : th.acts with
        | nil => exact ⟨_, List.getElem?_set_self hi, by simp [TxThread.left]⟩
        | cons a as => exact ⟨_, List.getElem?_set_self hi, by simp [TxThread.left, he, ha]⟩
    · have hne : (Sum.inl j : Nat ⊕ List WOp) ≠ .inl i := by simpa using hij
      simp only [hne, if_false, TxWorld.step]
      refine ⟨th, ?_, Nat.le_refl _⟩
      split
      · exact h
      split
      · exact h
      split
      · simp only; rw [List.getElem?_set_ne hij]; exact h
      · simp only; rw [List.getElem?_set_ne hij]; exact h
  · exact ⟨th, h, by simp⟩

theorem txRun_left (t : Table T F) (i : Nat) (sched : List (Nat ⊕ List WOp)) : ∀ (w : TxWorld T F) {th : TxThread T F}, w.threads[i]? = some th →
    ∃ th', (w.run t sched).threads[i]? = some th' ∧ th'.left ≤ th.left - sched.countP (fun x => x = .inl i) := by
  induction sched with
  | nil => intro w th h; exact ⟨th, h, Nat.le_refl _⟩
  | cons x sched ih =>
    intro w th h
    obtain ⟨th1, h1, h2⟩ := txStep_left t w x i h
    obtain ⟨th', h4, h5⟩ := ih (w.step t x) h1
    refine ⟨th', h4, ?_⟩
    rw [List.countP_cons]
    by_cases hx : x = .inl i
    · simp only [hx, decide_true, if_true] at h2 ⊢
      omega
    · simp only [hx, decide_false, Bool.false_eq_true, if_false] at h2 ⊢
      omega

end Bond
