import Verif.Spec.Transactions
import Verif.BatchInv
/-
The actions of goroutines with batches: they depend only on the rows with the keys of the task, and run alone they are the
sequential calls.
-/
namespace Bond
open Spec
variable {T F : Type}

/-! ### The filter covers what is in the batch -/

theorem covOps_setKey {t : Table T F} {f : F} {k b : Bytes} {l : List WOp} (hx : Cov t f k) (hl : CovOps t f l) :
    CovOps t f (.set k b :: l) := by
  intro fl hfl pk v hm
  rcases List.mem_cons.1 hm with h | h
  · rw [WOp.set.injEq] at h; rw [h.1]; exact hx fl hfl
  · exact hl fl hfl pk v h

/-- the filter covers the batch after the action if it did before -/
def CovAct (t : Table T F) (keys : List Bytes) (a : Act T F) : Prop :=
  ∀ db f l, SameLoc t keys f f l l → CovOps t f l.ops → CovOps t (a db f l).1.2 (a db f l).1.1.ops

theorem insertLoop_covOps {t : Table T F} (wf : t.WF) (fs : t.FilterSound) {env : Env T} (ok : env.OK t)
    {entries : List (Bytes × Bytes)} {trs : List T} (items : List (Bytes × Nat)) : ∀ (prev : Option Bytes) (s : WSt T F),
    CovStep t s (t.insertLoop env entries trs prev items s).1 := by
  induction items with
  | nil => intro prev s; exact CovStep.refl t s
  | cons e items ih =>
    intro prev s
    obtain ⟨k, j⟩ := e
    rw [Table.insertLoop]
    split
    · exact CovStep.refl t s
    split
    · exact CovStep.refl t s
    split
    · exact CovStep.refl t s
    split
    · exact CovStep.refl t s
    · refine CovStep.trans ?_ (ih _ _)
      exact CovStep.mk' rfl (covOps_setKey (add_may fs _ _) (covOps_index wf (onInsert_in t _) (ok.order s.clock))) (filtLe_add fs _ _)

theorem covAct_insert {t : Table T F} (wf : t.WF) (fs : t.FilterSound) {env : Env T} (ok : env.OK t) {keys : List Bytes} {trs : List T} :
    CovAct t keys (insertRow t env trs) := by
  intro db f l hl ho
  unfold insertRow
  split
  · exact ho
  · exact (insertLoop_covOps wf fs ok _ _ (l.toW f)).ops ho

theorem updateLoop_covOps {t : Table T F} (wf : t.WF) {env : Env T} (ok : env.OK t) {entries : List (Bytes × Bytes)} {trs : List T}
    (items : List (Bytes × Nat)) : ∀ (s : WSt T F), CovItems t s.filt entries items →
    CovStep t s (t.updateLoop env entries trs items s).1 := by
  induction items with
  | nil => intro s _; exact CovStep.refl t s
  | cons e items ih =>
    intro s hc
    have hc' : CovItems t s.filt entries items := hc.sub (fun e h => by simp [h])
    obtain ⟨k, j⟩ := e
    rw [Table.updateLoop]
    split
    · exact CovStep.refl t s
    split
    · exact CovStep.trans (CovStep.of_eq (s' := { s with clock := s.clock + 1 }) rfl rfl) (ih _ hc')
    split
    · exact CovStep.refl t s
    rename_i v hv
    split
    · exact CovStep.refl t s
    split
    · exact CovStep.refl t s
    split
    · exact CovStep.of_eq rfl rfl
    refine CovStep.trans ?_ (ih _ hc')
    exact CovStep.mk' rfl (covOps_setKey (fun fl hfl => hc fl hfl _ (List.mem_cons_self) (by simp [hv]))
      (covOps_index wf (onUpdate_in t _ _) (ok.order s.clock))) (filtLe_refl t _)

theorem covAct_update {t : Table T F} (wf : t.WF) {env : Env T} (ok : env.OK t) {keys : List Bytes} {trs : List T} :
    CovAct t keys (updateRows t env trs) := by
  intro db f l hl ho
  exact (updateLoop_covOps wf ok l.items (l.toW f) (fun fl hfl e he hs => ((hl.seek e he).2 hs).1 fl hfl)).ops ho

theorem upsertLoop_covOps {t : Table T F} (wf : t.WF) (fs : t.FilterSound) {env : Env T} (ok : env.OK t) {oc : Table.OnConflict T}
    {entries : List (Bytes × Bytes)} {trs : List T} (fuel : Nat) : ∀ (i : Nat) (items : List (Bytes × Nat)) (s : WSt T F),
    CovStep t s (t.upsertLoop env oc entries trs fuel i items s).1 := by
  induction fuel with
  | zero => intro i items s; exact CovStep.refl t s
  | succ fuel ih =>
    intro i items s
    cases items with
    | nil => exact CovStep.refl t s
    | cons e items =>
      obtain ⟨k, j⟩ := e
      rw [Table.upsertLoop]
      split
      · exact CovStep.refl t s
      rename_i x hx
      split
      · exact CovStep.refl t s
      simp only
      split
      · exact CovStep.refl t s
      rename_i found hfound
      split
      · exact CovStep.refl t s
      rename_i rest' i' tr' old' hdup
      split
      · exact CovStep.of_eq rfl rfl
      refine CovStep.trans ?_ (ih _ _ _)
      cases found with
      | none => exact CovStep.mk' rfl (covOps_setKey (add_may fs _ _) (covOps_index wf (onInsert_in t tr') (ok.order s.clock))) (filtLe_add fs _ _)
      | some o =>
        refine CovStep.mk' rfl (covOps_setKey ?_ (covOps_index wf (onUpdate_in t old' tr') (ok.order s.clock))) (filtLe_refl t _)
        cases hex : t.existIter s.filt entries k with
        | none => rw [hex] at hfound; simp at hfound
        | some v => exact existIter_seek hex

theorem covAct_upsert {t : Table T F} (wf : t.WF) (fs : t.FilterSound) {env : Env T} (ok : env.OK t) {oc : Table.OnConflict T}
    {keys : List Bytes} {trs : List T} : CovAct t keys (upsertRow t env oc trs) := by
  intro db f l hl ho
  unfold upsertRow
  split
  · exact ho
  · exact (upsertLoop_covOps wf fs ok 1 _ _ (l.toW f)).ops ho

theorem acts_cov {t : Table T F} (wf : t.WF) (fs : t.FilterSound) {env : Env T} (ok : env.OK t) (c : WCall T) (keys : List Bytes)
    (hn : t.filter = none ∨ ∀ trs olds, c ≠ .unsafeUpdate trs olds) : ∀ a ∈ t.acts env c, CovAct t keys a := by
  intro a ha
  have hopen : ∀ trs : List T, CovAct t keys (openSlice t env trs) := fun trs db f l _ ho => ho
  cases c with
  | insert trs =>
    obtain ⟨c, hc, ha⟩ := List.mem_flatMap.1 ha
    rcases List.mem_cons.1 ha with rfl | ha
    · exact hopen c
    · obtain ⟨_, _, rfl⟩ := List.mem_map.1 ha
      exact covAct_insert wf fs ok
  | update trs =>
    obtain ⟨c, hc, ha⟩ := List.mem_flatMap.1 ha
    rcases List.mem_cons.1 ha with rfl | ha
    · exact hopen c
    · rw [List.mem_singleton] at ha; subst ha
      exact covAct_update wf ok
  | upsert oc trs =>
    obtain ⟨c, hc, ha⟩ := List.mem_flatMap.1 ha
    rcases List.mem_cons.1 ha with rfl | ha
    · exact hopen c
    · obtain ⟨_, _, rfl⟩ := List.mem_map.1 ha
      exact covAct_upsert wf fs ok
  | delete trs =>
    simp only [Table.acts, List.mem_singleton] at ha; subst ha
    intro db f l _ ho
    exact (deleteLoop_cov wf ok trs (l.toW f)).ops ho
  | unsafeInsert trs =>
    obtain ⟨c, hc, ha⟩ := List.mem_flatMap.1 ha
    obtain ⟨x, hx, rfl⟩ := List.mem_map.1 ha
    intro db f l _ ho
    exact (unsafeInsertLoop_cov wf fs ok [x] (l.toW f)).ops ho
  | unsafeUpdate trs olds =>
    rcases hn with hn | hn
    · intro db f l _ _ fl hfl; rw [hn] at hfl; simp at hfl
    · exact absurd rfl (hn trs olds)

/-! ### Goroutines with the same rows at their keys do the same -/

/-- two states of a goroutine are the same up to entries it does not ask for; both filters cover its batch -/
structure SameTx (t : Table T F) (keys : List Bytes) (f1 f2 : F) (s1 s2 : TxSt T) : Prop where
  pre : s1.pre = s2.pre
  err : s1.err = s2.err
  res : s1.res = s2.res
  loc : SameLoc t keys f1 f2 s1.loc s2.loc
  items : ∀ e ∈ s1.loc.items, e.1 ∈ keys
  keyedPre : KeyedOps t (fun k _ => k ∈ keys) s1.pre
  keyedOps : KeyedOps t (fun k _ => k ∈ keys) s1.loc.ops
  covPre1 : CovOps t f1 s1.pre
  covPre2 : CovOps t f2 s1.pre
  covOps1 : CovOps t f1 s1.loc.ops
  covOps2 : CovOps t f2 s1.loc.ops

/-- what is needed of an action of a task with these keys -/
structure GoodTx (t : Table T F) (keys : List Bytes) (a : TxAct T F) : Prop where
  same : ∀ db1 f1 s1 db2 f2 s2, (∀ k ∈ keys, db1.get k = db2.get k) → CovKV t f1 db1 → CovKV t f2 db2 → SameTx t keys f1 f2 s1 s2 →
    SameTx t keys (a db1 f1 s1).2 (a db2 f2 s2).2 (a db1 f1 s1).1 (a db2 f2 s2).1
  filt : ∀ db f s, FiltLe t f (a db f s).2

theorem SameLoc.left {t : Table T F} {keys : List Bytes} {f1 f2 : F} {l1 l2 : Loc T} (h : SameLoc t keys f1 f2 l1 l2) :
    SameLoc t keys f1 f1 l1 l1 :=
  ⟨rfl, rfl, rfl, rfl, rfl, rfl, fun e he => ⟨rfl, fun x => ⟨((h.seek e he).2 x).1, ((h.seek e he).2 x).1⟩⟩⟩

theorem SameLoc.right {t : Table T F} {keys : List Bytes} {f1 f2 : F} {l1 l2 : Loc T} (h : SameLoc t keys f1 f2 l1 l2) :
    SameLoc t keys f2 f2 l2 l2 := by
  refine ⟨rfl, rfl, rfl, rfl, rfl, rfl, fun e he => ⟨rfl, fun x => ?_⟩⟩
  rw [← h.items] at he
  rw [← (h.seek e he).1] at x
  exact ⟨((h.seek e he).2 x).2, ((h.seek e he).2 x).2⟩

/-- what a call of a task sees is covered by the filter -/
theorem covKV_mode {t : Table T F} {f : F} {db : KV} (h : CovKV t f db) (mode : Option Bool) {pre ops : List WOp}
    (hp : CovOps t f pre) (ho : CovOps t f ops) : CovKV t f (readView db (mode.map (fun rw => ⟨rw, pre⟩)) ops) := by
  cases mode with
  | none => exact h
  | some rw => exact covKV_readView h hp ho

theorem goodTx_act {t : Table T F} {keys : List Bytes} (hk : ∀ k ∈ keys, ∃ pk, k = dataKey t.id pk) {a : Act T F}
    (ga : GoodAct t keys true a) (ca : CovAct t keys a) (mode : Option Bool) : GoodTx t keys (txAct mode a) := by
  refine ⟨?_, ?_⟩
  · intro db1 f1 s1 db2 f2 s2 hdb c1 c2 h
    unfold txAct
    cases he : s1.err with
    | some e => rw [← h.err, he]; exact h
    | none =>
      rw [← h.err, he]
      simp only
      have hv : SameFor t keys (readView db1 (mode.map (fun rw => ⟨rw, s1.pre⟩)) s1.loc.ops) f1
          (readView db2 (mode.map (fun rw => ⟨rw, s2.pre⟩)) s2.loc.ops) f2 := by
        intro k hkk
        have v1 := covKV_mode c1 mode h.covPre1 h.covOps1
        have v2 := covKV_mode c2 mode h.covPre2 h.covOps2
        rw [← h.pre, ← h.loc.ops]
        have hg := readView_local (hdb k hkk) (mode.map (fun rw => ⟨rw, s1.pre⟩)) s1.loc.ops
        refine ⟨hg, fun x => ?_⟩
        obtain ⟨pk, rfl⟩ := hk k hkk
        exact ⟨fun fl hfl => v1 fl hfl pk x, fun fl hfl => v2 fl hfl pk (hg ▸ x)⟩
      obtain ⟨g1, g2⟩ := ga.same _ _ _ _ _ _ hv h.loc
      have m1 := ga.filt (readView db1 (mode.map (fun rw => ⟨rw, s1.pre⟩)) s1.loc.ops) f1 s1.loc
      have m2 := ga.filt (readView db2 (mode.map (fun rw => ⟨rw, s2.pre⟩)) s2.loc.ops) f2 s2.loc
      have kd := ga.keyed (fun k _ => k ∈ keys) ⟨fun _ hk _ => hk, fun _ _ hk => hk⟩
        (readView db1 (mode.map (fun rw => ⟨rw, s1.pre⟩)) s1.loc.ops) f1 s1.loc h.items h.keyedOps
      have o1 := ca (readView db1 (mode.map (fun rw => ⟨rw, s1.pre⟩)) s1.loc.ops) f1 s1.loc h.loc.left h.covOps1
      have o2 := ca (readView db2 (mode.map (fun rw => ⟨rw, s2.pre⟩)) s2.loc.ops) f2 s2.loc h.loc.right (h.loc.ops ▸ h.covOps2)
      exact ⟨h.pre, g1, h.res, g2, kd.2, h.keyedPre, kd.1, h.covPre1.mono m1, h.covPre2.mono m2, o1, g2.ops ▸ o2⟩
  · intro db f s
    unfold txAct
    split
    · exact filtLe_refl _ _
    · exact ga.filt _ _ _

theorem sameLoc0 (t : Table T F) (keys : List Bytes) (f1 f2 : F) : SameLoc t keys f1 f2 t.loc0 t.loc0 :=
  ⟨rfl, rfl, rfl, rfl, rfl, rfl, by intro e he; simp [Table.loc0] at he⟩

theorem goodTx_return (t : Table T F) (keys : List Bytes) : GoodTx t keys (txReturn t) := by
  refine ⟨fun db1 f1 s1 db2 f2 s2 _ _ _ h => ?_, fun _ f _ => filtLe_refl t f⟩
  simp only [txReturn]
  exact ⟨by simp only; rw [h.pre, h.loc.ops], rfl, by simp only; rw [h.res, h.err], sameLoc0 t keys f1 f2,
    by intro e he; simp [Table.loc0] at he, h.keyedPre.append h.keyedOps, keyedOps_nil _ _, h.covPre1.append h.covOps1,
    h.covPre2.append h.covOps2, covOps_nil _ _, covOps_nil _ _⟩

theorem goodTx_put {t : Table T F} {keys : List Bytes} {ops : List WOp} (ho : OutsideOps t ops) :
    GoodTx t keys (txPut (T := T) (F := F) ops) := by
  refine ⟨fun db1 f1 s1 db2 f2 s2 _ _ _ h => ?_, fun _ f _ => filtLe_refl t f⟩
  simp only [txPut]
  exact ⟨by simp only; rw [h.pre], h.err, h.res, h.loc, h.items, h.keyedPre.append (keyedOps_outside ho), h.keyedOps,
    h.covPre1.append (covOps_outside ho), h.covPre2.append (covOps_outside ho), h.covOps1, h.covOps2⟩

theorem taskKeys_data {t : Table T F} {a : Task T} {k : Bytes} (h : k ∈ taskKeys t a) : ∃ pk, k = dataKey t.id pk := by
  cases a with
  | direct env c => exact keys_data h
  | batch rw l fin => exact askedKeys_data h

theorem taskActs_good {t : Table T F} (wf : t.WF) (fs : t.FilterSound) {k : Task T} (ok : ∀ c ∈ taskCalls k, c.1.OK t)
    (hn : t.filter = none ∨ ∀ c ∈ taskCalls k, ∀ trs olds, c.2 ≠ .unsafeUpdate trs olds) (hp : TaskPuts t k) :
    ∀ a ∈ t.taskActs k, GoodTx t (taskKeys t k) a := by
  intro a ha
  have hact : ∀ (c : Env T × WCall T) (mode : Option Bool), c ∈ taskCalls k → (∀ x ∈ c.2.keys t, x ∈ taskKeys t k) →
      ∀ a ∈ (t.acts c.1 c.2).map (txAct mode), GoodTx t (taskKeys t k) a := by
    intro c mode hc hkk a ha
    obtain ⟨b, hb, rfl⟩ := List.mem_map.1 ha
    exact goodTx_act (fun _ h => taskKeys_data h) (acts_good_of wf fs (ok c hc) c.2 hkk (fun _ => rfl) b hb)
      (acts_cov wf fs (ok c hc) c.2 _ (hn.imp id (fun h => h c hc)) b hb) mode
  cases k with
  | direct env c => exact hact (env, c) none (by simp [taskCalls]) (fun _ h => h) a ha
  | batch rw l fin =>
    obtain ⟨x, hx, ha⟩ := List.mem_flatMap.1 ha
    rcases x with c | ops
    · rcases List.mem_append.1 ha with ha | ha
      · refine hact c (some rw) ?_ ?_ a ha
        · exact List.mem_filterMap.2 ⟨_, hx, rfl⟩
        · intro y hy; exact List.mem_flatMap.2 ⟨_, hx, hy⟩
      · rw [List.mem_singleton] at ha; subst ha; exact goodTx_return t _
    · simp only [Table.itemActs, List.mem_singleton] at ha; subst ha
      exact goodTx_put (hp ops hx)

theorem sameTx0 (t : Table T F) (keys : List Bytes) (f1 f2 : F) : SameTx t keys f1 f2 t.txSt0 t.txSt0 :=
  ⟨rfl, rfl, rfl, sameLoc0 t keys f1 f2, by intro e he; simp [Table.txSt0, Table.loc0] at he, keyedOps_nil _ _, keyedOps_nil _ _,
    covOps_nil _ _, covOps_nil _ _, covOps_nil _ _, covOps_nil _ _⟩

theorem execTx_filt {t : Table T F} {keys : List Bytes} {as : List (TxAct T F)} (hg : ∀ a ∈ as, GoodTx t keys a) (db : KV) :
    ∀ (f : F) (s : TxSt T), FiltLe t f (execTx as db f s).2 := by
  induction as with
  | nil => intro f s; exact filtLe_refl _ _
  | cons a as ih =>
    intro f s
    exact ((hg a (by simp)).filt db f s).trans (ih (fun a ha => hg a (by simp [ha])) _ _)

theorem execTx_same {t : Table T F} {keys : List Bytes} {as : List (TxAct T F)} (hg : ∀ a ∈ as, GoodTx t keys a) {db1 db2 : KV}
    (hdb : ∀ k ∈ keys, db1.get k = db2.get k) : ∀ {f1 s1 f2 s2}, CovKV t f1 db1 → CovKV t f2 db2 → SameTx t keys f1 f2 s1 s2 →
    SameTx t keys (execTx as db1 f1 s1).2 (execTx as db2 f2 s2).2 (execTx as db1 f1 s1).1 (execTx as db2 f2 s2).1 := by
  induction as with
  | nil => intro f1 s1 f2 s2 _ _ h; exact h
  | cons a as ih =>
    intro f1 s1 f2 s2 c1 c2 h
    have ga := hg a (by simp)
    exact ih (fun a ha => hg a (by simp [ha])) (c1.mono (ga.filt _ _ _)) (c2.mono (ga.filt _ _ _)) (ga.same _ _ _ _ _ _ hdb c1 c2 h)

/-! ### Run alone, the actions are the sequential calls -/

theorem execTx_append (as bs : List (TxAct T F)) (db : KV) : ∀ (f : F) (s : TxSt T),
    execTx (as ++ bs) db f s = execTx bs db (execTx as db f s).2 (execTx as db f s).1 := by
  induction as with
  | nil => intro f s; rfl
  | cons a as ih => intro f s; exact ih _ _

/-- an action of a call with batch `ob` -/
def onView (ob : Option Batch) (a : Act T F) : Act T F := fun db f l => a (readView db ob l.ops) f l

theorem execTx_err (mode : Option Bool) (as : List (Act T F)) (db : KV) (f : F) (s : TxSt T) {e : Err} (h : s.err = some e) :
    execTx (as.map (txAct mode)) db f s = (s, f) := by
  induction as with
  | nil => rfl
  | cons a as ih => rw [List.map_cons, execTx]; simp only [txAct, h]; exact ih

theorem execTx_acts (mode : Option Bool) (as : List (Act T F)) (db : KV) (pre : List WOp) (res : List (Option Err)) :
    ∀ (f : F) (l : Loc T), execTx (as.map (txAct mode)) db f ⟨pre, l, none, res⟩ =
      (⟨pre, (execActs (as.map (onView (mode.map (fun rw => ⟨rw, pre⟩)))) db f l).1.1,
        (execActs (as.map (onView (mode.map (fun rw => ⟨rw, pre⟩)))) db f l).2, res⟩,
       (execActs (as.map (onView (mode.map (fun rw => ⟨rw, pre⟩)))) db f l).1.2) := by
  induction as with
  | nil => intro f l; rfl
  | cons a as ih =>
    intro f l
    rw [List.map_cons, List.map_cons, execTx, execActs]
    simp only [txAct, onView]
    generalize a (readView db (mode.map (fun rw => ⟨rw, pre⟩)) l.ops) f l = r
    obtain ⟨r, x⟩ := r
    cases x with
    | none => exact ih _ _
    | some e => exact execTx_err mode as db _ _ rfl

theorem map_onView_rows (ob : Option Batch) {α : Type} (xs : List α) (g : α → Act T F)
    (hg : ∀ x db db' f l, g x db f l = g x db' f l) : (xs.map g).map (onView ob) = xs.map g := by
  rw [List.map_map]
  refine List.map_congr_left (fun x _ => ?_)
  funext db f l
  exact hg x _ _ f l

theorem insertRow_db (t : Table T F) (env : Env T) (c : List T) (db db' : KV) (f : F) (l : Loc T) :
    insertRow t env c db f l = insertRow t env c db' f l := rfl

theorem upsertRow_db (t : Table T F) (env : Env T) (oc : Table.OnConflict T) (c : List T) (db db' : KV) (f : F) (l : Loc T) :
    upsertRow t env oc c db f l = upsertRow t env oc c db' f l := rfl

/-- without interference the actions of a call with a batch are the body of the sequential call with that batch -/
theorem exec_bodyOn (t : Table T F) (env : Env T) (db : KV) (ob : Option Batch) (f : F) (c : WCall T) :
    asW (execActs ((t.acts env c).map (onView ob)) db f t.loc0) =
      if c.mismatch then (t.start f, some .sizeMismatch) else t.body env db ob (t.start f) c := by
  cases c with
  | insert trs =>
    simp only [WCall.mismatch, Bool.false_eq_true, if_false, Table.acts, List.map_flatMap]
    refine exec_chunks (fun c f l => ?_) _ f t.loc0
    rw [List.map_cons, map_onView_rows ob _ _ (fun _ _ _ _ _ => rfl), execActs]
    simp only [openSlice, onView]
    rw [exec_insertRows]
    · rfl
    · rfl
  | update trs =>
    simp only [WCall.mismatch, Bool.false_eq_true, if_false, Table.acts, List.map_flatMap]
    refine exec_chunks (fun c f l => ?_) _ f t.loc0
    rw [List.map_cons, execActs]
    simp only [openSlice, onView, List.map_cons, List.map_nil, execActs, updateRows, Table.updateChunk]
    generalize hr : t.updateLoop env _ c _ _ = r
    have hr' : t.updateLoop env ((readView db ob (l.toW f).ops).scan (((sortKeys env (c.map t.key)).map Prod.fst).headD []) t.dataKeySpaceEnd) c
      (sortKeys env (c.map t.key)) (l.toW f) = r := hr
    rw [hr']
    obtain ⟨s', y⟩ := r
    cases y <;> rfl
  | upsert oc trs =>
    simp only [WCall.mismatch, Bool.false_eq_true, if_false, Table.acts, List.map_flatMap]
    refine exec_chunks (fun c f l => ?_) _ f t.loc0
    rw [List.map_cons, map_onView_rows ob _ _ (fun _ _ _ _ _ => rfl), execActs]
    simp only [openSlice, onView]
    rw [exec_upsertRows]
    · rfl
    · exact Nat.le_refl _
  | delete trs =>
    simp only [WCall.mismatch, Bool.false_eq_true, if_false, Table.acts, List.map_cons, List.map_nil, execActs, deleteRows, onView, Table.body]
    generalize hr : t.deleteLoop env trs _ = r
    have hr' : t.deleteLoop env trs (t.start f) = r := hr
    rw [hr']
    obtain ⟨s', y⟩ := r
    cases y <;> rfl
  | unsafeInsert trs =>
    simp only [WCall.mismatch, Bool.false_eq_true, if_false, Table.acts, List.map_flatMap]
    refine exec_chunks (fun c f l => ?_) _ f t.loc0
    rw [map_onView_rows ob _ _ (fun _ _ _ _ _ => rfl)]
    exact exec_unsafeInsertRows t env db c f l
  | unsafeUpdate trs olds =>
    simp only [WCall.mismatch, Table.acts]
    by_cases hlen : trs.length = olds.length
    · simp only [hlen, ne_eq, not_true_eq_false, decide_false, Bool.false_eq_true, if_false, List.map_cons, List.map_nil, execActs,
        unsafeUpdateRows, onView, Table.body]
      generalize hr : t.unsafeUpdateLoop env _ _ = r
      have hr' : t.unsafeUpdateLoop env (trs.zip olds) (t.start f) = r := hr
      rw [hr']
      obtain ⟨s', y⟩ := r
      cases y <;> rfl
    · simp only [hlen, ne_eq, not_false_eq_true, decide_true, if_true, List.map_cons, List.map_nil, execActs, onView]
      rfl

/-- a call with a batch, in terms of its actions -/
theorem run_execOn (t : Table T F) (env : Env T) (db : KV) (f : F) (b : Batch) (c : WCall T) :
    (t.run env db f (some b) c).batchOps = b.ops ++ (execActs ((t.acts env c).map (onView (some b))) db f t.loc0).1.1.ops ∧
    (t.run env db f (some b) c).err = (execActs ((t.acts env c).map (onView (some b))) db f t.loc0).2 ∧
    (t.run env db f (some b) c).filt = (execActs ((t.acts env c).map (onView (some b))) db f t.loc0).1.2 := by
  have h := exec_bodyOn t env db (some b) f c
  generalize execActs ((t.acts env c).map (onView (some b))) db f t.loc0 = r at h ⊢
  obtain ⟨⟨l, f'⟩, x⟩ := r
  rw [Table.run_eq]
  split at h
  · rename_i hm
    simp only [asW, Prod.mk.injEq] at h
    obtain ⟨h1, rfl⟩ := h
    have e1 : l.ops = [] := congrArg WSt.ops h1
    have e2 : f' = f := congrArg WSt.filt h1
    subst e2
    simp only [hm, if_true, WOut.batchOps, e1, List.append_nil, and_self]
  · rename_i hm
    simp only [hm, if_false, ← h, Bool.false_eq_true]
    exact ⟨rfl, rfl, rfl⟩

/-- the items of a task with a batch, done alone, are the calls one after the other on the batch -/
theorem execTx_items (t : Table T F) (rwf : Nat → Bool) (i : Nat) (l : List ((Env T × WCall T) ⊕ List WOp)) :
    ∀ (w : BatchWorld T F), ∃ d, t.batchRun rwf w (l.map (itemStep i)) =
      { w with filt := (execTx (l.flatMap (t.itemActs (rwf i))) w.db w.filt ⟨(w.bats i).ops, t.loc0, none, (w.bats i).res⟩).2
               bats := setBat w.bats i
                 ⟨(execTx (l.flatMap (t.itemActs (rwf i))) w.db w.filt ⟨(w.bats i).ops, t.loc0, none, (w.bats i).res⟩).1.pre, d,
                  (execTx (l.flatMap (t.itemActs (rwf i))) w.db w.filt ⟨(w.bats i).ops, t.loc0, none, (w.bats i).res⟩).1.res⟩ } := by
  induction l with
  | nil =>
    intro w
    refine ⟨(w.bats i).done, ?_⟩
    have : setBat w.bats i (w.bats i) = w.bats := by funext j; simp only [setBat]; split <;> simp_all
    simp only [List.map_nil, Table.batchRun, List.foldl_nil, List.flatMap_nil, execTx, this]
  | cons x l ih =>
    intro w
    have hset : ∀ (x y : OpenBatch T), setBat (setBat w.bats i x) i y = setBat w.bats i y := by
      intro x y; funext j; simp only [setBat]; split <;> rfl
    rcases x with ⟨env, c⟩ | ops
    · obtain ⟨d, hd⟩ := ih (t.batchStep rwf w (.call i env c))
      refine ⟨d, ?_⟩
      rw [List.map_cons]
      refine hd.trans ?_
      obtain ⟨h1, h2, h3⟩ := run_execOn t env w.db w.filt ⟨rwf i, (w.bats i).ops⟩ c
      have hx : execTx (t.itemActs (rwf i) (.inl (env, c))) w.db w.filt ⟨(w.bats i).ops, t.loc0, none, (w.bats i).res⟩ =
          (⟨(t.run env w.db w.filt (some ⟨rwf i, (w.bats i).ops⟩) c).batchOps, t.loc0, none,
            (w.bats i).res ++ [(t.run env w.db w.filt (some ⟨rwf i, (w.bats i).ops⟩) c).err]⟩,
           (t.run env w.db w.filt (some ⟨rwf i, (w.bats i).ops⟩) c).filt) := by
        rw [Table.itemActs, execTx_append, execTx_acts, h1, h2, h3]
        rfl
      rw [List.flatMap_cons, execTx_append, hx]
      simp only [Table.batchStep, setBat_same, hset]
    · obtain ⟨d, hd⟩ := ih (t.batchStep rwf w (.put i ops))
      refine ⟨d, ?_⟩
      rw [List.map_cons]
      refine hd.trans ?_
      rw [List.flatMap_cons, execTx_append]
      simp only [Table.batchStep, setBat_same, hset]
      rfl

/-- a call without a batch, in terms of its actions -/
theorem run_execDirect (t : Table T F) (env : Env T) (db : KV) (f : F) (c : WCall T) :
    t.run env db f none c = finish env db none
      ((execTx ((t.acts env c).map (txAct none)) db f t.txSt0).1.loc.toW (execTx ((t.acts env c).map (txAct none)) db f t.txSt0).2,
       (execTx ((t.acts env c).map (txAct none)) db f t.txSt0).1.err) := by
  have hm : (t.acts env c).map (onView none) = t.acts env c := by
    conv => rhs; rw [← List.map_id (t.acts env c)]
    rfl
  rw [run_exec, show t.txSt0 = ⟨[], t.loc0, none, []⟩ from rfl, execTx_acts, show (Option.map (fun rw => (⟨rw, []⟩ : Batch)) none) = none from rfl, hm]
  rfl

end Bond
