import Verif.Spec.FilterLive
import Verif.TransactionLemmas
import Verif.ScanLemmas
/-
Lemmas for a filter that is initialised while others write: what is stored, and what running goroutines are going to store, is
known to the filter or still to come in the scan.
-/
namespace Bond
open Spec
variable {T F : Type}

/-! ### Keys that are covered in a given sense -/

/-- a sense of "covered" that `Add` establishes and keeps -/
structure CovSense (t : Table T F) (C : F → Bytes → Prop) : Prop where
  add : ∀ f k, C (t.filterAdd f k) k
  mono : ∀ f k k', C f k' → C (t.filterAdd f k) k'

/-- every row key written is covered -/
def CvOps (t : Table T F) (C : Bytes → Prop) (ops : List WOp) : Prop := ∀ pk v, .set (dataKey t.id pk) v ∈ ops → C (dataKey t.id pk)

theorem CvOps.mono {t : Table T F} {C D : Bytes → Prop} {ops : List WOp} (h : CvOps t C ops) (hl : ∀ k, C k → D k) : CvOps t D ops :=
  fun pk v hm => hl _ (h pk v hm)

theorem CvOps.append {t : Table T F} {C : Bytes → Prop} {a b : List WOp} (ha : CvOps t C a) (hb : CvOps t C b) : CvOps t C (a ++ b) := by
  intro pk v hm
  rcases List.mem_append.1 hm with h | h
  · exact ha pk v h
  · exact hb pk v h

theorem cvOps_nil (t : Table T F) (C : Bytes → Prop) : CvOps t C [] := by intro pk v hm; simp at hm

theorem cvOps_set {t : Table T F} {C : Bytes → Prop} {k b : Bytes} {l : List WOp} (hx : C k) (hl : CvOps t C l) : CvOps t C (.set k b :: l) := by
  intro pk v hm
  rcases List.mem_cons.1 hm with h | h
  · rw [WOp.set.injEq] at h; rw [h.1]; exact hx
  · exact hl pk v h

theorem cvOps_del {t : Table T F} {C : Bytes → Prop} {k : Bytes} {l : List WOp} (hl : CvOps t C l) : CvOps t C (.del k :: l) := by
  intro pk v hm
  rcases List.mem_cons.1 hm with h | h
  · simp at h
  · exact hl pk v h

theorem cvOps_index {t : Table T F} (wf : t.WF) {C : Bytes → Prop} {g : Index T → List WOp} (hg : OpsIn t g) {ord : List (Index T)}
    (hp : ord.Perm t.indexes) : CvOps t C (ord.flatMap g) := by
  intro pk v h
  rw [List.mem_flatMap] at h
  obtain ⟨idx, hi, ho⟩ := h
  obtain ⟨k, hs, hu⟩ := hg idx _ ho
  have := hu (dataKey t.id pk) rfl
  rw [← this] at hs
  exact absurd (C09_disjoint hs (inSpace_dataKey t.id pk)).2 (wf.nz idx (hp.mem_iff.1 hi))

theorem cvOps_outside {t : Table T F} {C : Bytes → Prop} {ops : List WOp} (ho : OutsideOps t ops) : CvOps t C ops := by
  intro pk v hm
  exact absurd (inSpace_dataKey t.id pk) (ho _ hm (dataKey t.id pk) rfl).1

/-- a write loop: covered keys stay covered and the keys written are covered -/
structure CvStep (t : Table T F) (C : F → Bytes → Prop) (s s' : WSt T F) : Prop where
  le : ∀ k, C s.filt k → C s'.filt k
  ops : CvOps t (C s.filt) s.ops → CvOps t (C s'.filt) s'.ops

theorem CvStep.refl (t : Table T F) (C : F → Bytes → Prop) (s : WSt T F) : CvStep t C s s := ⟨fun _ h => h, id⟩
theorem CvStep.of_eq {t : Table T F} {C : F → Bytes → Prop} {s s' : WSt T F} (h1 : s'.ops = s.ops) (h2 : s'.filt = s.filt) : CvStep t C s s' :=
  ⟨by rw [h2]; exact fun _ h => h, by rw [h1, h2]; exact id⟩
theorem CvStep.trans {t : Table T F} {C : F → Bytes → Prop} {a b c : WSt T F} (h1 : CvStep t C a b) (h2 : CvStep t C b c) : CvStep t C a c :=
  ⟨fun k h => h2.le k (h1.le k h), fun h => h2.ops (h1.ops h)⟩
theorem CvStep.mk' {t : Table T F} {C : F → Bytes → Prop} {s s' : WSt T F} {l : List WOp} (h1 : s'.ops = s.ops ++ l) (hl : CvOps t (C s'.filt) l)
    (h2 : ∀ k, C s.filt k → C s'.filt k) : CvStep t C s s' :=
  ⟨h2, fun h => by rw [h1]; exact (h.mono h2).append hl⟩

/-- the keys of the list that the iterator finds are covered -/
def CvItems (C : Bytes → Prop) (entries : List (Bytes × Bytes)) (items : List (Bytes × Nat)) : Prop :=
  ∀ e ∈ items, (seekExact entries e.1).isSome = true → C e.1

theorem insertLoop_cv {t : Table T F} (wf : t.WF) {C : F → Bytes → Prop} (hC : CovSense t C) {env : Env T} (ok : env.OK t)
    {entries : List (Bytes × Bytes)} {trs : List T} (items : List (Bytes × Nat)) : ∀ (prev : Option Bytes) (s : WSt T F),
    CvStep t C s (t.insertLoop env entries trs prev items s).1 := by
  induction items with
  | nil => intro prev s; exact CvStep.refl t C s
  | cons e items ih =>
    intro prev s
    obtain ⟨k, j⟩ := e
    rw [Table.insertLoop]
    split
    · exact CvStep.refl t C s
    split
    · exact CvStep.refl t C s
    split
    · exact CvStep.refl t C s
    split
    · exact CvStep.refl t C s
    · refine CvStep.trans ?_ (ih _ _)
      exact CvStep.mk' rfl (cvOps_set (hC.add _ _) (cvOps_index wf (onInsert_in t _) (ok.order s.clock))) (fun k' h => hC.mono _ _ _ h)

theorem updateLoop_cv {t : Table T F} (wf : t.WF) {C : F → Bytes → Prop} {env : Env T} (ok : env.OK t) {entries : List (Bytes × Bytes)}
    {trs : List T} (items : List (Bytes × Nat)) : ∀ (s : WSt T F), CvItems (C s.filt) entries items →
    CvStep t C s (t.updateLoop env entries trs items s).1 := by
  induction items with
  | nil => intro s _; exact CvStep.refl t C s
  | cons e items ih =>
    intro s hc
    have hc' : CvItems (C s.filt) entries items := fun e he => hc e (by simp [he])
    obtain ⟨k, j⟩ := e
    rw [Table.updateLoop]
    split
    · exact CvStep.refl t C s
    split
    · exact CvStep.trans (CvStep.of_eq (s' := { s with clock := s.clock + 1 }) rfl rfl) (ih _ hc')
    split
    · exact CvStep.refl t C s
    rename_i v hv
    split
    · exact CvStep.refl t C s
    split
    · exact CvStep.refl t C s
    split
    · exact CvStep.of_eq rfl rfl
    refine CvStep.trans ?_ (ih _ hc')
    exact CvStep.mk' rfl (cvOps_set (hc (k, j) (List.mem_cons_self) (by simp [hv]))
      (cvOps_index wf (onUpdate_in t _ _) (ok.order s.clock))) (fun _ h => h)

theorem existIter_isSome {t : Table T F} {f : F} {entries : List (Bytes × Bytes)} {k v : Bytes}
    (h : t.existIter f entries k = some v) : (seekExact entries k).isSome = true := by
  cases hs : seekExact entries k with
  | none => rw [existIter_none_of_seek hs] at h; simp at h
  | some _ => rfl

theorem upsertLoop_cv {t : Table T F} (wf : t.WF) {C : F → Bytes → Prop} (hC : CovSense t C) {env : Env T} (ok : env.OK t)
    {oc : Table.OnConflict T} {entries : List (Bytes × Bytes)} {trs : List T} (fuel : Nat) : ∀ (i : Nat) (items : List (Bytes × Nat))
    (s : WSt T F), CvItems (C s.filt) entries items → CvStep t C s (t.upsertLoop env oc entries trs fuel i items s).1 := by
  induction fuel with
  | zero => intro i items s _; exact CvStep.refl t C s
  | succ fuel ih =>
    intro i items s hc
    cases items with
    | nil => exact CvStep.refl t C s
    | cons e items =>
      obtain ⟨k, j⟩ := e
      rw [Table.upsertLoop]
      split
      · exact CvStep.refl t C s
      rename_i x hx
      split
      · exact CvStep.refl t C s
      simp only
      split
      · exact CvStep.refl t C s
      rename_i found hfound
      split
      · exact CvStep.refl t C s
      rename_i rest' i' tr' old' hdup
      split
      · exact CvStep.of_eq rfl rfl
      have hsub : ∀ e ∈ rest', e ∈ (k, j) :: items := fun e he => List.mem_cons.2 (Or.inr (upsertDup_suffix _ _ _ _ _ hdup e he))
      cases found with
      | none =>
        refine CvStep.trans ?_ (ih _ _ _ (fun e he hs => hC.mono _ _ _ (hc e (hsub e he) hs)))
        exact CvStep.mk' rfl (cvOps_set (hC.add _ _) (cvOps_index wf (onInsert_in t tr') (ok.order s.clock))) (fun k' h => hC.mono _ _ _ h)
      | some o =>
        refine CvStep.trans ?_ (ih _ _ _ (fun e he hs => hc e (hsub e he) hs))
        refine CvStep.mk' rfl (cvOps_set ?_ (cvOps_index wf (onUpdate_in t old' tr') (ok.order s.clock))) (fun _ h => h)
        cases hex : t.existIter s.filt entries k with
        | none => rw [hex] at hfound; simp at hfound
        | some v => exact hc (k, j) (by simp) (existIter_isSome hex)

theorem deleteLoop_cv {t : Table T F} (wf : t.WF) {C : F → Bytes → Prop} {env : Env T} (ok : env.OK t) (trs : List T) :
    ∀ (s : WSt T F), CvStep t C s (t.deleteLoop env trs s).1 := by
  induction trs with
  | nil => intro s; exact CvStep.refl t C s
  | cons x xs ih =>
    intro s
    rw [Table.deleteLoop]
    split
    · exact CvStep.refl t C s
    refine CvStep.trans ?_ (ih _)
    exact CvStep.mk' rfl (cvOps_del (cvOps_index wf (onDelete_in t x) (ok.order s.clock))) (fun _ h => h)

theorem unsafeInsertLoop_cv {t : Table T F} (wf : t.WF) {C : F → Bytes → Prop} (hC : CovSense t C) {env : Env T} (ok : env.OK t) (trs : List T) :
    ∀ (s : WSt T F), CvStep t C s (t.unsafeInsertLoop env trs s).1 := by
  induction trs with
  | nil => intro s; exact CvStep.refl t C s
  | cons x xs ih =>
    intro s
    rw [Table.unsafeInsertLoop]
    split
    · exact CvStep.refl t C s
    split
    · exact CvStep.refl t C s
    refine CvStep.trans ?_ (ih _)
    exact CvStep.mk' rfl (cvOps_set (hC.add _ _) (cvOps_index wf (onInsert_in t x) (ok.order s.clock))) (fun k' h => hC.mono _ _ _ h)

/-! ### Actions -/

/-- what a running call has read and is going to write is covered -/
structure CvLoc (t : Table T F) (C : Bytes → Prop) (l : Loc T) : Prop where
  items : CvItems C l.entries l.items
  ops : CvOps t C l.ops

/-- an action keeps covered what is covered, if what it reads is -/
def CvAct (t : Table T F) (C : F → Bytes → Prop) (keys : List Bytes) (a : Act T F) : Prop :=
  ∀ db f l, (∀ k ∈ keys, (db.get k).isSome = true → C f k) → CvLoc t (C f) l →
    CvLoc t (C (a db f l).1.2) (a db f l).1.1 ∧ ∀ k, C f k → C (a db f l).1.2 k

theorem cvAct_open {t : Table T F} {C : F → Bytes → Prop} {env : Env T} (ok : env.OK t) {keys : List Bytes} {trs : List T}
    (hk : ∀ x ∈ trs, t.key x ∈ keys) : CvAct t C keys (openSlice t env trs) := by
  intro db f l hdb hl
  refine ⟨⟨?_, hl.ops⟩, fun _ h => h⟩
  intro e he hs
  simp only [openSlice] at he hs ⊢
  have hd := describes_sort t env ok trs
  have hm : e.1 ∈ (sortKeys env (trs.map t.key)).map Prod.fst := List.mem_map.2 ⟨e, he, rfl⟩
  have hm' := hm
  rw [hd.1.keys] at hm'
  obtain ⟨x, hx, e'⟩ := List.mem_map.1 hm'
  have hx := hk x (hd.2.mem_iff.1 hx)
  rw [e'] at hx
  refine hdb _ hx ?_
  rw [seekExact_scan] at hs
  · exact hs
  · exact sorted_headD (sortKeys_sorted t env ok _) _ hm
  · rw [← e']; exact dataKey_lt_end t _

theorem acts_cv {t : Table T F} (wf : t.WF) {C : F → Bytes → Prop} (hC : CovSense t C) {env : Env T} (ok : env.OK t) (c : WCall T)
    {keys : List Bytes} (hkeys : ∀ k ∈ c.keys t, k ∈ keys) (hn : ∀ trs olds, c ≠ .unsafeUpdate trs olds) :
    ∀ a ∈ t.acts env c, CvAct t C keys a := by
  have hin' : ∀ {trs : List T} {x : T}, x ∈ trs → t.key x ∈ trs.map t.key := fun h => List.mem_map.2 ⟨_, h, rfl⟩
  intro a ha
  cases c with
  | insert trs =>
    obtain ⟨c, hc, ha⟩ := List.mem_flatMap.1 ha
    rcases List.mem_cons.1 ha with rfl | ha
    · exact cvAct_open ok (fun x hx => hkeys _ (hin' (batched_mem hc hx)))
    · obtain ⟨_, _, rfl⟩ := List.mem_map.1 ha
      intro db f l _ hl
      unfold insertRow
      split
      · exact ⟨hl, fun _ h => h⟩
      · rename_i e rest hi
        have := insertLoop_cv wf hC ok (entries := l.entries) (trs := c) [e] l.prev (l.toW f)
        exact ⟨⟨fun e' he hs => this.le _ (hl.items e' (by rw [hi]; exact List.mem_cons.2 (Or.inr he)) hs), this.ops hl.ops⟩, this.le⟩
  | update trs =>
    obtain ⟨c, hc, ha⟩ := List.mem_flatMap.1 ha
    rcases List.mem_cons.1 ha with rfl | ha
    · exact cvAct_open ok (fun x hx => hkeys _ (hin' (batched_mem hc hx)))
    · rw [List.mem_singleton] at ha; subst ha
      intro db f l _ hl
      have := updateLoop_cv wf (C := C) ok (entries := l.entries) (trs := c) l.items (l.toW f) hl.items
      exact ⟨⟨fun e' he hs => by simp [updateRows] at he, this.ops hl.ops⟩, this.le⟩
  | upsert oc trs =>
    obtain ⟨c, hc, ha⟩ := List.mem_flatMap.1 ha
    rcases List.mem_cons.1 ha with rfl | ha
    · exact cvAct_open ok (fun x hx => hkeys _ (hin' (batched_mem hc hx)))
    · obtain ⟨_, _, rfl⟩ := List.mem_map.1 ha
      intro db f l _ hl
      unfold upsertRow
      split
      · exact ⟨hl, fun _ h => h⟩
      · rename_i e rest hi
        have := upsertLoop_cv wf hC ok (oc := oc) (entries := l.entries) (trs := c) 1 l.i (e :: rest) (l.toW f) (hi ▸ hl.items)
        refine ⟨⟨fun e' he hs => this.le _ (hl.items e' ?_ hs), this.ops hl.ops⟩, this.le⟩
        rw [hi]; exact List.mem_cons.2 (Or.inr ((List.dropWhile_suffix _).subset he))
  | delete trs =>
    simp only [Table.acts, List.mem_singleton] at ha; subst ha
    intro db f l _ hl
    have := deleteLoop_cv wf (C := C) ok trs (l.toW f)
    exact ⟨⟨fun e' he hs => this.le _ (hl.items e' he hs), this.ops hl.ops⟩, this.le⟩
  | unsafeInsert trs =>
    obtain ⟨c, hc, ha⟩ := List.mem_flatMap.1 ha
    obtain ⟨x, hx, rfl⟩ := List.mem_map.1 ha
    intro db f l _ hl
    have := unsafeInsertLoop_cv wf hC ok [x] (l.toW f)
    exact ⟨⟨fun e' he hs => this.le _ (hl.items e' he hs), this.ops hl.ops⟩, this.le⟩
  | unsafeUpdate trs olds => exact absurd rfl (hn trs olds)

theorem cvKV_apply {t : Table T F} {C : Bytes → Prop} (ops : List WOp) : ∀ {V : KV},
    (∀ pk, (V.get (dataKey t.id pk)).isSome = true → C (dataKey t.id pk)) → CvOps t C ops →
    ∀ pk, ((V.apply ops).get (dataKey t.id pk)).isSome = true → C (dataKey t.id pk) := by
  induction ops with
  | nil => intro V h _; exact h
  | cons o ops ih =>
    intro V h ho
    rw [KV.apply_cons]
    refine ih ?_ (fun pk v hm => ho pk v (by simp [hm]))
    intro pk hg
    cases o with
    | set k v =>
      rw [KV.apply1, KV.get_set] at hg
      split at hg
      · rename_i e; subst e; exact ho pk v (by simp)
      · exact h pk hg
    | del k =>
      rw [KV.apply1, KV.get_del] at hg
      split at hg
      · simp at hg
      · exact h pk hg
    | delRange a b =>
      rw [KV.apply1, KV.get_delRange] at hg
      split at hg
      · simp at hg
      · exact h pk hg

/-- what a goroutine has read and is going to write is covered -/
structure CvSt (t : Table T F) (C : Bytes → Prop) (s : TxSt T) : Prop where
  loc : CvLoc t C s.loc
  pre : CvOps t C s.pre

/-- the same for the actions of goroutines -/
def CvTx (t : Table T F) (C : F → Bytes → Prop) (a : TxAct T F) : Prop :=
  ∀ db f s, (∀ pk, (db.get (dataKey t.id pk)).isSome = true → C f (dataKey t.id pk)) → CvSt t (C f) s →
    CvSt t (C (a db f s).2) (a db f s).1 ∧ ∀ k, C f k → C (a db f s).2 k

theorem CvLoc.mono {t : Table T F} {C D : Bytes → Prop} {l : Loc T} (h : CvLoc t C l) (hl : ∀ k, C k → D k) : CvLoc t D l :=
  ⟨fun e he hs => hl _ (h.items e he hs), h.ops.mono hl⟩

theorem CvSt.mono {t : Table T F} {C D : Bytes → Prop} {s : TxSt T} (h : CvSt t C s) (hl : ∀ k, C k → D k) : CvSt t D s :=
  ⟨h.loc.mono hl, h.pre.mono hl⟩

theorem cvTx_act {t : Table T F} {C : F → Bytes → Prop} {keys : List Bytes} (hk : ∀ k ∈ keys, ∃ pk, k = dataKey t.id pk) {a : Act T F}
    (ca : CvAct t C keys a) (mode : Option Bool) : CvTx t C (txAct mode a) := by
  intro db f s hdb hs
  unfold txAct
  split
  · exact ⟨hs, fun _ h => h⟩
  have hv : ∀ k ∈ keys, ((readView db (mode.map (fun rw => ⟨rw, s.pre⟩)) s.loc.ops).get k).isSome = true → C f k := by
    intro k hkk hg
    obtain ⟨pk, rfl⟩ := hk k hkk
    cases mode with
    | none => exact hdb pk hg
    | some rw =>
      simp only [readView, Option.map_some] at hg
      split at hg
      · exact cvKV_apply _ hdb (hs.pre.append hs.loc.ops) pk hg
      · exact hdb pk hg
  obtain ⟨h1, h2⟩ := ca _ f s.loc hv hs.loc
  exact ⟨⟨h1, hs.pre.mono h2⟩, h2⟩

theorem cvLoc0 (t : Table T F) (C : Bytes → Prop) : CvLoc t C t.loc0 := ⟨by intro e he; simp [Table.loc0] at he, cvOps_nil _ _⟩

theorem taskActs_cv {t : Table T F} (wf : t.WF) {C : F → Bytes → Prop} (hC : CovSense t C) {k : Task T} (ok : ∀ c ∈ taskCalls k, c.1.OK t)
    (hn : ∀ c ∈ taskCalls k, ∀ trs olds, c.2 ≠ .unsafeUpdate trs olds) (hp : TaskPuts t k) : ∀ a ∈ t.taskActs k, CvTx t C a := by
  intro a ha
  have hact : ∀ (c : Env T × WCall T) (mode : Option Bool), c ∈ taskCalls k → ∀ a ∈ (t.acts c.1 c.2).map (txAct mode), CvTx t C a := by
    intro c mode hc a ha
    obtain ⟨b, hb, rfl⟩ := List.mem_map.1 ha
    exact cvTx_act (keys := c.2.keys t) (fun _ h => keys_data h) (acts_cv wf hC (ok c hc) c.2 (fun _ h => h) (hn c hc) b hb) mode
  cases k with
  | direct env c => exact hact (env, c) none (by simp [taskCalls]) a ha
  | batch rw l fin =>
    obtain ⟨x, hx, ha⟩ := List.mem_flatMap.1 ha
    rcases x with c | ops
    · rcases List.mem_append.1 ha with ha | ha
      · exact hact c (some rw) (List.mem_filterMap.2 ⟨_, hx, rfl⟩) a ha
      · rw [List.mem_singleton] at ha; subst ha
        exact fun db f s _ hs => ⟨⟨cvLoc0 t _, hs.pre.append hs.loc.ops⟩, fun _ h => h⟩
    · simp only [Table.itemActs, List.mem_singleton] at ha; subst ha
      exact fun db f s _ hs => ⟨⟨hs.loc, hs.pre.append (cvOps_outside (hp ops hx))⟩, fun _ h => h⟩

theorem taskEnd_cv {t : Table T F} {C : Bytes → Prop} (i : Nat) {db : KV} {s : TxSt T}
    (hc : ∀ pk, (db.get (dataKey t.id pk)).isSome = true → C (dataKey t.id pk)) (hs : CvSt t C s) (a : Task T) (f : F) :
    ∀ pk, ((t.taskEnd i db f s a).1.get (dataKey t.id pk)).isSome = true → C (dataKey t.id pk) := by
  cases a with
  | direct env c =>
    simp only [Table.taskEnd, finish]
    split
    · exact hc
    split
    · exact hc
    split
    · exact cvKV_apply _ hc hs.loc.ops
    · exact hc
  | batch rw l fin =>
    cases fin with
    | none => exact hc
    | some ok =>
      simp only [Table.taskEnd, Batch.commit]
      split
      · exact hc
      split
      · exact cvKV_apply _ hc hs.pre
      · exact hc

/-! ### The whole world -/

/-- every stored row, and every row that a running goroutine has seen or is going to store, is covered -/
structure CvWorld (t : Table T F) (C : F → Bytes → Prop) (w : TxWorld T F) : Prop where
  db : ∀ pk, (w.db.get (dataKey t.id pk)).isSome = true → C w.filt (dataKey t.id pk)
  st : ∀ (i : Nat) (th : TxThread T F), w.threads[i]? = some th → th.ended = false → CvSt t (C w.filt) th.st

/-- the actions still to do keep covered what is covered, in every sense -/
def CvActs (t : Table T F) (w : TxWorld T F) : Prop :=
  ∀ (i : Nat) (th : TxThread T F), w.threads[i]? = some th → th.ended = false → ∀ a ∈ th.acts, ∀ C, CovSense t C → CvTx t C a

theorem CvWorld.start {t : Table T F} {C : F → Bytes → Prop} {ks : List (Task T)} {db : KV} {f : F}
    (hc : ∀ pk, (db.get (dataKey t.id pk)).isSome = true → C f (dataKey t.id pk)) : CvWorld t C (t.txWorld db f ks) := by
  refine ⟨hc, ?_⟩
  intro i th hth _
  simp only [Table.txWorld, List.getElem?_map, Option.map_eq_some_iff] at hth
  obtain ⟨k, hk, rfl⟩ := hth
  exact ⟨cvLoc0 t _, cvOps_nil _ _⟩

theorem CvActs.start {t : Table T F} (wf : t.WF) {ks : List (Task T)} (hs : Separate t ks)
    (hn : ∀ k ∈ ks, ∀ c ∈ taskCalls k, ∀ trs olds, c.2 ≠ .unsafeUpdate trs olds) {db : KV} {f : F} : CvActs t (t.txWorld db f ks) := by
  intro i th hth _ a ha C hC
  simp only [Table.txWorld, List.getElem?_map, Option.map_eq_some_iff] at hth
  obtain ⟨k, hk, rfl⟩ := hth
  have hm := List.mem_of_getElem? hk
  exact taskActs_cv wf hC (hs.env k hm) (hn k hm) (hs.puts k hm) a ha

/-- what a step does to a goroutine that has not ended after it -/
theorem txStep_thread {t : Table T F} {w : TxWorld T F} (x : Nat ⊕ List WOp) {j : Nat} {thj : TxThread T F}
    (hj : (w.step t x).threads[j]? = some thj) (hej : thj.ended = false) :
    (w.threads[j]? = some thj) ∨
    ∃ th a as, x = .inl j ∧ w.threads[j]? = some th ∧ th.ended = false ∧ th.acts = a :: as ∧ thj = { th with acts := as, st := (a w.db w.filt th.st).1 } ∧
      (w.step t x).filt = (a w.db w.filt th.st).2 := by
  rcases x with i | ops
  · cases hth : w.threads[i]? with
    | none =>
      have : w.step t (.inl i) = w := by simp only [TxWorld.step, hth]
      rw [this] at hj; exact Or.inl hj
    | some th =>
      have hi : i < w.threads.length := (List.getElem?_eq_some_iff.1 hth).1
      cases he : th.ended with
      | true =>
        have : w.step t (.inl i) = w := by simp only [TxWorld.step, hth, he, if_true]
        rw [this] at hj; exact Or.inl hj
      | false =>
        cases ha : th.acts with
        | nil =>
          simp only [TxWorld.step, hth, he, ha, Bool.false_eq_true, if_false] at hj
          by_cases hij : i = j
          · subst hij
            rw [List.getElem?_set_self hi, Option.some.injEq] at hj
            subst hj
            simp at hej
          · rw [List.getElem?_set_ne hij] at hj; exact Or.inl hj
        | cons a as =>
          simp only [TxWorld.step, hth, he, ha, Bool.false_eq_true, if_false] at hj ⊢
          by_cases hij : i = j
          · subst hij
            rw [List.getElem?_set_self hi, Option.some.injEq] at hj
            exact Or.inr ⟨th, a, as, rfl, hth, he, ha, by rw [← hj, he], rfl⟩
          · rw [List.getElem?_set_ne hij] at hj; exact Or.inl hj
  · exact Or.inl hj

theorem CvActs.step {t : Table T F} {w : TxWorld T F} (h : CvActs t w) (x : Nat ⊕ List WOp) : CvActs t (w.step t x) := by
  intro j thj hj hej
  rcases txStep_thread x hj hej with hj | ⟨th, a, as, _, hth, he, ha, rfl, _⟩
  · exact h j thj hj hej
  · exact fun b hb => h j th hth he b (by rw [ha]; exact List.mem_cons.2 (Or.inr hb))

theorem CvWorld.step {t : Table T F} {C : F → Bytes → Prop} (hC : CovSense t C) {w : TxWorld T F} (h : CvWorld t C w) (hA : CvActs t w)
    (x : Nat ⊕ List WOp) (ho : ∀ ops, x = .inr ops → OutsideOps t ops) : CvWorld t C (w.step t x) := by
  have hle : ∀ k, C w.filt k → C (w.step t x).filt k := by
    rcases x with i | ops
    · simp only [TxWorld.step]
      split
      · exact fun _ h => h
      rename_i th hth
      split
      · exact fun _ h => h
      rename_i he
      have he : th.ended = false := by simpa using he
      split
      · rename_i a as ha
        exact (hA i th hth he a (by rw [ha]; simp) C hC w.db w.filt th.st h.db (h.st i th hth he)).2
      · exact fun _ h => h
    · exact fun _ h => h
  refine ⟨?_, ?_⟩
  · rcases x with i | ops
    · have hd : ∀ pk, (w.db.get (dataKey t.id pk)).isSome = true → C (w.step t (.inl i)).filt (dataKey t.id pk) := fun pk hg => hle _ (h.db pk hg)
      revert hd hle
      simp only [TxWorld.step]
      split
      · exact fun _ h => h
      rename_i th hth
      split
      · exact fun _ h => h
      rename_i he
      have he : th.ended = false := by simpa using he
      split
      · exact fun _ h => h
      · exact fun _ _ => taskEnd_cv i h.db (h.st i th hth he) _ _
    · exact cvKV_apply _ h.db (cvOps_outside (ho ops rfl))
  · intro j thj hj hej
    rcases txStep_thread x hj hej with hj | ⟨th, a, as, _, hth, he, ha, rfl, hf⟩
    · exact (h.st j thj hj hej).mono hle
    · rw [hf]
      exact (hA j th hth he a (by rw [ha]; simp) C hC w.db w.filt th.st h.db (h.st j th hth he)).1

theorem CvWorld.refilt {t : Table T F} {C D : F → Bytes → Prop} {w : TxWorld T F} (h : CvWorld t C w) {f' : F}
    (hl : ∀ k, C w.filt k → D f' k) : CvWorld t D { w with filt := f' } :=
  ⟨fun pk hg => hl _ (h.db pk hg), fun i th hth he => (h.st i th hth he).mono hl⟩

/-! ### Changing the filter under running goroutines -/

theorem sameTx_refilt {t : Table T F} {keys : List Bytes} {f g1 g2 : F} {s : TxSt T} (h : SameTx t keys f f s s)
    (c1 : CvSt t (Cov t g1) s) (c2 : CvSt t (Cov t g2) s) : SameTx t keys g1 g2 s s :=
  ⟨rfl, rfl, rfl, ⟨rfl, rfl, rfl, rfl, rfl, rfl, fun e he => ⟨rfl, fun x => ⟨c1.loc.items e he x, c2.loc.items e he x⟩⟩⟩, h.items, h.keyedPre,
    h.keyedOps, fun fl hfl pk v hm => c1.pre pk v hm fl hfl, fun fl hfl pk v hm => c2.pre pk v hm fl hfl,
    fun fl hfl pk v hm => c1.loc.ops pk v hm fl hfl, fun fl hfl pk v hm => c2.loc.ops pk v hm fl hfl⟩

theorem SameTx.cv {t : Table T F} {keys : List Bytes} {f : F} {s : TxSt T} (h : SameTx t keys f f s s) : CvSt t (Cov t f) s :=
  ⟨⟨fun e he hs => ((h.loc.seek e he).2 hs).1, fun pk v hm fl hfl => h.covOps1 fl hfl pk v hm⟩, fun pk v hm fl hfl => h.covPre1 fl hfl pk v hm⟩

theorem TxInv.refilt {t : Table T F} {ks : List (Task T)} {db0 : KV} {f0 : F} {w : TxWorld T F} {s : BatchWorld T F}
    (h : TxInv t ks db0 f0 w s) {f' : F} (hc : CvWorld t (Cov t) { w with filt := f' }) : TxInv t ks db0 f0 { w with filt := f' } s := by
  have hcw : CovKV t f' w.db := fun fl hfl pk hg => hc.db pk hg fl hfl
  refine ⟨h.seq, h.db, h.outs, h.bats, hcw, h.covS, h.len, ?_, h.ids, h.idsEnd⟩
  intro i th k hth hk he
  have hr := h.run i th k hth hk he
  have hc' := hc.st i th hth he
  have hx := execTx_same hr.good (db1 := w.db) (db2 := w.db) (fun _ _ => rfl) h.covW hcw (sameTx_refilt hr.self hr.self.cv hc')
  exact ⟨hr.task, hr.good, hr.base, sameTx_refilt hr.self hc' hc', hx.key.symm.trans hr.pred⟩

theorem TxInv.step {t : Table T F} (wf : t.WF) (fs : t.FilterSound) {ks : List (Task T)} (hs : Separate t ks) {db0 : KV} {f0 : F}
    (hc : CovKV t f0 db0) {w : TxWorld T F} {s : BatchWorld T F} (h : TxInv t ks db0 f0 w s) (x : Nat ⊕ List WOp)
    (ho : ∀ ops, x = .inr ops → OutsideOps t ops) : ∃ s', TxInv t ks db0 f0 (w.step t x) s' := by
  refine TxInv.run_all wf fs hs hc [x] (fun ops hm => ho ops ?_) h
  exact (List.mem_singleton.1 hm).symm

/-! ### The initialisation -/

/-- known to the filter or in `S` -/
def GateCov (fl : Filter F) (S : Bytes → Prop) (g : Gate F) (k : Bytes) : Prop := fl.may g.inner k = true ∨ S k

theorem gateFilter_sound {t : Table T (Gate F)} {fl : Filter F} (ht : t.filter = some (gateFilter fl)) (hf : FilterKeeps fl) : t.FilterSound := by
  intro fl' hfl' g k
  rw [ht, Option.some.injEq] at hfl'
  subst hfl'
  simp only [gateFilter]
  constructor
  · split
    · exact (hf g.inner k).1
    · rfl
  · intro k'
    split
    · exact (hf g.inner k).2 k'
    · exact fun _ => rfl

theorem gateCov_sense {t : Table T (Gate F)} {fl : Filter F} (ht : t.filter = some (gateFilter fl)) (hf : FilterKeeps fl) (S : Bytes → Prop) :
    CovSense t (GateCov fl S) := by
  refine ⟨fun g k => ?_, fun g k k' h => ?_⟩
  · simp only [Table.filterAdd, ht, gateFilter, GateCov]; exact Or.inl (hf g.inner k).1
  · simp only [Table.filterAdd, ht, gateFilter, GateCov] at h ⊢
    exact h.imp ((hf g.inner k).2 k') id

theorem gate_cov {t : Table T (Gate F)} {fl : Filter F} (ht : t.filter = some (gateFilter fl)) {g : Gate F} {k : Bytes}
    (h : g.ready = true → fl.may g.inner k = true) : Cov t g k := by
  intro fl' hfl'
  rw [ht, Option.some.injEq] at hfl'
  subst hfl'
  simp only [gateFilter]
  split
  · exact h ‹_›
  · rfl

theorem TxInv.gate {t : Table T (Gate F)} {fl : Filter F} (ht : t.filter = some (gateFilter fl)) {ks : List (Task T)} {db0 : KV} {f0 : Gate F}
    {w : TxWorld T (Gate F)} {s : BatchWorld T (Gate F)} (h : TxInv t ks db0 f0 w s) (hr : w.filt.ready = true) :
    CvWorld t (GateCov fl (fun _ => False)) w := by
  have hm : ∀ k, Cov t w.filt k → GateCov fl (fun _ => False) w.filt k := by
    intro k hk
    have := hk _ ht
    simp only [gateFilter, hr, if_true] at this
    exact Or.inl this
  refine ⟨fun pk hg => hm _ (fun fl' hfl' => h.covW fl' hfl' pk hg), fun i th hth he => ?_⟩
  have hlt : i < w.threads.length := (List.getElem?_eq_some_iff.1 hth).1
  obtain ⟨k, hk⟩ : ∃ k, ks[i]? = some k := ⟨_, List.getElem?_eq_getElem (h.len ▸ hlt)⟩
  exact (h.run i th k hth hk he).self.cv.mono hm

/-- `Add` and `Load` of the initialising goroutine: the filter grows and readiness stays -/
theorem TxInv.grow {t : Table T (Gate F)} {fl : Filter F} (ht : t.filter = some (gateFilter fl)) {ks : List (Task T)} {db0 : KV} {f0 : Gate F}
    {w : TxWorld T (Gate F)} {s : BatchWorld T (Gate F)} (h : TxInv t ks db0 f0 w s) {f' : F}
    (hl : ∀ k, fl.may w.filt.inner k = true → fl.may f' k = true) :
    TxInv t ks db0 f0 { w with filt := { w.filt with inner := f' } } s := by
  refine h.refilt ?_
  cases hr : w.filt.ready with
  | false =>
    have : ∀ k, Cov t { w.filt with inner := f' } k := fun k => gate_cov ht (by simp [hr])
    have h' : CvWorld t (fun _ _ => True) w := ⟨fun _ _ => trivial, fun i th _ _ => ⟨⟨fun _ _ _ => trivial, fun _ _ _ => trivial⟩, fun _ _ _ => trivial⟩⟩
    exact h'.refilt (fun k _ => this k)
  | true =>
    have := (h.gate ht hr).refilt (D := Cov t) (f' := { w.filt with inner := f' }) (fun k hk => gate_cov ht (fun _ => by
      rcases hk with hk | hk
      · exact hl k hk
      · exact hk.elim))
    exact this

/-- the keys of the rows in the database from that of the empty record on -/
theorem initKeys_mem {t : Table T F} (wf : t.WF) (db : KV) : ∃ keys, t.initKeys db = some keys ∧
    ∀ pk, (db.get (dataKey t.id pk)).isSome = true → ble (t.pk t.empty) pk = true → dataKey t.id pk ∈ keys := by
  have hb := pointBounds_eq wf (idx := t.primaryIndex) (Or.inr rfl) t.empty
  refine ⟨((db.scan (t.indexKey t.primaryIndex t.empty) (keySuccessor (keyPrefix t.id t.primaryIndex.id (t.primaryIndex.key t.empty)))).map (·.1)),
    ?_, ?_⟩
  · simp [Table.initKeys, Table.iterParts, Table.iterBounds, hb, walk, iterEntries, readable]
  · intro pk hg hle
    obtain ⟨v, hv⟩ := Option.isSome_iff_exists.1 hg
    refine List.mem_map.2 ⟨(dataKey t.id pk, v), (KV.mem_scan _ _ _ _ _).2 ⟨hv, ?_, ?_⟩, rfl⟩
    · rw [indexKey_primary]
      simp only [ble, Bool.not_eq_true'] at hle ⊢
      rw [Table.key, dataKey_lt]; exact hle
    · have hk : keySuccessor (keyPrefix t.id t.primaryIndex.id (t.primaryIndex.key t.empty)) = [t.id, 0, 0, 0, 0, 1] := by
        show keySuccessor (keyPrefix t.id 0 []) = _
        rw [keyPrefix_eq]
        simp [keySuccessor, beBytes]
      rw [hk, dataKey_eq]; simp [blt]

/-- the keys of the rows stored in `db` -/
def rowsOf (t : Table T F) (db : KV) (k : Bytes) : Prop := (∃ pk, k = dataKey t.id pk) ∧ (db.get k).isSome = true

/-- The invariant of goroutines that write while another initialises the filter; `db0` is the database at the start. -/
structure InitInv (t : Table T (Gate F)) (fl : Filter F) (ks : List (Task T)) (db0 : KV) (f0 : F) (x : InitWorld T F) : Prop where
  tx : ∃ s, TxInv t ks db0 ⟨f0, false⟩ x.w s
  acts : CvActs t x.w
  low : ∀ pk, (x.w.db.get (dataKey t.id pk)).isSome = true → ble (t.pk t.empty) pk = true
  cov0 : CvWorld t (GateCov fl (rowsOf t db0)) x.w
  phase : match x.phase with
    | .scan rest => none ∈ rest ∨ CvWorld t (GateCov fl (fun _ => False)) x.w
    | .add keys rest => none ∈ rest ∨ CvWorld t (GateCov fl (· ∈ keys)) x.w
    | .store => CvWorld t (GateCov fl (fun _ => False)) x.w
    | _ => True

theorem CvOps.keyed {t : Table T F} {C D : Bytes → Prop} {keys : List Bytes} {ops : List WOp} (h : CvOps t C ops)
    (hk : KeyedOps t (fun k _ => k ∈ keys) ops) (hl : ∀ k ∈ keys, C k → D k) : CvOps t D ops :=
  fun pk v hm => hl _ (hk _ hm pk rfl) (h pk v hm)

/-- when the iterator of the scan is opened, what is not known to the filter is in the iterator -/
theorem InitInv.snapshot {t : Table T (Gate F)} (wf : t.WF) {fl : Filter F} {ks : List (Task T)} {db0 : KV} {f0 : F}
    {x : InitWorld T F} (h : InitInv t fl ks db0 f0 x) {keys : List Bytes} (hk : t.initKeys x.w.db = some keys) :
    CvWorld t (GateCov fl (· ∈ keys)) x.w := by
  obtain ⟨keys', hk', hmem⟩ := initKeys_mem wf x.w.db
  rw [hk, Option.some.injEq] at hk'
  subst hk'
  obtain ⟨s, hs⟩ := h.tx
  have hd : ∀ pk, (x.w.db.get (dataKey t.id pk)).isSome = true → dataKey t.id pk ∈ keys := fun pk hg => hmem pk hg (h.low pk hg)
  refine ⟨fun pk hg => Or.inr (hd pk hg), ?_⟩
  intro i th hth he
  have hlt : i < x.w.threads.length := (List.getElem?_eq_some_iff.1 hth).1
  obtain ⟨k, hk⟩ : ∃ k, ks[i]? = some k := ⟨_, List.getElem?_eq_getElem (hs.len ▸ hlt)⟩
  have hr := hs.run i th k hth hk he
  have hl : ∀ y ∈ taskKeys t k, GateCov fl (rowsOf t db0) x.w.filt y → GateCov fl (· ∈ keys) x.w.filt y := by
    intro y hy hc
    rcases hc with hc | hc
    · exact Or.inl hc
    · obtain ⟨pk, rfl⟩ := taskKeys_data hy
      exact Or.inr (hd pk (by rw [hr.base _ hy]; exact hc.2))
  have hc := h.cov0.st i th hth he
  exact ⟨⟨fun e he' hs' => hl _ (hr.self.items e he') (hc.loc.items e he' hs'), hc.loc.ops.keyed hr.self.keyedOps hl⟩,
    hc.pre.keyed hr.self.keyedPre hl⟩

theorem InitInv.start {t : Table T (Gate F)} (wf : t.WF) {fl : Filter F} (ht : t.filter = some (gateFilter fl)) (hf : FilterKeeps fl)
    {ks : List (Task T)} (hs : Separate t ks) {db0 : KV} {f0 : F}
    (hlow : ∀ pk, (db0.get (dataKey t.id pk)).isSome = true → ble (t.pk t.empty) pk = true) : InitInv t fl ks db0 f0 (t.initWorld db0 f0 ks) := by
  have hn : ∀ k ∈ ks, ∀ c ∈ taskCalls k, ∀ trs olds, c.2 ≠ .unsafeUpdate trs olds := by
    rcases hs.upd with h | h
    · rw [ht] at h; simp at h
    · exact h
  exact ⟨⟨_, TxInv.start wf (gateFilter_sound ht hf) hs (fun fl' hfl' pk _ => gate_cov ht (by simp) fl' hfl')⟩, CvActs.start wf hs hn, hlow,
    CvWorld.start (fun pk hg => Or.inr ⟨⟨pk, rfl⟩, hg⟩), trivial⟩

/-- a step of a writing goroutine, or a write by somebody else -/
theorem InitInv.write {t : Table T (Gate F)} (wf : t.WF) {fl : Filter F} (ht : t.filter = some (gateFilter fl)) (hf : FilterKeeps fl)
    {cfg : InitCfg F} {ks : List (Task T)} (hs : Separate t ks) (hlow : ∀ k ∈ ks, ∀ pk, dataKey t.id pk ∈ taskKeys t k → ble (t.pk t.empty) pk = true)
    {db0 : KV} {f0 : F} {x : InitWorld T F} (h : InitInv t fl ks db0 f0 x) (a : Nat ⊕ List WOp)
    (ho : ∀ ops, a = .inr ops → OutsideOps t ops) : InitInv t fl ks db0 f0 (x.step t fl cfg (.inl a)) := by
  have fs := gateFilter_sound ht hf
  obtain ⟨s, hx⟩ := h.tx
  have hc0 : CovKV t ⟨f0, false⟩ db0 := fun fl' hfl' pk _ => gate_cov ht (by simp) fl' hfl'
  have hstep : ∀ S : Bytes → Prop, CvWorld t (GateCov fl S) x.w → CvWorld t (GateCov fl S) (x.w.step t a) :=
    fun S hS => hS.step (gateCov_sense ht hf S) h.acts a ho
  refine ⟨hx.step wf fs hs hc0 a ho, h.acts.step a, ?_, hstep _ h.cov0, ?_⟩
  · -- keys below that of the empty record do not appear
    intro pk hg
    simp only [InitWorld.step] at hg
    rcases a with i | ops
    · revert hg
      simp only [TxWorld.step]
      split
      · exact h.low pk
      rename_i th hth
      split
      · exact h.low pk
      rename_i he
      have he : th.ended = false := by simpa using he
      have hlt : i < x.w.threads.length := (List.getElem?_eq_some_iff.1 hth).1
      obtain ⟨k, hk⟩ : ∃ k, ks[i]? = some k := ⟨_, List.getElem?_eq_getElem (hx.len ▸ hlt)⟩
      have hr := hx.run i th k hth hk he
      split
      · exact h.low pk
      · intro hg
        by_cases hm : dataKey t.id pk ∈ taskKeys t k
        · exact hlow k (List.mem_of_getElem? hk) pk hm
        · rw [taskEnd_get i _ _ hr.self.keyedPre hr.self.keyedOps _ ⟨pk, rfl⟩ hm] at hg
          exact h.low pk hg
    · rw [show x.w.step t (.inr ops) = { x.w with db := x.w.db.apply ops, log := x.w.log ++ [.inr ops] } from rfl] at hg
      rw [get_outside (ho ops rfl) _ (fun hout => hout.1 (inSpace_dataKey t.id pk))] at hg
      exact h.low pk hg
  · have hp := h.phase
    simp only [InitWorld.step]
    revert hp
    cases x.phase with
    | scan rest => exact fun hp => hp.imp id (hstep _)
    | add keys rest => exact fun hp => hp.imp id (hstep _)
    | store => exact hstep _
    | start => exact id
    | clear => exact id
    | done => exact id
    | failed => exact id

/-- a step of the initialising goroutine -/
theorem InitInv.init {t : Table T (Gate F)} (wf : t.WF) {fl : Filter F} (ht : t.filter = some (gateFilter fl)) (hf : FilterKeeps fl)
    {cfg : InitCfg F} {ks : List (Task T)} {db0 : KV} {f0 : F} (hcfg : cfg.OK t fl db0) {x : InitWorld T F} (h : InitInv t fl ks db0 f0 x)
    (ok : Bool) : InitInv t fl ks db0 f0 (x.step t fl cfg (.inr ok)) := by
  obtain ⟨s, hx⟩ := h.tx
  -- nothing changes but the phase
  have hsame : ∀ p : InitPhase, (match p with
      | .scan rest => none ∈ rest ∨ CvWorld t (GateCov fl (fun _ => False)) x.w
      | .add keys rest => none ∈ rest ∨ CvWorld t (GateCov fl (· ∈ keys)) x.w
      | .store => CvWorld t (GateCov fl (fun _ => False)) x.w
      | _ => True) → InitInv t fl ks db0 f0 { x with phase := p } := fun p hp => ⟨h.tx, h.acts, h.low, h.cov0, hp⟩
  have hph := h.phase
  obtain ⟨w, ph⟩ := x
  simp only [InitWorld.step]
  simp only at hph
  cases ph with
  | start =>
    have hg := hcfg.grows ok w.filt.inner
    have hc0 : CvWorld t (GateCov fl (rowsOf t db0)) { w with filt := { w.filt with inner := cfg.load ok w.filt.inner } } :=
      h.cov0.refilt (fun k hk => hk.imp (hg k) id)
    refine ⟨⟨s, hx.grow ht hg⟩, h.acts, h.low, hc0, ?_⟩
    cases ok with
    | false => exact trivial
    | true =>
      refine hc0.refilt (fun k hk => Or.inl ?_)
      rcases hk with hk | ⟨⟨pk, rfl⟩, hk⟩
      · exact hk
      · exact hcfg.loads _ pk hk
  | clear =>
    cases ok with
    | true => exact hsame (.scan cfg.scans) (Or.inl hcfg.scanned)
    | false => exact hsame .failed trivial
  | scan rest =>
    cases rest with
    | nil => exact hsame .store (hph.resolve_left (by simp))
    | cons c rest =>
      cases ok with
      | false => cases c <;> exact hsame .failed trivial
      | true =>
        cases c with
        | none =>
          simp only [Table.initStep, if_true]
          cases hk : t.initKeys w.db with
          | none => exact hsame .failed trivial
          | some keys => exact hsame (.add keys rest) (Or.inr (h.snapshot wf hk))
        | some keys =>
          refine hsame (.add keys rest) ?_
          rcases hph with hph | hph
          · exact Or.inl (by simpa using hph)
          · exact Or.inr (hph.refilt (fun k hk => hk.imp id False.elim))
  | add keys rest =>
    cases keys with
    | nil =>
      cases ok with
      | false => exact hsame .failed trivial
      | true =>
        refine hsame (.scan rest) (hph.imp id (fun hph => hph.refilt (fun k hk => hk.imp id (by simp))))
    | cons k keys =>
      cases ok with
      | false => exact hsame .failed trivial
      | true =>
        have hg := (hf w.filt.inner k).2
        refine ⟨⟨s, hx.grow ht hg⟩, h.acts, h.low, h.cov0.refilt (fun y hy => hy.imp (hg y) id), hph.imp id (fun hph => ?_)⟩
        refine hph.refilt (fun y hy => ?_)
        rcases hy with hy | hy
        · exact Or.inl (hg y hy)
        · rcases List.mem_cons.1 hy with rfl | hy
          · exact Or.inl (hf w.filt.inner y).1
          · exact Or.inr hy
  | store =>
    refine ⟨⟨s, hx.refilt (hph.refilt (fun k hk => gate_cov ht (fun _ => ?_)))⟩, h.acts, h.low, h.cov0.refilt (fun _ hk => hk), trivial⟩
    exact hk.resolve_right (fun h => h)
  | done => exact hsame .start trivial
  | failed => exact hsame .start trivial

end Bond
