import Verif.WorldLemmas
import Verif.Spec.Batches
/-
A call reads only the stored rows with its own keys, writes only the rows with its own keys, and does the same with any two
filters that cover what it can read.
-/
namespace Bond
open Spec
variable {T F : Type}

theorem existIter_local {t : Table T F} {e1 e2 : List (Bytes × Bytes)} {k : Bytes} (h : seekExact e1 k = seekExact e2 k) (f : F) :
    t.existIter f e1 k = t.existIter f e2 k := by
  unfold Table.existIter; rw [h]

theorem insertLoop_local {t : Table T F} {env : Env T} {e1 e2 : List (Bytes × Bytes)} {trs : List T} (items : List (Bytes × Nat)) :
    ∀ (prev : Option Bytes) (s : WSt T F), (∀ e ∈ items, seekExact e1 e.1 = seekExact e2 e.1) →
    t.insertLoop env e1 trs prev items s = t.insertLoop env e2 trs prev items s := by
  induction items with
  | nil => intro prev s _; rfl
  | cons e items ih =>
    intro prev s h
    obtain ⟨k, j⟩ := e
    have hk := h (k, j) (by simp)
    have ih' := fun prev s => ih prev s (fun e he => h e (by simp [he]))
    simp only at hk
    rw [Table.insertLoop, Table.insertLoop, existIter_local hk]
    split
    · rfl
    split
    · rfl
    split
    · rfl
    split
    · rfl
    · exact ih' _ _

theorem upsertLoop_local {t : Table T F} {env : Env T} {oc : Table.OnConflict T} {e1 e2 : List (Bytes × Bytes)} {trs : List T}
    (fuel : Nat) : ∀ (i : Nat) (items : List (Bytes × Nat)) (s : WSt T F), (∀ e ∈ items, seekExact e1 e.1 = seekExact e2 e.1) →
    t.upsertLoop env oc e1 trs fuel i items s = t.upsertLoop env oc e2 trs fuel i items s := by
  induction fuel with
  | zero => intro i items s _; rfl
  | succ fuel ih =>
    intro i items s h
    cases items with
    | nil => rfl
    | cons e items =>
      obtain ⟨k, j⟩ := e
      have hk := h (k, j) (by simp)
      simp only at hk
      rw [Table.upsertLoop, Table.upsertLoop, existIter_local hk]
      split
      · rfl
      split
      · rfl
      simp only
      split
      · rfl
      split
      · rfl
      rename_i hd
      split
      · rfl
      · exact ih _ _ _ (fun e he => h e (List.mem_cons.2 (Or.inr (upsertDup_suffix _ _ _ _ _ hd e he))))

theorem sortKeys_mem {t : Table T F} {env : Env T} (ok : env.OK t) {trs : List T} :
    ∀ e ∈ sortKeys env (trs.map t.key), ∃ x ∈ trs, e.1 = t.key x := by
  intro e he
  have hd := describes_sort t env ok trs
  have : e.1 ∈ (sortKeys env (trs.map t.key)).map Prod.fst := List.mem_map.2 ⟨e, he, rfl⟩
  rw [hd.1.keys] at this
  obtain ⟨x, hx, e'⟩ := List.mem_map.1 this
  exact ⟨x, hd.2.mem_iff.1 hx, e'.symm⟩

theorem seek_chunk {t : Table T F} {env : Env T} (ok : env.OK t) (V : KV) (trs : List T) :
    ∀ e ∈ sortKeys env (trs.map t.key),
      seekExact (V.scan (((sortKeys env (trs.map t.key)).map Prod.fst).headD []) t.dataKeySpaceEnd) e.1 = V.get e.1 := by
  intro e he
  obtain ⟨x, _, hx⟩ := sortKeys_mem ok e he
  apply seekExact_scan
  · exact sorted_headD (sortKeys_sorted t env ok _) _ (List.mem_map.2 ⟨e, he, rfl⟩)
  · rw [hx]; exact dataKey_lt_end t _

theorem readView_local {db1 db2 : KV} {k : Bytes} (h : db1.get k = db2.get k) (ob : Option Batch) (ops : List WOp) :
    (readView db1 ob ops).get k = (readView db2 ob ops).get k := by
  unfold readView
  split
  · exact h
  · split
    · exact get_apply_congr h _
    · exact h

theorem forChunks_congr {σ α : Type} {f g : List α → σ → σ × Option Err} (cs : List (List α)) (h : ∀ c ∈ cs, ∀ s, f c s = g c s) :
    ∀ s, forChunks f cs s = forChunks g cs s := by
  induction cs with
  | nil => intro s; rfl
  | cons c cs ih =>
    intro s
    rw [forChunks, forChunks, h c (by simp)]
    split
    · exact ih (fun c hc => h c (by simp [hc])) _
    · rfl

/-- two databases with the same rows at the keys of a call: the call does the same on both -/
theorem body_local {t : Table T F} {env : Env T} (ok : env.OK t) {db1 db2 : KV} {c : WCall T}
    (h : ∀ k ∈ c.keys t, db1.get k = db2.get k) (ob : Option Batch) (s : WSt T F) :
    t.body env db1 ob s c = t.body env db2 ob s c := by
  have key : ∀ {trs cs : List T} (s : WSt T F), cs ∈ batched trs persistentBatchSize → (∀ k ∈ trs.map t.key, db1.get k = db2.get k) →
      ∀ e ∈ sortKeys env (cs.map t.key),
      seekExact ((readView db1 ob s.ops).scan (((sortKeys env (cs.map t.key)).map Prod.fst).headD []) t.dataKeySpaceEnd) e.1 =
      seekExact ((readView db2 ob s.ops).scan (((sortKeys env (cs.map t.key)).map Prod.fst).headD []) t.dataKeySpaceEnd) e.1 := by
    intro trs cs s hc hk e he
    rw [seek_chunk ok _ _ e he, seek_chunk ok _ _ e he]
    obtain ⟨x, hx, e'⟩ := sortKeys_mem ok e he
    rw [e']
    exact readView_local (hk _ (List.mem_map.2 ⟨x, batched_mem hc hx, rfl⟩)) ob s.ops
  cases c with
  | insert trs => exact forChunks_congr _ (fun c hc s => insertLoop_local _ _ _ (key s hc h)) _
  | update trs =>
    refine forChunks_congr _ (fun c hc s => ?_) _
    have := updateLoop_local (t := t) (env := env) (trs := c) (sortKeys env (c.map t.key)) s s.filt (key s hc h)
    have e : ∀ r : WSt T F × Option Err, r.1.filt = s.filt → r = ({ r.1 with filt := s.filt }, r.2) := by
      rintro ⟨⟨_, _, _, _⟩, _⟩ h; simp only at h; subst h; rfl
    exact (e _ this.2).trans this.1.symm
  | upsert oc trs => exact forChunks_congr _ (fun c hc s => upsertLoop_local _ _ _ _ (key s hc h)) _
  | delete trs => rfl
  | unsafeInsert trs => rfl
  | unsafeUpdate trs olds => rfl

/-- the same for a call given a batch: batch, filter and error -/
theorem run_local {t : Table T F} {env : Env T} (ok : env.OK t) {db1 db2 : KV} {c : WCall T}
    (h : ∀ k ∈ c.keys t, db1.get k = db2.get k) (b : Batch) (f : F) :
    (t.run env db1 f (some b) c).batch = (t.run env db2 f (some b) c).batch ∧
    (t.run env db1 f (some b) c).filt = (t.run env db2 f (some b) c).filt ∧
    (t.run env db1 f (some b) c).err = (t.run env db2 f (some b) c).err := by
  rw [Table.run_eq, Table.run_eq, body_local ok h]
  split
  · exact ⟨rfl, rfl, rfl⟩
  · exact ⟨rfl, rfl, rfl⟩

/-! ### Keys written -/

theorem forChunks_inv {σ α : Type} {f : List α → σ → σ × Option Err} {P : σ → Prop} (cs : List (List α))
    (h : ∀ c ∈ cs, ∀ s, P s → P (f c s).1) : ∀ s, P s → P (forChunks f cs s).1 := by
  induction cs with
  | nil => intro s hs; exact hs
  | cons c cs ih =>
    intro s hs
    have h1 := h c (by simp) s hs
    rw [forChunks]
    split
    · rename_i s' he; rw [he] at h1; exact ih (fun c hc => h c (by simp [hc])) _ h1
    · rename_i s' e he; rw [he] at h1; exact h1

theorem body_keyed {t : Table T F} (wf : t.WF) {env : Env T} (ok : env.OK t) (db : KV) (ob : Option Batch) (c : WCall T) (s : WSt T F)
    (hs : KeyedOps t (fun k _ => k ∈ c.keys t) s.ops) :
    KeyedOps t (fun k _ => k ∈ c.keys t) (t.body env db ob s c).1.ops := by
  have key : ∀ {trs cs : List T}, cs ∈ batched trs persistentBatchSize → ∀ e ∈ sortKeys env (cs.map t.key), e.1 ∈ trs.map t.key := by
    intro trs cs hc e he
    obtain ⟨x, hx, e'⟩ := sortKeys_mem ok e he
    rw [e']; exact List.mem_map.2 ⟨x, batched_mem hc hx, rfl⟩
  have hQ : ∀ dels, Allows (fun k _ => k ∈ c.keys t) (c.keys t) dels := fun _ => ⟨fun _ h _ => h, fun _ _ h => h⟩
  cases c with
  | insert trs => exact forChunks_inv (P := fun s : WSt T F => KeyedOps t _ s.ops) _ (fun c hc s hs => insertLoop_keyed wf ok (hQ true) _ _ _ (key hc) hs) _ hs
  | update trs => exact forChunks_inv (P := fun s : WSt T F => KeyedOps t _ s.ops) _ (fun c hc s hs => updateLoop_keyed wf ok (hQ true) _ _ (key hc) hs) _ hs
  | upsert oc trs => exact forChunks_inv (P := fun s : WSt T F => KeyedOps t _ s.ops) _ (fun c hc s hs => upsertLoop_keyed wf ok (hQ true) _ _ _ _ (key hc) hs) _ hs
  | delete trs => exact deleteLoop_keyed wf ok (hQ true) _ _ (fun x hx => List.mem_map.2 ⟨x, hx, rfl⟩) hs
  | unsafeInsert trs =>
    exact forChunks_inv (P := fun s : WSt T F => KeyedOps t _ s.ops) _ (fun c hc s hs => unsafeInsertLoop_keyed wf ok (hQ true) _ _
      (fun x hx => List.mem_map.2 ⟨x, batched_mem hc hx, rfl⟩) hs) _ hs
  | unsafeUpdate trs olds =>
    exact unsafeUpdateLoop_keyed wf ok (hQ true) _ _ (fun x hx => List.mem_map.2 ⟨x.1, (List.of_mem_zip hx).1, rfl⟩) hs

/-! ### Filters -/

/-- UnsafeUpdate only of rows that are stored in `V` -/
def StoredOld (t : Table T F) (V : KV) (c : WCall T) : Prop :=
  ∀ trs olds, c = .unsafeUpdate trs olds → trs.length = olds.length → ∀ x ∈ trs, (V.get (t.key x)).isSome = true

theorem unsafeUpdateLoop_cov {t : Table T F} (wf : t.WF) {env : Env T} (ok : env.OK t) (ps : List (T × T)) : ∀ (s : WSt T F),
    (∀ p ∈ ps, Cov t s.filt (t.key p.1)) → CovStep t s (t.unsafeUpdateLoop env ps s).1 := by
  induction ps with
  | nil => intro s _; exact CovStep.refl t s
  | cons p ps ih =>
    intro s h
    obtain ⟨x, o⟩ := p
    rw [Table.unsafeUpdateLoop]
    split
    · exact CovStep.refl t s
    split
    · exact CovStep.refl t s
    refine CovStep.trans ?_ (ih _ (fun p hp => h p (by simp [hp])))
    exact CovStep.mk' rfl (covOps_set (h (x, o) (by simp)) (covOps_index wf (onUpdate_in t o x) (ok.order s.clock))) (filtLe_refl t _)

theorem CovKV.mono {t : Table T F} {f f' : F} {V : KV} (h : CovKV t f V) (hl : FiltLe t f f') : CovKV t f' V :=
  fun fl hfl pk hg => hl fl hfl _ (h fl hfl pk hg)

/-- what a call reads is covered, whatever the kind of its batch -/
theorem covKV_readView {t : Table T F} {f : F} {db : KV} (h : CovKV t f db) {rw : Bool} {pre ops : List WOp}
    (hp : CovOps t f pre) (ho : CovOps t f ops) : CovKV t f (readView db (some ⟨rw, pre⟩) ops) := by
  unfold readView
  simp only
  split
  · exact covKV_apply _ h (hp.append ho)
  · exact h

theorem body_covStep {t : Table T F} (wf : t.WF) (fs : t.FilterSound) {env : Env T} (ok : env.OK t) {db : KV} {f : F}
    {ob : Option Batch} (hr : ∀ s : WSt T F, FiltLe t f s.filt → CovOps t s.filt s.ops → CovKV t s.filt (readView db ob s.ops))
    {c : WCall T} (hu : ∀ trs olds, c = .unsafeUpdate trs olds → ∀ p ∈ trs.zip olds, Cov t f (t.key p.1)) :
    CovStep t (t.start f) (t.body env db ob (t.start f) c).1 := by
  have h0 : FiltLe t f (t.start f).filt ∧ CovOps t (t.start f).filt (t.start f).ops :=
    ⟨filtLe_refl t _, by intro fl hfl pk v hm; simp [Table.start] at hm⟩
  have hchunks : ∀ {α : Type} {g : List α → WSt T F → WSt T F × Option Err} (cs : List (List α)),
      (∀ c s, FiltLe t f s.filt → CovOps t s.filt s.ops → CovStep t s (g c s).1) →
      CovStep t (t.start f) (forChunks g cs (t.start f)).1 := by
    intro α g cs hg
    have := forChunks_inv (P := fun s => CovStep t (t.start f) s) (f := g) cs (fun c _ s hs =>
      hs.trans (hg c s hs.le (hs.ops h0.2))) (t.start f) (CovStep.refl t _)
    exact this
  cases c with
  | insert trs => exact hchunks _ (fun c s _ _ => insertLoop_cov wf fs ok _ _ _ (sortKeys_key t env c))
  | update trs =>
    exact hchunks _ (fun c s h1 h2 => updateLoop_cov wf ok _ _ (sortKeys_key t env c) (covItems_chunk ok (hr s h1 h2) c))
  | upsert oc trs => exact hchunks _ (fun c s _ _ => upsertLoop_cov wf fs ok _ _ _ _ (sortKeys_key t env c))
  | delete trs => exact deleteLoop_cov wf ok trs _
  | unsafeInsert trs => exact hchunks _ (fun c s _ _ => unsafeInsertLoop_cov wf fs ok c s)
  | unsafeUpdate trs olds => exact unsafeUpdateLoop_cov wf ok _ _ (hu trs olds rfl)

theorem body_noFilter {t : Table T F} (wf : t.WF) (fs : t.FilterSound) {env : Env T} (ok : env.OK t) {db : KV} {f : F} (f0 : F)
    {ob : Option Batch} (hr : ∀ s : WSt T F, FiltLe t f s.filt → CovOps t s.filt s.ops → CovKV t s.filt (readView db ob s.ops))
    (c : WCall T) :
    (t.body env db ob (t.start f) c).2 = (t.noFilter.body env db ob (t.noFilter.start f0) c).2 ∧
    SameSt (t.body env db ob (t.start f) c).1 (t.noFilter.body env db ob (t.noFilter.start f0) c).1 := by
  have h0 := sameSt_start t f f0
  have hs0 : CovStep t (t.start f) (t.start f) := CovStep.refl t _
  have he0 : CovOps t (t.start f).filt (t.start f).ops := by intro fl hfl pk v hm; simp [Table.start] at hm
  cases c with
  | insert trs =>
    refine forChunks_same (P := fun _ s => CovStep t (t.start f) s) ?_ _ _ _ hs0 h0
    intro c cs s s0 hP hs
    obtain ⟨a, b⟩ := insertChunk_same (ob := ob) (trs := c) fs ok (s := s) (hr s hP.le (hP.ops he0)) hs
    exact ⟨a, b, fun _ => hP.trans (insertLoop_cov wf fs ok _ _ _ (sortKeys_key t env c))⟩
  | update trs =>
    refine forChunks_same (P := fun _ _ => True) ?_ _ _ _ trivial h0
    intro c cs s s0 _ hs
    obtain ⟨a, b⟩ : (t.updateChunk env db ob c s).2 = (t.noFilter.updateChunk env db ob c s0).2 ∧
        SameSt (t.updateChunk env db ob c s).1 (t.noFilter.updateChunk env db ob c s0).1 := by
      unfold Table.updateChunk; rw [← hs.1]; exact updateLoop_same _ _ _ hs
    exact ⟨a, b, fun _ => trivial⟩
  | upsert oc trs =>
    refine forChunks_same (P := fun _ s => CovStep t (t.start f) s) ?_ _ _ _ hs0 h0
    intro c cs s s0 hP hs
    obtain ⟨a, b⟩ := upsertChunk_same (ob := ob) (trs := c) (oc := oc) fs ok (s := s) (hr s hP.le (hP.ops he0)) hs
    exact ⟨a, b, fun _ => hP.trans (upsertLoop_cov wf fs ok _ _ _ _ (sortKeys_key t env c))⟩
  | delete trs => exact deleteLoop_same trs _ _ h0
  | unsafeInsert trs =>
    refine forChunks_same (P := fun _ _ => True) ?_ _ _ _ trivial h0
    intro c cs s s0 _ hs
    obtain ⟨a, b⟩ := unsafeInsertLoop_same c _ _ hs
    exact ⟨a, b, fun _ => trivial⟩
  | unsafeUpdate trs olds => exact unsafeUpdateLoop_same _ _ _ h0

theorem SameOut.symm {a b : WOut F} (h : SameOut a b) : SameOut b a := ⟨h.1.symm, h.2.1.symm, h.2.2.1.symm, h.2.2.2.symm⟩
theorem SameOut.trans {a b c : WOut F} (h : SameOut a b) (h' : SameOut b c) : SameOut a c :=
  ⟨h.1.trans h'.1, h.2.1.trans h'.2.1, h.2.2.1.trans h'.2.2.1, h.2.2.2.trans h'.2.2.2⟩

/-- all about one call given a batch: new writes, keys written, filter -/
theorem run_onBatch {t : Table T F} (wf : t.WF) (fs : t.FilterSound) {env : Env T} (ok : env.OK t) {db : KV} {f : F} {rw : Bool}
    {pre : List WOp} (hc : CovKV t f db) (hp : CovOps t f pre) {c : WCall T} (hu : StoredOld t (db.apply pre) c) :
    let o := t.run env db f (some ⟨rw, pre⟩) c
    (∃ l, o.batchOps = pre ++ l ∧ KeyedOps t (fun k _ => k ∈ c.keys t) l) ∧ o.batch = some ⟨rw, o.batchOps⟩ ∧
    CovOps t o.filt o.batchOps ∧ FiltLe t f o.filt ∧ ∀ f0, SameOut o (t.noFilter.run env db f0 (some ⟨rw, pre⟩) c) := by
  have hr : ∀ s : WSt T F, FiltLe t f s.filt → CovOps t s.filt s.ops → CovKV t s.filt (readView db (some ⟨rw, pre⟩) s.ops) :=
    fun s h1 h2 => covKV_readView (hc.mono h1) (hp.mono h1) h2
  have he : KeyedOps t (fun k _ => k ∈ c.keys t) (t.start f).ops := keyedOps_nil _ _
  simp only
  rw [Table.run_eq]
  by_cases hm : c.mismatch = true
  · simp only [hm, if_true, WOut.batchOps]
    refine ⟨⟨[], by simp, keyedOps_nil _ _⟩, by trivial, hp, filtLe_refl t _, fun f0 => ?_⟩
    rw [Table.run_eq]
    simp only [hm, if_true]
    exact ⟨rfl, rfl, rfl, rfl⟩
  · simp only [hm, Bool.false_eq_true, if_false]
    have hstep := body_covStep wf fs ok hr (c := c) (fun trs olds e p hpz fl hfl => by
      have hl : trs.length = olds.length := by
        rw [e] at hm; simp only [WCall.mismatch, decide_eq_true_eq, ne_eq, Decidable.not_not] at hm; exact hm
      exact covKV_apply _ hc hp fl hfl _ (hu trs olds e hl p.1 (List.of_mem_zip hpz).1))
    refine ⟨⟨_, rfl, body_keyed wf ok db _ c _ he⟩, rfl, ?_, ?_, fun f0 => ?_⟩
    · rw [finish_filt]
      exact (hp.mono hstep.le).append (hstep.ops (by intro fl hfl pk v hm; simp [Table.start] at hm))
    · rw [finish_filt]; exact hstep.le
    · rw [Table.run_eq]
      simp only [hm, Bool.false_eq_true, if_false]
      obtain ⟨a, b⟩ := body_noFilter wf fs ok f0 hr c
      exact finish_same a b

/-- all about one call without batch -/
theorem run_direct {t : Table T F} (wf : t.WF) (fs : t.FilterSound) {env : Env T} (ok : env.OK t) {db : KV} {f : F}
    (hc : CovKV t f db) {c : WCall T} (hu : StoredOld t db c) :
    let o := t.run env db f none c
    CovKV t o.filt o.db ∧ FiltLe t f o.filt ∧ (∀ pk, dataKey t.id pk ∉ c.keys t → o.db.get (dataKey t.id pk) = db.get (dataKey t.id pk)) ∧
    ∀ f0, SameOut o (t.noFilter.run env db f0 none c) := by
  have hr : ∀ s : WSt T F, FiltLe t f s.filt → CovOps t s.filt s.ops → CovKV t s.filt (readView db none s.ops) :=
    fun s h1 _ => hc.mono h1
  have he : KeyedOps t (fun k _ => k ∈ c.keys t) (t.start f).ops := keyedOps_nil _ _
  simp only
  rw [Table.run_eq]
  by_cases hm : c.mismatch = true
  · simp only [hm, if_true]
    refine ⟨hc, filtLe_refl t _, fun _ _ => by trivial, fun f0 => ?_⟩
    rw [Table.run_eq]
    simp only [hm, if_true]
    exact ⟨rfl, rfl, rfl, rfl⟩
  · simp only [hm, Bool.false_eq_true, if_false]
    have hstep := body_covStep wf fs ok hr (c := c) (fun trs olds e p hpz fl hfl => by
      have hl : trs.length = olds.length := by
        rw [e] at hm; simp only [WCall.mismatch, decide_eq_true_eq, ne_eq, Decidable.not_not] at hm; exact hm
      exact hc fl hfl _ (hu trs olds e hl p.1 (List.of_mem_zip hpz).1))
    have hk := body_keyed wf ok db none c (t.start f) he
    have hcov := hstep.ops (by intro fl hfl pk v hm; simp [Table.start] at hm)
    refine ⟨?_, ?_, ?_, fun f0 => ?_⟩
    · rw [finish_filt]
      have hd : CovKV t (t.body env db none (t.start f) c).1.filt db := hc.mono hstep.le
      by_cases he : (finish env db none (t.body env db none (t.start f) c)).err = none
      · have := (finish_ok he).2
        unfold WOut.view at this
        rw [finish_nobatch] at this
        rw [show (finish env db none (t.body env db none (t.start f) c)).db = db.apply (t.body env db none (t.start f) c).1.ops from this]
        exact covKV_apply _ hd hcov
      · rw [finish_err_db he]; exact hd
    · rw [finish_filt]; exact hstep.le
    · intro pk hpk
      exact finish_get env db _ _ _ (fun o ho ht => hpk (hk o ho pk ht))
    · rw [Table.run_eq]
      simp only [hm, Bool.false_eq_true, if_false]
      obtain ⟨a, b⟩ := body_noFilter wf fs ok f0 hr c
      exact finish_same a b

end Bond
