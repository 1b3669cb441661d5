import Verif.FilterLemmas
/-
Every call except UnsafeUpdate keeps the filter a cover of the stored rows, whatever its arguments.
-/
namespace Bond
open Spec
variable {T F : Type}

/-- the filter does not deny a row key written by `ops` (table.go:430-433, 767-770) -/
def CovOps (t : Table T F) (f : F) (ops : List WOp) : Prop :=
  ∀ fl, t.filter = some fl → ∀ pk v, .set (dataKey t.id pk) v ∈ ops → fl.may f (dataKey t.id pk) = true

/-- filter state `f'` allows whatever `f` allows (table.go:430-433, 767-770) -/
def FiltLe (t : Table T F) (f f' : F) : Prop := ∀ fl, t.filter = some fl → ∀ k, fl.may f k = true → fl.may f' k = true

theorem filtLe_refl (t : Table T F) (f : F) : FiltLe t f f := fun _ _ _ h => h
theorem filtLe_add {t : Table T F} (fs : t.FilterSound) (f : F) (k : Bytes) : FiltLe t f (t.filterAdd f k) := by
  intro fl hfl k' h
  unfold Table.filterAdd; rw [hfl]; exact (fs fl hfl f k).2 k' h
theorem FiltLe.trans {t : Table T F} {f g h : F} (a : FiltLe t f g) (b : FiltLe t g h) : FiltLe t f h :=
  fun fl hfl k x => b fl hfl k (a fl hfl k x)

theorem covOps_index {t : Table T F} (wf : t.WF) {f : F} {g : Index T → List WOp} (hg : OpsIn t g) {ord : List (Index T)}
    (hp : ord.Perm t.indexes) : CovOps t f (ord.flatMap g) := by
  intro fl _ pk v h
  rw [List.mem_flatMap] at h
  obtain ⟨idx, hi, ho⟩ := h
  obtain ⟨k, hs, hu⟩ := hg idx _ ho
  have := hu (dataKey t.id pk) rfl
  rw [← this] at hs
  exact absurd (C09_disjoint hs (inSpace_dataKey t.id pk)).2 (wf.nz idx (hp.mem_iff.1 hi))

theorem CovOps.mono {t : Table T F} {f f' : F} {ops : List WOp} (h : CovOps t f ops) (hl : FiltLe t f f') : CovOps t f' ops :=
  fun fl hfl pk v hm => hl fl hfl _ (h fl hfl pk v hm)

theorem CovOps.append {t : Table T F} {f : F} {a b : List WOp} (ha : CovOps t f a) (hb : CovOps t f b) : CovOps t f (a ++ b) := by
  intro fl hfl pk v hm
  rcases List.mem_append.1 hm with h | h
  · exact ha fl hfl pk v h
  · exact hb fl hfl pk v h

theorem covOps_set {t : Table T F} {f : F} {x : T} {b : Bytes} {l : List WOp}
    (hx : ∀ fl, t.filter = some fl → fl.may f (t.key x) = true) (hl : CovOps t f l) : CovOps t f (.set (t.key x) b :: l) := by
  intro fl hfl pk v hm
  rcases List.mem_cons.1 hm with h | h
  · rw [WOp.set.injEq] at h; rw [h.1]; exact hx fl hfl
  · exact hl fl hfl pk v h

theorem covOps_del {t : Table T F} {f : F} {k : Bytes} {l : List WOp} (hl : CovOps t f l) : CovOps t f (.del k :: l) := by
  intro fl hfl pk v hm
  rcases List.mem_cons.1 hm with h | h
  · simp at h
  · exact hl fl hfl pk v h

theorem covKV_apply {t : Table T F} {f : F} (ops : List WOp) : ∀ {V : KV}, CovKV t f V → CovOps t f ops → CovKV t f (V.apply ops) := by
  induction ops with
  | nil => intro V h _; exact h
  | cons o ops ih =>
    intro V h ho
    rw [KV.apply_cons]
    refine ih ?_ (fun fl hfl pk v hm => ho fl hfl pk v (by simp [hm]))
    intro fl hfl pk hg
    cases o with
    | set k v =>
      rw [KV.apply1, KV.get_set] at hg
      split at hg
      · rename_i e; subst e; exact ho fl hfl pk v (by simp)
      · exact h fl hfl pk hg
    | del k =>
      rw [KV.apply1, KV.get_del] at hg
      split at hg
      · simp at hg
      · exact h fl hfl pk hg
    | delRange a b =>
      rw [KV.apply1, KV.get_delRange] at hg
      split at hg
      · simp at hg
      · exact h fl hfl pk hg

/-- one write loop: the filter grows and covers the rows written (loops of table.go:338-789, table_unsafe.go:20-203) -/
structure CovStep (t : Table T F) (s s' : WSt T F) : Prop where
  le : FiltLe t s.filt s'.filt
  ops : CovOps t s.filt s.ops → CovOps t s'.filt s'.ops

theorem CovStep.refl (t : Table T F) (s : WSt T F) : CovStep t s s := ⟨filtLe_refl t _, id⟩
theorem CovStep.of_eq {t : Table T F} {s s' : WSt T F} (h1 : s'.ops = s.ops) (h2 : s'.filt = s.filt) : CovStep t s s' :=
  ⟨by rw [h2]; exact filtLe_refl t _, by rw [h1, h2]; exact id⟩
theorem CovStep.trans {t : Table T F} {a b c : WSt T F} (h1 : CovStep t a b) (h2 : CovStep t b c) : CovStep t a c :=
  ⟨h1.le.trans h2.le, fun h => h2.ops (h1.ops h)⟩
theorem CovStep.mk' {t : Table T F} {s s' : WSt T F} {l : List WOp} (h1 : s'.ops = s.ops ++ l) (hl : CovOps t s'.filt l)
    (h2 : FiltLe t s.filt s'.filt) : CovStep t s s' :=
  ⟨h2, fun h => by rw [h1]; exact (h.mono h2).append hl⟩

theorem CovItems.mono {t : Table T F} {f f' : F} {entries : List (Bytes × Bytes)} {items : List (Bytes × Nat)}
    (h : CovItems t f entries items) (hl : FiltLe t f f') : CovItems t f' entries items :=
  fun fl hfl e he hs => hl fl hfl _ (h fl hfl e he hs)

theorem add_may {t : Table T F} (fs : t.FilterSound) (f : F) (k : Bytes) :
    ∀ fl, t.filter = some fl → fl.may (t.filterAdd f k) k = true := by
  intro fl hfl
  unfold Table.filterAdd; rw [hfl]; exact (fs fl hfl f k).1

theorem existIter_seek {t : Table T F} {f : F} {entries : List (Bytes × Bytes)} {k v : Bytes}
    (h : t.existIter f entries k = some v) : ∀ fl, t.filter = some fl → fl.may f k = true := by
  intro fl hfl
  unfold Table.existIter at h
  rw [hfl] at h
  cases hm : fl.may f k with
  | true => rfl
  | false => simp [hm] at h

theorem insertLoop_cov {t : Table T F} (wf : t.WF) (fs : t.FilterSound) {env : Env T} (ok : env.OK t)
    {entries : List (Bytes × Bytes)} {trs : List T} (items : List (Bytes × Nat)) : ∀ (prev : Option Bytes) (s : WSt T F),
    (∀ e ∈ items, ∀ x, trs[e.2]? = some x → e.1 = t.key x) → CovStep t s (t.insertLoop env entries trs prev items s).1 := by
  induction items with
  | nil => intro prev s _; exact CovStep.refl t s
  | cons e items ih =>
    intro prev s he
    obtain ⟨k, j⟩ := e
    rw [Table.insertLoop]
    split
    · exact CovStep.refl t s
    split
    · exact CovStep.refl t s
    split
    · exact CovStep.refl t s
    rename_i x hx
    have hk := he (k, j) (by simp) x hx
    simp only at hk; subst hk
    split
    · exact CovStep.refl t s
    refine CovStep.trans ?_ (ih _ _ (fun e h => he e (by simp [h])))
    exact CovStep.mk' rfl (covOps_set (add_may fs _ _) (covOps_index wf (onInsert_in t x) (ok.order s.clock))) (filtLe_add fs _ _)

theorem updateLoop_cov {t : Table T F} (wf : t.WF) {env : Env T} (ok : env.OK t) {entries : List (Bytes × Bytes)} {trs : List T}
    (items : List (Bytes × Nat)) : ∀ (s : WSt T F), (∀ e ∈ items, ∀ x, trs[e.2]? = some x → e.1 = t.key x) →
    CovItems t s.filt entries items → CovStep t s (t.updateLoop env entries trs items s).1 := by
  induction items with
  | nil => intro s _ _; exact CovStep.refl t s
  | cons e items ih =>
    intro s he hc
    have hc' : CovItems t s.filt entries items := hc.sub (fun e h => by simp [h])
    obtain ⟨k, j⟩ := e
    rw [Table.updateLoop]
    split
    · exact CovStep.refl t s
    split
    · exact CovStep.trans (CovStep.of_eq (s' := { s with clock := s.clock + 1 }) rfl rfl) (ih _ (fun e h => he e (by simp [h])) hc')
    split
    · exact CovStep.refl t s
    rename_i v hv
    split
    · exact CovStep.refl t s
    split
    · exact CovStep.refl t s
    rename_i x hx
    have hk := he (k, j) (by simp) x hx
    simp only at hk; subst hk
    split
    · exact CovStep.of_eq rfl rfl
    refine CovStep.trans ?_ (ih _ (fun e h => he e (by simp [h])) hc')
    exact CovStep.mk' rfl (covOps_set (fun fl hfl => hc fl hfl _ (List.mem_cons_self) (by simp [hv]))
      (covOps_index wf (onUpdate_in t _ x) (ok.order s.clock))) (filtLe_refl t _)

theorem upsertLoop_cov {t : Table T F} (wf : t.WF) (fs : t.FilterSound) {env : Env T} (ok : env.OK t) {oc : Table.OnConflict T}
    {entries : List (Bytes × Bytes)} {trs : List T} (fuel : Nat) : ∀ (i : Nat) (items : List (Bytes × Nat)) (s : WSt T F),
    (∀ e ∈ items, ∀ x, trs[e.2]? = some x → e.1 = t.key x) →
    CovStep t s (t.upsertLoop env oc entries trs fuel i items s).1 := by
  induction fuel with
  | zero => intro i items s _; exact CovStep.refl t s
  | succ fuel ih =>
    intro i items s he
    cases items with
    | nil => exact CovStep.refl t s
    | cons e items =>
      obtain ⟨k, j⟩ := e
      rw [Table.upsertLoop]
      split
      · exact CovStep.refl t s
      rename_i x hx
      have hk := he (k, j) (by simp) x hx
      simp only at hk; subst hk
      split
      · exact CovStep.refl t s
      simp only
      split
      · exact CovStep.refl t s
      rename_i found hfound
      split
      · exact CovStep.refl t s
      rename_i rest' i' tr' old' hdup
      split
      · exact CovStep.of_eq rfl rfl
      refine CovStep.trans ?_ (ih _ _ _ (fun e h => he e (List.mem_cons.2 (Or.inr (upsertDup_suffix _ _ _ _ _ hdup e h)))))
      cases found with
      | none => exact CovStep.mk' rfl (covOps_set (add_may fs _ _) (covOps_index wf (onInsert_in t tr') (ok.order s.clock))) (filtLe_add fs _ _)
      | some o =>
        refine CovStep.mk' rfl (covOps_set ?_ (covOps_index wf (onUpdate_in t old' tr') (ok.order s.clock))) (filtLe_refl t _)
        cases hex : t.existIter s.filt entries (t.key x) with
        | none => rw [hex] at hfound; simp at hfound
        | some v => exact existIter_seek hex

theorem deleteLoop_cov {t : Table T F} (wf : t.WF) {env : Env T} (ok : env.OK t) (trs : List T) :
    ∀ (s : WSt T F), CovStep t s (t.deleteLoop env trs s).1 := by
  induction trs with
  | nil => intro s; exact CovStep.refl t s
  | cons x xs ih =>
    intro s
    rw [Table.deleteLoop]
    split
    · exact CovStep.refl t s
    refine CovStep.trans ?_ (ih _)
    exact CovStep.mk' rfl (covOps_del (covOps_index wf (onDelete_in t x) (ok.order s.clock))) (filtLe_refl t _)

theorem unsafeInsertLoop_cov {t : Table T F} (wf : t.WF) (fs : t.FilterSound) {env : Env T} (ok : env.OK t) (trs : List T) :
    ∀ (s : WSt T F), CovStep t s (t.unsafeInsertLoop env trs s).1 := by
  induction trs with
  | nil => intro s; exact CovStep.refl t s
  | cons x xs ih =>
    intro s
    rw [Table.unsafeInsertLoop]
    split
    · exact CovStep.refl t s
    split
    · exact CovStep.refl t s
    refine CovStep.trans ?_ (ih _)
    exact CovStep.mk' rfl (covOps_set (add_may fs _ _) (covOps_index wf (onInsert_in t x) (ok.order s.clock))) (filtLe_add fs _ _)

theorem forChunks_cov {t : Table T F} {α : Type} {f : List α → WSt T F → WSt T F × Option Err} {V : KV}
    (hf : ∀ c s, CovKV t s.filt V → CovStep t s (f c s).1) (cs : List (List α)) : ∀ (s : WSt T F), CovKV t s.filt V →
    CovStep t s (forChunks f cs s).1 := by
  induction cs with
  | nil => intro s _; exact CovStep.refl t s
  | cons c cs ih =>
    intro s hs
    rw [forChunks]
    have h := hf c s hs
    split
    · rename_i s' heq
      rw [heq] at h
      exact h.trans (ih s' (fun fl hfl pk hg => h.le fl hfl _ (hs fl hfl pk hg)))
    · rename_i s' e heq
      rw [heq] at h
      exact h

theorem lookup_same {t : Table T F} {db V : KV} {ob : Option Batch} {f : F} (f0 : F) (hr : readable db ob = some V)
    (hc : CovKV t f V) (x : T) : lookup t f db ob (t.key x) = lookup t.noFilter f0 db ob (t.key x) := by
  unfold lookup
  rw [hr]
  have : t.noFilter.mayContain f0 (t.key x) = true := rfl
  rw [this]
  simp only [if_true]
  split
  · rfl
  · rename_i hm
    cases hg : V.get (t.key x) with
    | none => rfl
    | some v =>
      exfalso; apply hm
      unfold Table.mayContain
      split
      · rename_i fl hfl; exact hc fl hfl _ (by rw [show dataKey t.id (t.pk x) = t.key x from rfl, hg]; rfl)
      · rfl

theorem reads_same {t : Table T F} {env : Env T} (ok : env.OK t) {db V : KV} {ob : Option Batch} {f : F} (f0 : F)
    (hr : readable db ob = some V) (hc : CovKV t f V) (x : T) (pts : List T) :
    t.exist f db ob x = t.noFilter.exist f0 db ob x ∧ t.getPoint f db ob x = t.noFilter.getPoint f0 db ob x ∧
    t.getMany env f db ob pts = t.noFilter.getMany env f0 db ob pts := by
  have hl := lookup_same f0 hr hc
  have h0 : ∀ k, t.noFilter.mayContain f0 k = true := fun _ => rfl
  have ok0 : env.OK t.noFilter := ⟨ok.order, ok.sort_perm, ok.sort_sorted⟩
  have hk : ∀ (c : List T), ∀ k ∈ c.map t.key, blt k t.dataKeySpaceEnd = true := by
    intro c k hk
    obtain ⟨p, _, rfl⟩ := List.mem_map.1 hk
    exact dataKey_lt_end t _
  have hx := hl x
  unfold lookup at hx
  rw [hr, h0] at hx
  simp only [if_true] at hx
  refine ⟨?_, ?_, ?_⟩
  · unfold Table.exist
    rw [hr, h0, show t.noFilter.key x = t.key x from rfl]
    cases hm : t.mayContain f (t.key x) with
    | true => rfl
    | false => rw [hm] at hx; simp only [Bool.false_eq_true, if_false] at hx; simp [← hx]
  · have : t.getOne f db ob x = t.noFilter.getOne f0 db ob x := by
      unfold Table.getOne
      rw [hr, show t.noFilter.key x = t.key x from rfl, h0, show t.noFilter.deser = t.deser from rfl,
        show t.noFilter.nil = t.nil from rfl]
      cases hm : t.mayContain f (t.key x) with
      | true => rfl
      | false => rw [hm] at hx; simp only [Bool.false_eq_true, if_false] at hx; simp [← hx]
    unfold Table.getPoint; rw [this]
  · have hd : ∀ l, t.noFilter.decodeAll l = t.decodeAll l := by
      intro l
      induction l with
      | nil => rfl
      | cons v l ih => rw [Table.decodeAll, Table.decodeAll, ih]; rfl
    have hkeys : ∀ (c : List T) (cap : Nat), c.length ≤ cap → t.getKeys env f db ob (c.map t.key) cap false =
        t.noFilter.getKeys env f0 db ob (c.map t.key) cap false := by
      intro c cap hcap
      rw [getKeys_ok t ok f db ob (hk c) (by simpa using hcap) false (by simp),
        getKeys_ok t.noFilter ok0 f0 db ob (hk c) (by simpa using hcap) false (by simp)]
      congr 1
      rw [List.map_map, List.map_map]
      apply List.map_congr_left
      intro y _
      simp only [Function.comp]
      rw [hl y]
    unfold Table.getMany
    by_cases h : pts = []
    · subst h; rfl
    · rw [batched_single pts (Nat.le_refl _) h]
      simp only [Table.getChunks]
      rw [hkeys pts _ (Nat.le_refl _), show t.noFilter.key = t.key from rfl]
      cases t.noFilter.getKeys env f0 db ob (pts.map t.key) pts.length false with
      | error e => rfl
      | ok vs => simp only; rw [hd]

/-- a call other than UnsafeUpdate (table.go:338-789, table_unsafe.go:113-203) -/
def WCall.notUnsafeUpdate : WCall T → Bool
  | .unsafeUpdate _ _ => false
  | _ => true

theorem run_cov {t : Table T F} (wf : t.WF) (fs : t.FilterSound) {env : Env T} (ok : env.OK t) {db : KV} {f : F} (hc : CovKV t f db)
    {c : WCall T} (hn : c.notUnsafeUpdate = true) : CovKV t (t.run env db f none c).filt (t.run env db f none c).db := by
  have hstep : CovStep t (t.start f) (t.body env db none (t.start f) c).1 := by
    cases c with
    | insert trs => exact forChunks_cov (V := db) (fun c s _ => insertLoop_cov wf fs ok _ _ _ (sortKeys_key t env c)) _ _ hc
    | update trs =>
      exact forChunks_cov (V := db) (fun c s hs => updateLoop_cov wf ok _ _ (sortKeys_key t env c) (covItems_chunk ok hs c)) _ _ hc
    | upsert oc trs => exact forChunks_cov (V := db) (fun c s _ => upsertLoop_cov wf fs ok _ _ _ _ (sortKeys_key t env c)) _ _ hc
    | delete trs => exact deleteLoop_cov wf ok trs _
    | unsafeInsert trs => exact forChunks_cov (V := db) (fun c s _ => unsafeInsertLoop_cov wf fs ok c s) _ _ hc
    | unsafeUpdate trs olds => simp [WCall.notUnsafeUpdate] at hn
  have hle : FiltLe t f (t.body env db none (t.start f) c).1.filt := hstep.le
  have hdb : CovKV t (t.body env db none (t.start f) c).1.filt db := fun fl hfl pk hg => hle fl hfl _ (hc fl hfl pk hg)
  have hops := hstep.ops (by intro fl hfl pk v hm; simp [Table.start] at hm)
  rw [Table.run_eq]
  split
  · exact hc
  · rw [finish_filt]
    by_cases he : (finish env db none (t.body env db none (t.start f) c)).err = none
    · have := (finish_ok he).2
      unfold WOut.view at this
      rw [finish_nobatch] at this
      rw [show (finish env db none (t.body env db none (t.start f) c)).db = db.apply (t.body env db none (t.start f) c).1.ops from this]
      exact covKV_apply _ hdb hops
    · rw [finish_err_db he]; exact hdb

end Bond
