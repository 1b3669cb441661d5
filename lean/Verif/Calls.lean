import Verif.UpdateLemmas
/-
The write calls of a table as one type, and facts that hold for all of them: they write only keys of their own
table, and the filter only grows.
-/
namespace Bond
open Spec
variable {T F : Type}

/-- table.go:49-87 the write methods of a table with their arguments -/
inductive WCall (T : Type)
  | insert (trs : List T)
  | update (trs : List T)
  | upsert (oc : Table.OnConflict T) (trs : List T)
  | delete (trs : List T)
  | unsafeInsert (trs : List T)
  | unsafeUpdate (trs oldTrs : List T)

/-- table.go:338, 452, 577, 637, table_unsafe.go:20, 113: run one write call -/
def Table.run (t : Table T F) (env : Env T) (db : KV) (f : F) (ob : Option Batch) : WCall T → WOut F
  | .insert trs => t.insert env db f ob trs
  | .update trs => t.update env db f ob trs
  | .upsert oc trs => t.upsert env db f ob oc trs
  | .delete trs => t.delete env db f ob trs
  | .unsafeInsert trs => t.unsafeInsert env db f ob trs
  | .unsafeUpdate trs olds => t.unsafeUpdate env db f ob trs olds

/-- what is read through the batch of the call (`db` itself without batch) (bond.go:242-281) -/
def baseView (db : KV) (ob : Option Batch) : KV :=
  match ob with
  | none => db
  | some b => db.apply b.ops

/-- what is read through the batch after the call (bond.go:242-281) -/
def WOut.view (out : WOut F) : KV := baseView out.db out.batch

/-- a write that touches only keys of table `t` (writes of table.go:338-789, table_unsafe.go:20-203) -/
def OwnOps (t : Table T F) (ops : List WOp) : Prop := ∀ o ∈ ops, ∀ k, o.touches k → ¬ Outside t k

theorem ownOps_index {t : Table T F} {g : Index T → List WOp} (hg : OpsIn t g) {ord : List (Index T)}
    (hp : ord.Perm t.indexes) : OwnOps t (ord.flatMap g) := by
  intro o ho k hk hout
  rw [List.mem_flatMap] at ho
  obtain ⟨idx, hi, ho⟩ := ho
  obtain ⟨k', hs, hu⟩ := hg idx o ho
  have := hu k hk; subst this
  exact hout.2 idx (hp.mem_iff.1 hi) hs

theorem ownOps_set {t : Table T F} {x : T} {b : Bytes} {l : List WOp} (h : OwnOps t l) :
    OwnOps t (.set (t.key x) b :: l) := by
  intro o ho k hk hout
  rcases List.mem_cons.1 ho with rfl | ho
  · simp only [WOp.touches] at hk; subst hk; exact hout.1 (inSpace_dataKey _ _)
  · exact h o ho k hk hout

theorem ownOps_del {t : Table T F} {x : T} {l : List WOp} (h : OwnOps t l) : OwnOps t (.del (t.key x) :: l) := by
  intro o ho k hk hout
  rcases List.mem_cons.1 ho with rfl | ho
  · simp only [WOp.touches] at hk; subst hk; exact hout.1 (inSpace_dataKey _ _)
  · exact h o ho k hk hout

theorem OwnOps.append {t : Table T F} {a b : List WOp} (ha : OwnOps t a) (hb : OwnOps t b) : OwnOps t (a ++ b) := by
  intro o ho
  rcases List.mem_append.1 ho with h | h
  · exact ha o h
  · exact hb o h

theorem OwnOps.sameOutside {t : Table T F} {a : List WOp} (h : OwnOps t a) (V : KV) : SameOutside t V (V.apply a) := by
  intro k hk
  exact get_apply_of_not_touch V a k (fun o ho ht => h o ho k ht hk)

/-- progress of any write loop (loops of table.go:338-789, table_unsafe.go:20-203) -/
structure Step (t : Table T F) (s s' : WSt T F) : Prop where
  ops : ∃ l, s'.ops = s.ops ++ l ∧ OwnOps t l
  keep : ∀ P : F → Prop, (∀ f k, P f → P (t.filterAdd f k)) → P s.filt → P s'.filt

theorem Step.refl (t : Table T F) (s : WSt T F) : Step t s s := ⟨⟨[], by simp, by intro o ho; simp at ho⟩, fun _ _ h => h⟩

theorem Step.of_eq {t : Table T F} {s s' : WSt T F} (h1 : s'.ops = s.ops) (h2 : s'.filt = s.filt) : Step t s s' :=
  ⟨⟨[], by simp [h1], by intro o ho; simp at ho⟩, fun _ _ h => by rw [h2]; exact h⟩

theorem Step.trans {t : Table T F} {a b c : WSt T F} (h1 : Step t a b) (h2 : Step t b c) : Step t a c := by
  obtain ⟨⟨l, hl, hl'⟩, f1⟩ := h1
  obtain ⟨⟨k, hk, hk'⟩, f2⟩ := h2
  exact ⟨⟨l ++ k, by rw [hk, hl, List.append_assoc], hl'.append hk'⟩, fun fs m h => f2 fs m (f1 fs m h)⟩

theorem filterCovers_mono {t : Table T F} (fs : t.FilterSound) {f : F} {m : Rows T} (h : FilterCovers t f m) (k : Bytes) :
    FilterCovers t (t.filterAdd f k) m := by
  intro fl hfl pk y hy
  unfold Table.filterAdd; rw [hfl]
  exact (fs fl hfl f k).2 _ (h fl hfl pk y hy)

theorem Step.filt {t : Table T F} {s s' : WSt T F} (h : Step t s s') (fs : t.FilterSound) (m : Rows T) (hc : FilterCovers t s.filt m) :
    FilterCovers t s'.filt m :=
  h.keep (fun f => FilterCovers t f m) (fun _ k hf => filterCovers_mono fs hf k) hc

theorem Step.mk' {t : Table T F} {s s' : WSt T F} {l : List WOp} (h1 : s'.ops = s.ops ++ l) (hl : OwnOps t l)
    (h2 : s'.filt = s.filt ∨ ∃ k, s'.filt = t.filterAdd s.filt k) : Step t s s' := by
  refine ⟨⟨l, h1, hl⟩, fun P hP h => ?_⟩
  rcases h2 with h2 | ⟨k, h2⟩ <;> rw [h2]
  · exact h
  · exact hP _ k h

theorem forChunks_step {t : Table T F} {α : Type} {f : List α → WSt T F → WSt T F × Option Err}
    (hf : ∀ c s, Step t s (f c s).1) (cs : List (List α)) (s : WSt T F) : Step t s (forChunks f cs s).1 := by
  induction cs generalizing s with
  | nil => exact Step.refl t s
  | cons c cs ih =>
    rw [forChunks]
    have := hf c s
    split
    · rename_i s' h; rw [h] at this; exact this.trans (ih s')
    · rename_i s' e h; rw [h] at this; exact this

theorem insertLoop_step {t : Table T F} {env : Env T} (ok : env.OK t) {entries : List (Bytes × Bytes)} {trs : List T}
    (items : List (Bytes × Nat)) : ∀ (prev : Option Bytes) (s : WSt T F), (∀ e ∈ items, ∀ x, trs[e.2]? = some x → e.1 = t.key x) →
    Step t s (t.insertLoop env entries trs prev items s).1 := by
  induction items with
  | nil => intro prev s _; exact Step.refl t s
  | cons e items ih =>
    intro prev s he
    obtain ⟨k, j⟩ := e
    rw [Table.insertLoop]
    split
    · exact Step.refl t s
    split
    · exact Step.refl t s
    split
    · exact Step.refl t s
    rename_i x hx
    have hk := he (k, j) (by simp) x hx
    simp only at hk; subst hk
    split
    · exact Step.refl t s
    refine Step.trans ?_ (ih _ _ (fun e h => he e (by simp [h])))
    exact Step.mk' rfl (ownOps_set (ownOps_index (onInsert_in t x) (ok.order s.clock))) (Or.inr ⟨_, rfl⟩)

theorem updateLoop_step {t : Table T F} {env : Env T} (ok : env.OK t) {entries : List (Bytes × Bytes)} {trs : List T}
    (items : List (Bytes × Nat)) : ∀ (s : WSt T F), (∀ e ∈ items, ∀ x, trs[e.2]? = some x → e.1 = t.key x) →
    Step t s (t.updateLoop env entries trs items s).1 := by
  induction items with
  | nil => intro s _; exact Step.refl t s
  | cons e items ih =>
    intro s he
    obtain ⟨k, j⟩ := e
    rw [Table.updateLoop]
    split
    · exact Step.refl t s
    split
    · exact Step.trans (Step.of_eq (s' := { s with clock := s.clock + 1 }) rfl rfl) (ih _ (fun e h => he e (by simp [h])))
    split
    · exact Step.refl t s
    split
    · exact Step.refl t s
    split
    · exact Step.refl t s
    rename_i x hx
    have hk := he (k, j) (by simp) x hx
    simp only at hk; subst hk
    split
    · exact Step.of_eq rfl rfl
    refine Step.trans ?_ (ih _ (fun e h => he e (by simp [h])))
    exact Step.mk' rfl (ownOps_set (ownOps_index (onUpdate_in t _ x) (ok.order s.clock))) (Or.inl rfl)

theorem upsertDup_suffix {oc : Table.OnConflict T} {trs : List T} {k : Bytes} (items : List (Bytes × Nat)) :
    ∀ (i : Nat) (a b : T) r, Table.upsertDup oc trs k items i a b = some r → ∀ e ∈ r.1, e ∈ items := by
  induction items with
  | nil => intro i a b r h; simp [Table.upsertDup] at h; subst h; simp
  | cons e items ih =>
    intro i a b r h
    obtain ⟨k', j'⟩ := e
    rw [Table.upsertDup] at h
    split at h
    · split at h
      · simp at h
      · intro e he; exact List.mem_cons.2 (Or.inr (ih _ _ _ _ h e he))
    · simp at h; subst h; intro e he; exact he

theorem upsertLoop_step {t : Table T F} {env : Env T} (ok : env.OK t) {oc : Table.OnConflict T}
    {entries : List (Bytes × Bytes)} {trs : List T} (fuel : Nat) : ∀ (i : Nat) (items : List (Bytes × Nat)) (s : WSt T F),
    (∀ e ∈ items, ∀ x, trs[e.2]? = some x → e.1 = t.key x) →
    Step t s (t.upsertLoop env oc entries trs fuel i items s).1 := by
  induction fuel with
  | zero => intro i items s _; exact Step.refl t s
  | succ fuel ih =>
    intro i items s he
    cases items with
    | nil => exact Step.refl t s
    | cons e items =>
      obtain ⟨k, j⟩ := e
      rw [Table.upsertLoop]
      split
      · exact Step.refl t s
      rename_i x hx
      have hk := he (k, j) (by simp) x hx
      simp only at hk; subst hk
      split
      · exact Step.refl t s
      simp only
      split
      · exact Step.refl t s
      rename_i found hfound
      split
      · exact Step.refl t s
      rename_i rest' i' tr' old' hdup
      split
      · exact Step.of_eq rfl rfl
      refine Step.trans ?_ (ih _ _ _ (fun e h => he e (List.mem_cons.2 (Or.inr (upsertDup_suffix _ _ _ _ _ hdup e h)))))
      cases found with
      | none => exact Step.mk' rfl (ownOps_set (ownOps_index (onInsert_in t tr') (ok.order s.clock))) (Or.inr ⟨_, rfl⟩)
      | some o => exact Step.mk' rfl (ownOps_set (ownOps_index (onUpdate_in t old' tr') (ok.order s.clock))) (Or.inl rfl)

theorem deleteLoop_step {t : Table T F} {env : Env T} (ok : env.OK t) (trs : List T) :
    ∀ (s : WSt T F), Step t s (t.deleteLoop env trs s).1 := by
  induction trs with
  | nil => intro s; exact Step.refl t s
  | cons x xs ih =>
    intro s
    rw [Table.deleteLoop]
    split
    · exact Step.refl t s
    refine Step.trans ?_ (ih _)
    exact Step.mk' rfl (ownOps_del (ownOps_index (onDelete_in t x) (ok.order s.clock))) (Or.inl rfl)

theorem unsafeInsertLoop_step {t : Table T F} {env : Env T} (ok : env.OK t) (trs : List T) :
    ∀ (s : WSt T F), Step t s (t.unsafeInsertLoop env trs s).1 := by
  induction trs with
  | nil => intro s; exact Step.refl t s
  | cons x xs ih =>
    intro s
    rw [Table.unsafeInsertLoop]
    split
    · exact Step.refl t s
    split
    · exact Step.refl t s
    refine Step.trans ?_ (ih _)
    exact Step.mk' rfl (ownOps_set (ownOps_index (onInsert_in t x) (ok.order s.clock))) (Or.inr ⟨_, rfl⟩)

theorem unsafeUpdateLoop_step {t : Table T F} {env : Env T} (ok : env.OK t) (ps : List (T × T)) :
    ∀ (s : WSt T F), Step t s (t.unsafeUpdateLoop env ps s).1 := by
  induction ps with
  | nil => intro s; exact Step.refl t s
  | cons p ps ih =>
    intro s
    obtain ⟨x, old⟩ := p
    rw [Table.unsafeUpdateLoop]
    split
    · exact Step.refl t s
    split
    · exact Step.refl t s
    refine Step.trans ?_ (ih _)
    exact Step.mk' rfl (ownOps_set (ownOps_index (onUpdate_in t old x) (ok.order s.clock))) (Or.inl rfl)

theorem sortKeys_key (t : Table T F) (env : Env T) (trs : List T) :
    ∀ e ∈ sortKeys env (trs.map t.key), ∀ x, trs[e.2]? = some x → e.1 = t.key x := by
  intro e he x hx
  unfold sortKeys at he
  obtain ⟨j, _, rfl⟩ := List.mem_map.1 he
  simp only at hx ⊢
  simp [List.getD, hx]

/-- the part of a write call before `finish` (table.go:338-789, table_unsafe.go:20-203 without the commit) -/
def Table.body (t : Table T F) (env : Env T) (db : KV) (ob : Option Batch) (s : WSt T F) : WCall T → WSt T F × Option Err
  | .insert trs => forChunks (t.insertChunk env db ob) (batched trs persistentBatchSize) s
  | .update trs => forChunks (t.updateChunk env db ob) (batched trs persistentBatchSize) s
  | .upsert oc trs => forChunks (t.upsertChunk env db ob oc) (batched trs persistentBatchSize) s
  | .delete trs => t.deleteLoop env trs s
  | .unsafeInsert trs => forChunks (t.unsafeInsertLoop env) (batched trs persistentBatchSize) s
  | .unsafeUpdate trs olds => t.unsafeUpdateLoop env (trs.zip olds) s

/-- state at the start of a write call (table.go:338-380 and likewise in the other calls) -/
def Table.start (t : Table T F) (f : F) : WSt T F := { ops := [], filt := f, clock := 0, oldTr := t.nil }

/-- UnsafeUpdate with slices of different lengths (table_unsafe.go:21-23) -/
def WCall.mismatch : WCall T → Bool
  | .unsafeUpdate trs olds => decide (trs.length ≠ olds.length)
  | _ => false

theorem Table.run_eq (t : Table T F) (env : Env T) (db : KV) (f : F) (ob : Option Batch) (c : WCall T) :
    t.run env db f ob c = if c.mismatch then { db := db, batch := ob, filt := f, err := some .sizeMismatch, commits := [] }
      else finish env db ob (t.body env db ob (t.start f) c) := by
  cases c <;> try rfl
  rename_i trs olds
  simp only [Table.run, Table.unsafeUpdate, WCall.mismatch, decide_eq_true_eq]
  rfl

theorem Table.body_step {t : Table T F} {env : Env T} (ok : env.OK t) (db : KV) (ob : Option Batch) (s : WSt T F)
    (c : WCall T) : Step t s (t.body env db ob s c).1 := by
  cases c with
  | insert trs => exact forChunks_step (fun c s => insertLoop_step ok _ _ _ (sortKeys_key t env c)) _ _
  | update trs => exact forChunks_step (fun c s => updateLoop_step ok _ _ (sortKeys_key t env c)) _ _
  | upsert oc trs => exact forChunks_step (fun c s => upsertLoop_step ok _ _ _ _ (sortKeys_key t env c)) _ _
  | delete trs => exact deleteLoop_step ok trs s
  | unsafeInsert trs => exact forChunks_step (fun c s => unsafeInsertLoop_step ok c s) _ _
  | unsafeUpdate trs olds => exact unsafeUpdateLoop_step ok _ s

theorem finish_filt (env : Env T) (db : KV) (ob : Option Batch) (r : WSt T F × Option Err) :
    (finish env db ob r).filt = r.1.filt := by
  unfold finish
  split
  · rfl
  split
  · rfl
  split
  · rfl
  split <;> rfl

theorem finish_ok {env : Env T} {db : KV} {ob : Option Batch} {r : WSt T F × Option Err}
    (h : (finish env db ob r).err = none) : r.2 = none ∧ (finish env db ob r).view = (baseView db ob).apply r.1.ops := by
  unfold finish at *
  cases ob with
  | some b => exact ⟨h, by simp [WOut.view, baseView, KV.apply_append]⟩
  | none =>
    simp only at h ⊢
    cases hr : r.2 with
    | some e => rw [hr] at h; simp at h
    | none =>
      rw [hr] at h
      simp only at h ⊢
      split
      · rename_i ho; simp [WOut.view, baseView, ho, KV.apply_nil]
      · rename_i ho; rw [if_neg ho] at h
        split
        · simp [WOut.view, baseView]
        · rename_i hc; rw [if_neg hc] at h; simp at h

theorem finish_complete {env : Env T} {db : KV} {ob : Option Batch} {r : WSt T F × Option Err} (hr : r.2 = none)
    (hc : env.commitOk = true) : (finish env db ob r).err = none := by
  unfold finish
  cases ob with
  | some b => exact hr
  | none => simp only [hr, hc, if_true]; split <;> rfl

theorem finish_nobatch {env : Env T} {db : KV} {r : WSt T F × Option Err} :
    (finish env db none r).batch = none := by
  unfold finish
  simp only
  split
  · rfl
  split
  · rfl
  split <;> rfl

theorem finish_err_db {env : Env T} {db : KV} {r : WSt T F × Option Err} (h : (finish env db none r).err ≠ none) :
    (finish env db none r).db = db := by
  unfold finish at *
  simp only at h ⊢
  split
  · rfl
  · rename_i hr
    rw [hr] at h
    simp only at h
    split
    · rfl
    · rename_i h2
      rw [if_neg h2] at h
      split
      · rename_i h3; rw [if_pos h3] at h; simp at h
      · rfl

/-- the reads of a call made with batch `ob` see what they have to -/
theorem readsOK_of {t : Table T F} {db : KV} {ob : Option Batch} {trs : List T} {bs : Nat} (hbs : 0 < bs)
    (h : (∃ b, ob = some b ∧ b.indexed = true) ∨
      (((trs.map t.pk).Nodup ∨ trs.length ≤ bs) ∧ ∀ x ∈ trs, db.get (t.key x) = (baseView db ob).get (t.key x))) :
    ReadsOK t db (baseView db ob) ob [] (batched trs bs) := by
  have hc : (∃ b, ob = some b ∧ b.indexed = true) ∨ (∀ ops, readView db ob ops = db) := by
    cases ob with
    | none => exact Or.inr (fun _ => rfl)
    | some b =>
      by_cases hb : b.indexed = true
      · exact Or.inl ⟨b, rfl, hb⟩
      · exact Or.inr (fun _ => by simp [readView, hb])
  rcases hc with ⟨b, rfl, hb⟩ | hv
  · left
    intro ops
    simp only [readView, hb, if_true, baseView, KV.apply_append]
  rcases h with ⟨b, rfl, hb⟩ | ⟨h1, h2⟩
  · left
    intro ops
    simp only [readView, hb, if_true, baseView, KV.apply_append]
  · right
    refine ⟨hv, ?_, ?_⟩
    · rcases h1 with h1 | h1
      · rw [← batched_flatten trs hbs] at h1
        revert h1
        generalize batched trs bs = cs
        intro h1
        induction cs with
        | nil => exact List.Pairwise.nil
        | cons c cs ih =>
          rw [List.flatten_cons, List.map_append, List.nodup_append] at h1
          rw [List.pairwise_cons]
          refine ⟨?_, ih h1.2.1⟩
          intro d hd x hx y hy
          exact h1.2.2 _ (List.mem_map.2 ⟨x, hx, rfl⟩) _ (List.mem_map.2 ⟨y, List.mem_flatten.2 ⟨d, hd, hy⟩, rfl⟩)
      · by_cases hn : trs = []
        · subst hn; rw [batched_nil]; exact List.Pairwise.nil
        · rw [batched_single trs h1 hn]; exact List.pairwise_singleton _ _
    · intro c hc x hx
      rw [KV.apply_nil]
      apply h2
      rw [← batched_flatten trs hbs]
      exact List.mem_flatten.2 ⟨c, hc, hx⟩

end Bond
