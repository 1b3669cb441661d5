import Verif.HistoryLemmas
/-
A table with a filter and the same table without filter do the same writes, as long as the filter covers what is stored.
-/
namespace Bond
open Spec
variable {T F : Type}

/-- the same table without filter -/
def Table.noFilter (t : Table T F) : Table T F := { t with filter := none }

/-- same progress, apart from the filter state -/
def SameSt (s s0 : WSt T F) : Prop := s.ops = s0.ops ∧ s.clock = s0.clock ∧ s.oldTr = s0.oldTr

/-- the filter does not deny a key of the list that the iterator finds -/
def CovItems (t : Table T F) (f : F) (entries : List (Bytes × Bytes)) (items : List (Bytes × Nat)) : Prop :=
  ∀ fl, t.filter = some fl → ∀ e ∈ items, (seekExact entries e.1).isSome = true → fl.may f e.1 = true

theorem CovItems.exist {t : Table T F} {f f0 : F} {entries : List (Bytes × Bytes)} {items : List (Bytes × Nat)}
    (h : CovItems t f entries items) {e : Bytes × Nat} (he : e ∈ items) :
    t.existIter f entries e.1 = t.noFilter.existIter f0 entries e.1 := by
  have h0 : t.noFilter.existIter f0 entries e.1 = seekExact entries e.1 := rfl
  rw [h0]
  unfold Table.existIter
  split
  · rename_i fl hfl
    split
    · rename_i hm
      cases hs : seekExact entries e.1 with
      | none => rfl
      | some v =>
        have := h fl hfl e he (by simp [hs])
        simp [this] at hm
    · rfl
  · rfl

theorem CovItems.add {t : Table T F} (fs : t.FilterSound) {f : F} {entries : List (Bytes × Bytes)} {items : List (Bytes × Nat)}
    (h : CovItems t f entries items) (k : Bytes) : CovItems t (t.filterAdd f k) entries items := by
  intro fl hfl e he hs
  unfold Table.filterAdd; rw [hfl]
  exact (fs fl hfl f k).2 _ (h fl hfl e he hs)

theorem CovItems.sub {t : Table T F} {f : F} {entries : List (Bytes × Bytes)} {items items' : List (Bytes × Nat)}
    (h : CovItems t f entries items) (hs : ∀ e ∈ items', e ∈ items) : CovItems t f entries items' :=
  fun fl hfl e he => h fl hfl e (hs e he)

theorem insertLoop_same {t : Table T F} (fs : t.FilterSound) {env : Env T} {entries : List (Bytes × Bytes)} {trs : List T}
    (items : List (Bytes × Nat)) : ∀ (prev : Option Bytes) (s s0 : WSt T F), CovItems t s.filt entries items → SameSt s s0 →
    (t.insertLoop env entries trs prev items s).2 = (t.noFilter.insertLoop env entries trs prev items s0).2 ∧
    SameSt (t.insertLoop env entries trs prev items s).1 (t.noFilter.insertLoop env entries trs prev items s0).1 := by
  induction items with
  | nil => intro prev s s0 _ hs; exact ⟨rfl, hs⟩
  | cons e items ih =>
    intro prev s s0 hc hs
    obtain ⟨k, j⟩ := e
    obtain ⟨h1, h2, h3⟩ := hs
    rw [Table.insertLoop, Table.insertLoop, h2, hc.exist (f0 := s0.filt) (List.mem_cons_self)]
    split
    · exact ⟨rfl, h1, h2, h3⟩
    split
    · exact ⟨rfl, h1, h2, h3⟩
    split
    · exact ⟨rfl, h1, h2, h3⟩
    rename_i tr _
    rw [show t.noFilter.ser tr = t.ser tr from rfl]
    split
    · exact ⟨rfl, h1, h2, h3⟩
    · apply ih
      · exact (hc.sub (fun e he => by simp [he])).add fs k
      · exact ⟨by simp only [h1]; rfl, rfl, h3⟩

theorem upsertLoop_same {t : Table T F} (fs : t.FilterSound) {env : Env T} {oc : Table.OnConflict T}
    {entries : List (Bytes × Bytes)} {trs : List T} (fuel : Nat) :
    ∀ (i : Nat) (items : List (Bytes × Nat)) (s s0 : WSt T F), CovItems t s.filt entries items → SameSt s s0 →
    (t.upsertLoop env oc entries trs fuel i items s).2 = (t.noFilter.upsertLoop env oc entries trs fuel i items s0).2 ∧
    SameSt (t.upsertLoop env oc entries trs fuel i items s).1 (t.noFilter.upsertLoop env oc entries trs fuel i items s0).1 := by
  induction fuel with
  | zero => intro i items s s0 _ hs; exact ⟨rfl, hs⟩
  | succ fuel ih =>
    intro i items s s0 hc hs
    cases items with
    | nil => exact ⟨rfl, hs⟩
    | cons e items =>
      obtain ⟨k, j⟩ := e
      obtain ⟨h1, h2, h3⟩ := hs
      rw [Table.upsertLoop, Table.upsertLoop, h2, h3, hc.exist (f0 := s0.filt) (List.mem_cons_self)]
      cases trs[j]? with
      | none => exact ⟨rfl, h1, h2, h3⟩
      | some tr =>
        simp only
        split
        · exact ⟨rfl, h1, h2, h3⟩
        have hd : t.noFilter.deser = t.deser := rfl
        have hser : t.noFilter.ser = t.ser := rfl
        rw [hd, hser]
        cases hex : t.noFilter.existIter s0.filt entries k with
        | none =>
          simp only
          cases hdup : Table.upsertDup oc trs k items i tr s0.oldTr with
          | none => exact ⟨rfl, h1, h2, h3⟩
          | some r =>
            obtain ⟨rest', i', tr', old'⟩ := r
            have hsub := upsertDup_suffix items i tr s0.oldTr _ hdup
            simp only
            cases t.ser tr' with
            | none => exact ⟨rfl, h1, rfl, rfl⟩
            | some data =>
              exact ih _ _ _ _ ((hc.sub (fun e he => by simp [hsub e he])).add fs k) ⟨by simp only [h1]; rfl, rfl, rfl⟩
        | some v =>
          simp only
          cases t.deser s0.oldTr v with
          | none => exact ⟨rfl, h1, h2, h3⟩
          | some old =>
            simp only [Option.map_some]
            cases hdup : Table.upsertDup oc trs k items i (oc old tr).1 (oc old tr).2 with
            | none => exact ⟨rfl, h1, h2, h3⟩
            | some r =>
              obtain ⟨rest', i', tr', old'⟩ := r
              have hsub := upsertDup_suffix items i (oc old tr).1 (oc old tr).2 _ hdup
              simp only
              cases t.ser tr' with
              | none => exact ⟨rfl, h1, rfl, rfl⟩
              | some data =>
                exact ih _ _ _ _ (hc.sub (fun e he => by simp [hsub e he])) ⟨by simp only [h1]; rfl, rfl, rfl⟩

theorem forChunks_same {σ α : Type} {f f0 : List α → σ → σ × Option Err} {R : σ → σ → Prop} {P : List (List α) → σ → Prop}
    (hf : ∀ c cs s s0, P (c :: cs) s → R s s0 → (f c s).2 = (f0 c s0).2 ∧ R (f c s).1 (f0 c s0).1 ∧
      ((f c s).2 = none → P cs (f c s).1)) :
    ∀ cs s s0, P cs s → R s s0 → (forChunks f cs s).2 = (forChunks f0 cs s0).2 ∧
      R (forChunks f cs s).1 (forChunks f0 cs s0).1 := by
  intro cs
  induction cs with
  | nil => intro s s0 _ hr; exact ⟨rfl, hr⟩
  | cons c cs ih =>
    intro s s0 hP hr
    obtain ⟨h1, h2, h3⟩ := hf c cs s s0 hP hr
    rw [forChunks, forChunks]
    cases h : f c s with
    | mk s' e =>
      cases h0 : f0 c s0 with
      | mk s0' e0 =>
        rw [h, h0] at h1 h2
        rw [h] at h3
        simp only at h1 h2 h3
        subst h1
        cases e with
        | none => exact ih s' s0' (h3 rfl) h2
        | some e => exact ⟨rfl, h2⟩

/-- same outcome, apart from the filter state -/
def SameOut (o o0 : WOut F) : Prop := o.db = o0.db ∧ o.batch = o0.batch ∧ o.err = o0.err ∧ o.commits = o0.commits

theorem finish_same {env : Env T} {db : KV} {ob : Option Batch} {r r0 : WSt T F × Option Err} (h : r.2 = r0.2)
    (hs : SameSt r.1 r0.1) : SameOut (finish env db ob r) (finish env db ob r0) := by
  unfold finish
  rw [h, hs.1]
  cases ob with
  | some b => exact ⟨rfl, rfl, rfl, rfl⟩
  | none =>
    simp only
    cases r0.2 with
    | some e => exact ⟨rfl, rfl, rfl, rfl⟩
    | none =>
      simp only
      split
      · exact ⟨rfl, rfl, rfl, rfl⟩
      · split <;> exact ⟨rfl, rfl, rfl, rfl⟩

/-- the filter does not deny a row key of the table found in `V` -/
def CovKV (t : Table T F) (f : F) (V : KV) : Prop :=
  ∀ fl, t.filter = some fl → ∀ pk, (V.get (dataKey t.id pk)).isSome = true → fl.may f (dataKey t.id pk) = true

theorem covKV_of_holds {t : Table T F} {f : F} {V : KV} {m : Rows T} (hH : Holds t V m) (hF : FilterCovers t f m) :
    CovKV t f V := by
  intro fl hfl pk hx
  cases hm : m pk with
  | none => rw [hH.absent _ hm] at hx; simp at hx
  | some y => exact hF fl hfl _ y hm

theorem CovKV.step {t : Table T F} (fs : t.FilterSound) {V : KV} {s s' : WSt T F} (h : Step t s s')
    (hc : CovKV t s.filt V) : CovKV t s'.filt V := by
  have := h.filt fs (fun pk => (V.get (dataKey t.id pk)).map (fun _ => t.nil)) (by
    intro fl hfl pk x hx
    apply hc fl hfl
    cases hg : V.get (dataKey t.id pk) with
    | none => simp [hg] at hx
    | some v => rfl)
  intro fl hfl pk hx
  refine this fl hfl pk t.nil ?_
  cases hg : V.get (dataKey t.id pk) with
  | none => rw [hg] at hx; simp at hx
  | some v => simp [hg]

theorem covItems_chunk {t : Table T F} {env : Env T} (ok : env.OK t) {f : F} {R : KV} (h : CovKV t f R) (trs : List T) :
    CovItems t f (R.scan (((sortKeys env (trs.map t.key)).map Prod.fst).headD []) t.dataKeySpaceEnd)
      (sortKeys env (trs.map t.key)) := by
  intro fl hfl e he hs
  have hmem : e.1 ∈ (sortKeys env (trs.map t.key)).map Prod.fst := List.mem_map.2 ⟨e, he, rfl⟩
  obtain ⟨hd, hp⟩ := describes_sort t env ok trs
  have hlo := sorted_headD (sortKeys_sorted t env ok (trs.map t.key)) _ hmem
  rw [hd.keys] at hmem
  obtain ⟨x, _, hx⟩ := List.mem_map.1 hmem
  rw [← hx] at hs hlo ⊢
  rw [seekExact_scan R hlo (dataKey_lt_end t _)] at hs
  exact h fl hfl _ hs

theorem insertChunk_same {t : Table T F} (fs : t.FilterSound) {env : Env T} (ok : env.OK t) {db : KV} {ob : Option Batch}
    {trs : List T} {s s0 : WSt T F} (hc : CovKV t s.filt (readView db ob s.ops)) (hs : SameSt s s0) :
    (t.insertChunk env db ob trs s).2 = (t.noFilter.insertChunk env db ob trs s0).2 ∧
    SameSt (t.insertChunk env db ob trs s).1 (t.noFilter.insertChunk env db ob trs s0).1 := by
  unfold Table.insertChunk
  rw [← hs.1]
  exact insertLoop_same fs _ _ _ _ (covItems_chunk ok hc trs) hs

theorem upsertChunk_same {t : Table T F} (fs : t.FilterSound) {env : Env T} (ok : env.OK t) {db : KV} {ob : Option Batch}
    {oc : Table.OnConflict T} {trs : List T} {s s0 : WSt T F} (hc : CovKV t s.filt (readView db ob s.ops)) (hs : SameSt s s0) :
    (t.upsertChunk env db ob oc trs s).2 = (t.noFilter.upsertChunk env db ob oc trs s0).2 ∧
    SameSt (t.upsertChunk env db ob oc trs s).1 (t.noFilter.upsertChunk env db ob oc trs s0).1 := by
  unfold Table.upsertChunk
  rw [← hs.1]
  exact upsertLoop_same fs _ _ _ _ _ (covItems_chunk ok hc trs) hs

theorem updateLoop_same {t : Table T F} {env : Env T} {entries : List (Bytes × Bytes)} {trs : List T}
    (items : List (Bytes × Nat)) : ∀ (s s0 : WSt T F), SameSt s s0 →
    (t.updateLoop env entries trs items s).2 = (t.noFilter.updateLoop env entries trs items s0).2 ∧
    SameSt (t.updateLoop env entries trs items s).1 (t.noFilter.updateLoop env entries trs items s0).1 := by
  induction items with
  | nil => intro s s0 hs; exact ⟨rfl, hs⟩
  | cons e items ih =>
    intro s s0 hs
    obtain ⟨k, j⟩ := e
    obtain ⟨h1, h2, h3⟩ := hs
    rw [Table.updateLoop, Table.updateLoop, h2, h3]
    split
    · exact ⟨rfl, h1, h2, h3⟩
    split
    · exact ih _ _ ⟨h1, rfl, rfl⟩
    split
    · exact ⟨rfl, h1, h2, h3⟩
    rename_i v _
    rw [show t.noFilter.deser = t.deser from rfl]
    split
    · exact ⟨rfl, h1, h2, h3⟩
    split
    · exact ⟨rfl, h1, h2, h3⟩
    rename_i tr _
    rw [show t.noFilter.ser tr = t.ser tr from rfl]
    split
    · exact ⟨rfl, h1, rfl, rfl⟩
    · exact ih _ _ ⟨by simp only [h1]; rfl, rfl, rfl⟩

theorem deleteLoop_same {t : Table T F} {env : Env T} (trs : List T) : ∀ (s s0 : WSt T F), SameSt s s0 →
    (t.deleteLoop env trs s).2 = (t.noFilter.deleteLoop env trs s0).2 ∧
    SameSt (t.deleteLoop env trs s).1 (t.noFilter.deleteLoop env trs s0).1 := by
  induction trs with
  | nil => intro s s0 hs; exact ⟨rfl, hs⟩
  | cons x xs ih =>
    intro s s0 hs
    obtain ⟨h1, h2, h3⟩ := hs
    rw [Table.deleteLoop, Table.deleteLoop, h2]
    split
    · exact ⟨rfl, h1, h2, h3⟩
    · exact ih _ _ ⟨by simp only [h1]; rfl, rfl, h3⟩

theorem unsafeInsertLoop_same {t : Table T F} {env : Env T} (trs : List T) : ∀ (s s0 : WSt T F), SameSt s s0 →
    (t.unsafeInsertLoop env trs s).2 = (t.noFilter.unsafeInsertLoop env trs s0).2 ∧
    SameSt (t.unsafeInsertLoop env trs s).1 (t.noFilter.unsafeInsertLoop env trs s0).1 := by
  induction trs with
  | nil => intro s s0 hs; exact ⟨rfl, hs⟩
  | cons x xs ih =>
    intro s s0 hs
    obtain ⟨h1, h2, h3⟩ := hs
    rw [Table.unsafeInsertLoop, Table.unsafeInsertLoop, h2, show t.noFilter.ser = t.ser from rfl]
    split
    · exact ⟨rfl, h1, h2, h3⟩
    split
    · exact ⟨rfl, h1, h2, h3⟩
    · exact ih _ _ ⟨by simp only [h1]; rfl, rfl, h3⟩

theorem unsafeUpdateLoop_same {t : Table T F} {env : Env T} (ps : List (T × T)) : ∀ (s s0 : WSt T F), SameSt s s0 →
    (t.unsafeUpdateLoop env ps s).2 = (t.noFilter.unsafeUpdateLoop env ps s0).2 ∧
    SameSt (t.unsafeUpdateLoop env ps s).1 (t.noFilter.unsafeUpdateLoop env ps s0).1 := by
  induction ps with
  | nil => intro s s0 hs; exact ⟨rfl, hs⟩
  | cons p ps ih =>
    intro s s0 hs
    obtain ⟨x, old⟩ := p
    obtain ⟨h1, h2, h3⟩ := hs
    rw [Table.unsafeUpdateLoop, Table.unsafeUpdateLoop, h2, show t.noFilter.ser = t.ser from rfl]
    split
    · exact ⟨rfl, h1, h2, h3⟩
    split
    · exact ⟨rfl, h1, h2, h3⟩
    · exact ih _ _ ⟨by simp only [h1]; rfl, rfl, h3⟩

theorem sameSt_start (t : Table T F) (f f0 : F) : SameSt (t.start f) (t.noFilter.start f0) := ⟨rfl, rfl, rfl⟩

/-- a call whose reads do not see its own writes (no batch, or a write-only batch) does the same without filter -/
theorem body_same {t : Table T F} (fs : t.FilterSound) {env : Env T} (ok : env.OK t) {db : KV} {ob : Option Batch}
    (hv : ∀ ops, readView db ob ops = db) {f : F} (f0 : F) (hc : CovKV t f db) (c : WCall T) :
    (t.body env db ob (t.start f) c).2 = (t.noFilter.body env db ob (t.noFilter.start f0) c).2 ∧
    SameSt (t.body env db ob (t.start f) c).1 (t.noFilter.body env db ob (t.noFilter.start f0) c).1 := by
  have h0 := sameSt_start t f f0
  cases c with
  | insert trs =>
    refine forChunks_same (P := fun _ s => CovKV t s.filt db) ?_ _ _ _ hc h0
    intro c cs s s0 hP hs
    obtain ⟨a, b⟩ := insertChunk_same (ob := ob) (trs := c) fs ok (s := s) (by rw [hv]; exact hP) hs
    exact ⟨a, b, fun _ => CovKV.step fs (insertLoop_step ok _ _ _ (sortKeys_key t env c)) hP⟩
  | update trs =>
    refine forChunks_same (P := fun _ _ => True) ?_ _ _ _ trivial h0
    intro c cs s s0 _ hs
    obtain ⟨a, b⟩ : (t.updateChunk env db ob c s).2 = (t.noFilter.updateChunk env db ob c s0).2 ∧
        SameSt (t.updateChunk env db ob c s).1 (t.noFilter.updateChunk env db ob c s0).1 := by
      unfold Table.updateChunk; rw [← hs.1]; exact updateLoop_same _ _ _ hs
    exact ⟨a, b, fun _ => trivial⟩
  | upsert oc trs =>
    refine forChunks_same (P := fun _ s => CovKV t s.filt db) ?_ _ _ _ hc h0
    intro c cs s s0 hP hs
    obtain ⟨a, b⟩ := upsertChunk_same (ob := ob) (trs := c) (oc := oc) fs ok (s := s) (by rw [hv]; exact hP) hs
    exact ⟨a, b, fun _ => CovKV.step fs (upsertLoop_step ok _ _ _ _ (sortKeys_key t env c)) hP⟩
  | delete trs => exact deleteLoop_same trs _ _ h0
  | unsafeInsert trs =>
    refine forChunks_same (P := fun _ _ => True) ?_ _ _ _ trivial h0
    intro c cs s s0 _ hs
    obtain ⟨a, b⟩ := unsafeInsertLoop_same c _ _ hs
    exact ⟨a, b, fun _ => trivial⟩
  | unsafeUpdate trs olds => exact unsafeUpdateLoop_same _ _ _ h0

theorem run_same {t : Table T F} (fs : t.FilterSound) {env : Env T} (ok : env.OK t) {db : KV} {ob : Option Batch}
    (hv : ∀ ops, readView db ob ops = db) {f : F} (f0 : F) (hc : CovKV t f db) (c : WCall T) :
    SameOut (t.run env db f ob c) (t.noFilter.run env db f0 ob c) := by
  rw [Table.run_eq, Table.run_eq]
  split
  · exact ⟨rfl, rfl, rfl, rfl⟩
  · obtain ⟨a, b⟩ := body_same fs ok hv f0 hc c
    exact finish_same a b

/-- the same through a read-write batch, for good calls -/
theorem run_same_rw {t : Table T F} (wf : t.WF) (rt : t.RoundTrip) (fs : t.FilterSound) {env : Env T} (ok : env.OK t) {db : KV}
    {b : Batch} (hb : b.indexed = true) {f : F} (f0 : F) {m : Rows T} (hH : Holds t (db.apply b.ops) m)
    (hF : FilterCovers t f m) {c : WCall T} (hg : GoodCall t (db.apply b.ops) c) :
    SameOut (t.run env db f (some b) c) (t.noFilter.run env db f0 (some b) c) := by
  rw [Table.run_eq, Table.run_eq]
  split
  · exact ⟨rfl, rfl, rfl, rfl⟩
  have h0 := sameSt_start t f f0
  have hv : ∀ ops, readView db (some b) ops = (db.apply b.ops).apply ops := by
    intro ops; simp [readView, hb, KV.apply_append]
  suffices h : (t.body env db (some b) (t.start f) c).2 = (t.noFilter.body env db (some b) (t.noFilter.start f0) c).2 ∧
      SameSt (t.body env db (some b) (t.start f) c).1 (t.noFilter.body env db (some b) (t.noFilter.start f0) c).1 from
    finish_same h.1 h.2
  cases c with
  | insert trs =>
    refine forChunks_same (P := fun (_ : List (List T)) (s : WSt T F) => ∃ m, Holds t ((db.apply b.ops).apply s.ops) m ∧ FilterCovers t s.filt m) ?_ _ _ _
      ⟨m, hH, hF⟩ h0
    rintro c cs s s0 ⟨m, h1, h2⟩ hs
    obtain ⟨x, y⟩ := insertChunk_same (db := db) (ob := some b) (trs := c) fs ok (s := s) (by rw [hv]; exact covKV_of_holds h1 h2) hs
    refine ⟨x, y, fun he => ?_⟩
    have he' : t.insertChunk env db (some b) c s = ((t.insertChunk env db (some b) c s).1, none) := by rw [← he]
    obtain ⟨a, _, c, _⟩ := insertChunk_ok wf ok fs (fun r _ => by rw [hv]) h1 h2 he'
    exact ⟨_, a, c⟩
  | update trs =>
    refine forChunks_same (P := fun _ _ => True) ?_ _ _ _ trivial h0
    intro c cs s s0 _ hs
    obtain ⟨a, b⟩ : (t.updateChunk env db (some b) c s).2 = (t.noFilter.updateChunk env db (some b) c s0).2 ∧
        SameSt (t.updateChunk env db (some b) c s).1 (t.noFilter.updateChunk env db (some b) c s0).1 := by
      unfold Table.updateChunk; rw [← hs.1]; exact updateLoop_same _ _ _ hs
    exact ⟨a, b, fun _ => trivial⟩
  | upsert oc trs =>
    refine forChunks_same (P := fun (cs : List (List T)) (s : WSt T F) => (cs.flatten.map t.pk).Nodup ∧
      ∃ m, Holds t ((db.apply b.ops).apply s.ops) m ∧ FilterCovers t s.filt m) ?_ _ _ _
      (show _ ∧ _ from ⟨by rw [batched_flatten trs (by decide)]; exact hg.1, m, hH, hF⟩) h0
    rintro c cs s s0 ⟨hn, m, h1, h2⟩ hs
    obtain ⟨x, y⟩ := upsertChunk_same (db := db) (ob := some b) (trs := c) (oc := oc) fs ok (s := s)
      (by rw [hv]; exact covKV_of_holds h1 h2) hs
    rw [List.flatten_cons, List.map_append, List.nodup_append] at hn
    refine ⟨x, y, fun he => ⟨hn.2.1, ?_⟩⟩
    have he' : forChunks (t.upsertChunk env db (some b) oc) [c] s = ((t.upsertChunk env db (some b) oc c s).1, none) := by
      rw [forChunks]
      cases hr : t.upsertChunk env db (some b) oc c s with
      | mk s' e => rw [hr] at he; simp only at he; subst he; rfl
    obtain ⟨a, _, c⟩ := upsertChunks_ok (base := db.apply b.ops) wf ok rt fs hg.2 (cs := [c]) (by simpa using hn.1)
      (Or.inl hv) h1 h2 he'
    exact ⟨_, a, c⟩
  | delete trs => exact deleteLoop_same trs _ _ h0
  | unsafeInsert trs =>
    refine forChunks_same (P := fun _ _ => True) ?_ _ _ _ trivial h0
    intro c cs s s0 _ hs
    obtain ⟨a, b⟩ := unsafeInsertLoop_same c _ _ hs
    exact ⟨a, b, fun _ => trivial⟩
  | unsafeUpdate trs olds => exact unsafeUpdateLoop_same _ _ _ h0

end Bond
