import Verif.UpsertSorted
import Verif.BatchLocal
import Verif.ReadLemmas
/-
The data entries alone: what the write calls do to them, whatever happens to the index entries.
-/
namespace Bond
open Spec
variable {T F : Type}

theorem DataHolds.congr {t : Table T F} {V W : KV} {m : Rows T} (h : DataHolds t V m)
    (he : ∀ pk, W.get (dataKey t.id pk) = V.get (dataKey t.id pk)) : DataHolds t W m :=
  ⟨h.row_pk, fun pk hn => by rw [he]; exact h.absent pk hn, fun pk x hx => by rw [he]; exact h.present pk x hx⟩

/-- appending the writes for one row -/
theorem DataHolds.put' {t : Table T F} (wf : t.WF) {base : KV} {ops : List WOp} {m : Rows T} (h : DataHolds t (base.apply ops) m) {x : T}
    {b : Bytes} (hb : t.ser x = some b) {g : Index T → List WOp} (hg : OpsIn t g) {ord : List (Index T)} (hp : ord.Perm t.indexes) :
    DataHolds t (base.apply (ops ++ .set (t.key x) b :: ord.flatMap g)) (m.put (t.pk x) x) := by
  rw [KV.apply_append]; exact (h.put wf hb hg hp).1

theorem insertLoop_points {t : Table T F} (wf : t.WF) {env : Env T} (ok : env.OK t) {base : KV} {entries : List (Bytes × Bytes)}
    {trs : List T} {items : List (Bytes × Nat)} {rs : List T} (hd : Describes t trs items rs) :
    ∀ {prev : Option Bytes} {s s' : WSt T F} {m : Rows T},
    (rs.map t.key).Pairwise (fun a b => ble a b = true) →
    (∀ p, prev = some p → ∀ r ∈ rs, ble p (t.key r) = true) →
    DataHolds t (base.apply s.ops) m →
    t.insertLoop env entries trs prev items s = (s', none) →
    DataHolds t (base.apply s'.ops) (m.putAll t.pk rs) ∧ (rs.map t.pk).Nodup ∧ (∀ r ∈ rs, some (t.key r) ≠ prev) := by
  induction hd with
  | nil =>
    intro prev s s' m _ _ hH he
    simp only [Table.insertLoop, Prod.mk.injEq, and_true] at he
    subst he
    exact ⟨hH, by simp, by simp⟩
  | @cons e r items rs hr hd ih =>
    intro prev s s' m hsort hprev hH he
    obtain ⟨key, j⟩ := e
    obtain ⟨hj, hk⟩ := hr
    simp only at hj hk
    rw [Table.insertLoop] at he
    split at he
    · simp at he
    split at he
    · simp at he
    rename_i hnd
    rw [not_or] at hnd
    obtain ⟨hpk, _⟩ := hnd
    rw [hj] at he
    simp only at he
    split at he
    · simp at he
    rename_i data hdata
    subst hk
    simp only [List.map_cons, List.pairwise_cons, List.mem_map, forall_exists_index, and_imp,
      forall_apply_eq_imp_iff₂] at hsort
    obtain ⟨a, d, f⟩ := ih (prev := some (t.key r)) (m := m.put (t.pk r) r) hsort.2
      (by rintro p ⟨⟩ y hy; exact hsort.1 y hy) (hH.put' wf hdata (onInsert_in t r) (ok.order s.clock)) he
    have hpks : ∀ y ∈ rs, t.pk y ≠ t.pk r := fun y hy e => f y hy (by rw [key_inj.2 e])
    refine ⟨a, ?_, ?_⟩
    · rw [List.map_cons, List.nodup_cons]
      refine ⟨?_, d⟩
      rw [List.mem_map]; rintro ⟨y, hy, e⟩; exact hpks y hy e
    · intro y hy
      rcases List.mem_cons.1 hy with rfl | hy
      · exact fun e => hpk e.symm
      · cases hp : prev with
        | none => simp
        | some p =>
          intro e
          simp only [Option.some.injEq] at e
          have h1 := hprev p hp r (by simp)
          exact sorted_tail_ne h1 (fun e' => hpk (by rw [hp, e'])) (hsort.1 y hy) e

theorem updateLoop_points {t : Table T F} (wf : t.WF) {env : Env T} (ok : env.OK t) {base : KV} {entries : List (Bytes × Bytes)}
    {trs : List T} {items : List (Bytes × Nat)} {rs : List T} (hd : Describes t trs items rs) :
    ∀ {s s' : WSt T F} {m : Rows T}, DataHolds t (base.apply s.ops) m →
    t.updateLoop env entries trs items s = (s', none) → DataHolds t (base.apply s'.ops) (m.putAll t.pk rs) := by
  induction hd with
  | nil =>
    intro s s' m hH he
    simp only [Table.updateLoop, Prod.mk.injEq, and_true] at he
    subst he
    exact hH
  | @cons e r items rs hr hd ih =>
    intro s s' m hH he
    obtain ⟨key, j⟩ := e
    obtain ⟨hj, hk⟩ := hr
    simp only at hj hk
    rw [Table.updateLoop] at he
    split at he
    · simp at he
    split at he
    · rename_i hdup
      have hih := ih (s := { s with clock := s.clock + 1 }) (m := m) hH he
      cases hd with
      | nil => simp at hdup
      | @cons e2 r2 items2 rs2 hr2 hd2 =>
        simp only [List.head?_cons, Option.map_some, Option.some.injEq] at hdup
        have hpk : t.pk r2 = t.pk r := key_inj.1 (by rw [← hr2.2, hdup, hk])
        have hput : m.putAll t.pk (r :: r2 :: rs2) = m.putAll t.pk (r2 :: rs2) := by
          rw [putAll_cons, putAll_cons, putAll_cons, hpk, put_put]
        rw [hput]
        exact hih
    · subst hk
      split at he
      · simp at he
      · split at he
        · simp at he
        · rename_i old _
          rw [hj] at he
          simp only at he
          split at he
          · simp at he
          · rename_i data hdata
            exact ih (s := ⟨_, s.filt, _, old⟩) (m := m.put (t.pk r) r)
              (hH.put' wf hdata (onUpdate_in t old r) (ok.order s.clock)) he

theorem unsafeInsertLoop_points {t : Table T F} (wf : t.WF) {env : Env T} (ok : env.OK t) {base : KV} (trs : List T) :
    ∀ {s s' : WSt T F} {m : Rows T}, DataHolds t (base.apply s.ops) m →
    t.unsafeInsertLoop env trs s = (s', none) → DataHolds t (base.apply s'.ops) (m.putAll t.pk trs) := by
  induction trs with
  | nil =>
    intro s s' m hH he
    simp only [Table.unsafeInsertLoop, Prod.mk.injEq, and_true] at he
    subst he
    exact hH
  | cons x xs ih =>
    intro s s' m hH he
    rw [Table.unsafeInsertLoop] at he
    split at he
    · simp at he
    split at he
    · simp at he
    rename_i data hdata
    exact ih (m := m.put (t.pk x) x) (hH.put' wf hdata (onInsert_in t x) (ok.order s.clock)) he

theorem unsafeUpdateLoop_points {t : Table T F} (wf : t.WF) {env : Env T} (ok : env.OK t) {base : KV} (ps : List (T × T)) :
    ∀ {s s' : WSt T F} {m : Rows T}, DataHolds t (base.apply s.ops) m →
    t.unsafeUpdateLoop env ps s = (s', none) → DataHolds t (base.apply s'.ops) (m.putAll t.pk (ps.map Prod.fst)) := by
  induction ps with
  | nil =>
    intro s s' m hH he
    simp only [Table.unsafeUpdateLoop, Prod.mk.injEq, and_true] at he
    subst he
    exact hH
  | cons p ps ih =>
    obtain ⟨x, old⟩ := p
    intro s s' m hH he
    rw [Table.unsafeUpdateLoop] at he
    split at he
    · simp at he
    split at he
    · simp at he
    rename_i data hdata
    exact ih (s := { s with ops := _, clock := _ }) (m := m.put (t.pk x) x) (hH.put' wf hdata (onUpdate_in t old x) (ok.order s.clock)) he

theorem DataHolds.erase {t : Table T F} {V W : KV} {m : Rows T} (h : DataHolds t V m) (ps : List Bytes)
    (he : ∀ pk, W.get (dataKey t.id pk) = if pk ∈ ps then none else V.get (dataKey t.id pk)) : DataHolds t W (m.eraseAll ps) := by
  refine ⟨?_, ?_, ?_⟩
  · intro pk x hx
    rw [eraseAll_apply] at hx
    split at hx
    · cases hx
    · exact h.row_pk pk x hx
  · intro pk hn
    rw [eraseAll_apply] at hn
    rw [he]
    split at hn
    · rename_i hp; rw [if_pos hp]
    · rename_i hp; rw [if_neg hp]; exact h.absent pk hn
  · intro pk x hx
    rw [eraseAll_apply] at hx
    rw [he]
    split at hx
    · cases hx
    · rename_i hp; rw [if_neg hp]; exact h.present pk x hx

theorem DataHolds.covers {t : Table T F} {f : F} {V : KV} {m : Rows T} (h : DataHolds t V m) (hc : CovKV t f V) : FilterCovers t f m := by
  intro fl hfl pk x hx
  obtain ⟨b, _, hg⟩ := h.present pk x hx
  exact hc fl hfl pk (by rw [hg]; rfl)

theorem DataHolds.get_eq {t : Table T F} {V W : KV} {m m' : Rows T} (h : DataHolds t V m) (h' : DataHolds t W m') {p : Bytes}
    (he : m p = m' p) : V.get (dataKey t.id p) = W.get (dataKey t.id p) := by
  cases hm : m p with
  | none => rw [h.absent _ hm, h'.absent _ (by rw [← he, hm])]
  | some x =>
    obtain ⟨b, hb, hg⟩ := h.present _ _ hm
    obtain ⟨b', hb', hg'⟩ := h'.present _ _ (by rw [← he, hm])
    rw [hb] at hb'
    cases hb'
    rw [hg, hg']

theorem upsertLoop_points {t : Table T F} (wf : t.WF) {env : Env T} (ok : env.OK t) (rt : t.RoundTrip) (fs : t.FilterSound)
    {oc : Table.OnConflict T} (hoc : ∀ o x, t.pk o = t.pk x → t.pk (oc o x).1 = t.pk x)
    {base R : KV} {lo : Bytes} {trs : List T} {items : List (Bytes × Nat)} {rs : List T}
    (hd : Describes t trs items rs) :
    ∀ {fuel i : Nat} {s s' : WSt T F} {m : Rows T}, items.length ≤ fuel →
    (rs.map t.pk).Nodup →
    (∀ r ∈ rs, ble lo (t.key r) = true) →
    (∀ r ∈ rs, R.get (t.key r) = (base.apply s.ops).get (t.key r)) →
    DataHolds t (base.apply s.ops) m → FilterCovers t s.filt m →
    t.upsertLoop env oc (R.scan lo t.dataKeySpaceEnd) trs fuel i items s = (s', none) →
    DataHolds t (base.apply s'.ops) (m.upsertAll t.pk (fun o x => (oc o x).1) rs) ∧
    FilterCovers t s'.filt (m.upsertAll t.pk (fun o x => (oc o x).1) rs) := by
  induction hd with
  | nil =>
    intro fuel i s s' m _ _ _ _ hH hF he
    cases fuel <;> simp only [Table.upsertLoop, Prod.mk.injEq, and_true] at he <;> subst he <;> exact ⟨hH, hF⟩
  | @cons e r items rs hr hd ih =>
    intro fuel i s s' m hfuel hnd hlo hag hH hF he
    obtain ⟨key, j⟩ := e
    obtain ⟨hj, hk⟩ := hr
    simp only at hj hk
    subst hk
    cases fuel with
    | zero => simp at hfuel
    | succ fuel =>
    have hfuel' : items.length ≤ fuel := by simpa using hfuel
    simp only [List.map_cons, List.nodup_cons] at hnd
    have hne : ∀ y ∈ rs, t.pk y ≠ t.pk r := fun y hy e => hnd.1 (e ▸ List.mem_map.2 ⟨y, hy, rfl⟩)
    have hdup := fun (a b : T) => upsertDup_nil (oc := oc) hd (k := t.key r)
      (fun y hy e => hne y hy (key_inj.1 e)) i a b
    have hseek := seekExact_scan R (hlo r (by simp)) (dataKey_lt_end t (t.pk r))
    have hex : t.existIter s.filt (R.scan lo t.dataKeySpaceEnd) (t.key r) = (base.apply s.ops).get (t.key r) :=
      hH.existIter hF (hseek.trans (hag r (by simp)))
    rw [Table.upsertLoop, hj] at he
    simp only [hex] at he
    split at he
    · simp at he
    have hcons : m.upsertAll t.pk (fun o x => (oc o x).1) (r :: rs) =
      (m.upsert t.pk (fun o x => (oc o x).1) r).upsertAll t.pk (fun o x => (oc o x).1) rs := rfl
    rw [hcons]
    cases hm : m (t.pk r) with
    | none =>
      rw [show t.key r = dataKey t.id (t.pk r) from rfl, hH.absent _ hm] at he
      simp only at he
      rw [show dataKey t.id (t.pk r) = t.key r from rfl, hdup] at he
      simp only at he
      split at he
      · simp at he
      rename_i data hdata
      have h1 := hH.put' wf hdata (onInsert_in t r) (ok.order s.clock)
      have hu : m.upsert t.pk (fun o x => (oc o x).1) r = m.put (t.pk r) r := by simp [Rows.upsert, hm]
      rw [hu]
      exact ih hfuel' hnd.2 (fun y hy => hlo y (by simp [hy])) (fun y hy => by
        rw [hag y (by simp [hy])]
        exact hH.get_eq h1 (p := t.pk y) (by rw [put_apply, if_neg (hne y hy)])) h1 (filterCovers_add fs hF r) he
    | some old =>
      obtain ⟨b, hb1, hb2⟩ := hH.present _ _ hm
      rw [show t.key r = dataKey t.id (t.pk r) from rfl, hb2] at he
      simp only [rt old b hb1, Option.map_some] at he
      rw [show dataKey t.id (t.pk r) = t.key r from rfl, hdup] at he
      simp only at he
      split at he
      · simp at he
      rename_i data hdata
      have hpko : t.pk (oc old r).1 = t.pk r := hoc old r (hH.row_pk _ _ hm)
      have h1 := hH.put' wf hdata (onUpdate_in t (oc old r).2 (oc old r).1) (ok.order s.clock)
      rw [hpko, key_inj.2 hpko] at h1
      have hu : m.upsert t.pk (fun o x => (oc o x).1) r = m.put (t.pk r) (oc old r).1 := by simp [Rows.upsert, hm]
      rw [hu]
      exact ih (s := ⟨_, s.filt, _, _⟩) hfuel' hnd.2 (fun y hy => hlo y (by simp [hy])) (fun y hy => by
        rw [hag y (by simp [hy])]
        exact hH.get_eq h1 (p := t.pk y) (by rw [put_apply, if_neg (hne y hy)])) h1 (filterCovers_put hF hm) he

/-- calls (table.go:316-947) that treat the data entries as specified: almost all -/
def PointCall (t : Table T F) (env : Env T) (V : KV) : WCall T → Prop
  | .insert _ => True
  | .update trs => (trs.map t.pk).Nodup ∨ env.Stable
  | .upsert oc trs => (trs.map t.pk).Nodup ∧ ∀ o x, t.pk o = t.pk x → t.pk (oc o x).1 = t.pk x
  | .delete _ => True
  | .unsafeInsert _ => True
  | .unsafeUpdate trs _ => t.filter.isSome = true → ∀ x ∈ trs, (V.get (t.key x)).isSome = true

theorem chunks_points {t : Table T F} {base : KV} {g : List T → WSt T F → WSt T F × Option Err} {r : List T → List T}
    (hg : ∀ c s s' m, DataHolds t (base.apply s.ops) m → g c s = (s', none) → DataHolds t (base.apply s'.ops) (m.putAll t.pk (r c)))
    (cs : List (List T)) : ∀ {s s' : WSt T F} {m : Rows T}, DataHolds t (base.apply s.ops) m → forChunks g cs s = (s', none) →
    DataHolds t (base.apply s'.ops) (m.putAll t.pk (cs.flatMap r)) := by
  induction cs with
  | nil =>
    intro s s' m hH he
    simp only [forChunks, Prod.mk.injEq, and_true] at he
    subst he; exact hH
  | cons c cs ih =>
    intro s s' m hH he
    rw [forChunks] at he
    split at he
    · rename_i s1 h1
      rw [List.flatMap_cons, putAll_append]
      exact ih (hg c s s1 m hH h1) he
    · simp at he

theorem upsertChunks_points {t : Table T F} (wf : t.WF) {env : Env T} (ok : env.OK t) (rt : t.RoundTrip) (fs : t.FilterSound)
    {oc : Table.OnConflict T} (hoc : ∀ o x, t.pk o = t.pk x → t.pk (oc o x).1 = t.pk x) {db : KV} (cs : List (List T)) :
    ∀ {s s' : WSt T F} {m : Rows T}, (cs.flatten.map t.pk).Nodup →
    (∀ r ∈ cs.flatten, db.get (t.key r) = (db.apply s.ops).get (t.key r)) → DataHolds t (db.apply s.ops) m → FilterCovers t s.filt m →
    forChunks (t.upsertChunk env db none oc) cs s = (s', none) →
    DataHolds t (db.apply s'.ops) (m.upsertAll t.pk (fun o x => (oc o x).1) cs.flatten) := by
  induction cs with
  | nil =>
    intro s s' m _ _ hH _ he
    simp only [forChunks, Prod.mk.injEq, and_true] at he
    subst he; exact hH
  | cons c cs ih =>
    intro s s' m hnd hr hH hF he
    rw [forChunks] at he
    rw [List.flatten_cons, List.map_append, List.nodup_append] at hnd
    split at he
    · rename_i s1 h1
      obtain ⟨hd, hp⟩ := describes_sort t env ok c
      have hndc := (hp.map t.pk).nodup_iff.2 hnd.1
      obtain ⟨a, cc⟩ := upsertLoop_points (base := db) (R := db) wf ok rt fs hoc hd (Nat.le_refl _) hndc (sortedRows_lo t ok c)
        (fun r hr' => hr r (by rw [List.flatten_cons]; exact List.mem_append.2 (Or.inl (hp.mem_iff.1 hr')))) hH hF h1
      rw [upsertAll_perm m _ _ hp hndc] at a cc
      rw [List.flatten_cons, upsertAll_append]
      refine ih hnd.2.1 (fun r hr' => ?_) a cc he
      rw [hr r (by rw [List.flatten_cons]; exact List.mem_append.2 (Or.inr hr'))]
      refine hH.get_eq a (p := t.pk r) ?_
      rw [upsertAll_other]
      intro x hx e
      exact hnd.2.2 _ (List.mem_map.2 ⟨x, hx, rfl⟩) _ (List.mem_map.2 ⟨r, hr', rfl⟩) e
    · simp at he

theorem flatMap_id' {α : Type} (cs : List (List α)) : cs.flatMap (fun c => c) = cs.flatten := by
  induction cs with
  | nil => rfl
  | cons c cs ih => rw [List.flatMap_cons, List.flatten_cons, ih]

/-- A successful call without batch has its specified effect on the data entries, and the filter covers them. -/
theorem run_points {t : Table T F} (wf : t.WF) (rt : t.RoundTrip) (fs : t.FilterSound) {env : Env T} (ok : env.OK t)
    {db : KV} {f : F} {m : Rows T} {c : WCall T} (hD : DataHolds t db m) (hC : CovKV t f db) (hc : PointCall t env db c)
    (he : (t.run env db f none c).err = none) :
    DataHolds t (t.run env db f none c).db (effect t.pk m c) ∧ CovKV t (t.run env db f none c).filt (t.run env db f none c).db := by
  rw [Table.run_eq] at he ⊢
  by_cases hmm : c.mismatch = true
  · simp [hmm] at he
  simp only [hmm, Bool.false_eq_true, if_false] at he ⊢
  have hb : (t.body env db none (t.start f) c).2 = none := by
    unfold finish at he
    cases hx : (t.body env db none (t.start f) c).2 with
    | none => rfl
    | some e => simp [hx] at he
  have hstep := body_covStep wf fs ok (f := f) (db := db) (ob := none) (c := c) (fun s hs _ => hC.mono hs) (by
    rintro trs olds rfl p hp fl hfl
    exact hC fl hfl _ (hc (by rw [hfl]; rfl) p.1 (List.of_mem_zip hp).1))
  have hbody : t.body env db none (t.start f) c = ((t.body env db none (t.start f) c).1, none) := by rw [← hb]
  generalize hs' : (t.body env db none (t.start f) c).1 = s' at hbody hstep
  have hD0 : DataHolds t (db.apply (t.start f).ops) m := hD
  have hdata : DataHolds t (db.apply s'.ops) (effect t.pk m c) := by
    cases c with
    | insert trs =>
      have := chunks_points (t := t) (base := db) (r := fun c => c) (g := t.insertChunk env db none) (fun c s s1 m1 hH h1 => by
        obtain ⟨hd, hp⟩ := describes_sort t env ok c
        obtain ⟨a, d, _⟩ := insertLoop_points (base := db) wf ok hd (prev := none) (sortedRows_sorted t ok c) (by simp) hH h1
        rw [putAll_perm t.pk hp d] at a
        exact a) _ hD0 hbody
      rw [flatMap_id', batched_flatten _ (by decide)] at this
      exact this
    | update trs =>
      have := chunks_points (t := t) (base := db) (r := sortedRows t env) (g := t.updateChunk env db none) (fun c s s1 m1 hH h1 =>
        updateLoop_points (base := db) wf ok (describes_sort t env ok c).1 hH h1) _ hD0 hbody
      have he : m.putAll t.pk (visited t env (batched trs persistentBatchSize)) = m.putAll t.pk trs := by
        rcases hc with h | h
        · exact putAll_visited_nodup ok (by decide) m h
        · exact putAll_visited_stable ok h (by decide) m trs
      rw [visited] at he
      rw [he] at this
      exact this
    | upsert oc trs =>
      have hfl : (batched trs persistentBatchSize).flatten = trs := batched_flatten _ (by decide)
      have := upsertChunks_points wf ok rt fs hc.2 (batched trs persistentBatchSize) (s := t.start f) (m := m)
        (by rw [hfl]; exact hc.1) (fun r _ => rfl) hD0 (hD.covers hC) hbody
      rw [hfl] at this
      exact this
    | delete trs =>
      exact hD.erase _ (fun pk => by
        have := deleteLoop_data wf ok (base := db) hbody pk
        exact this)
    | unsafeInsert trs =>
      have := chunks_points (t := t) (base := db) (r := fun c => c) (g := t.unsafeInsertLoop env) (fun c s s1 m1 hH h1 =>
        unsafeInsertLoop_points wf ok c hH h1) _ hD0 hbody
      rw [flatMap_id', batched_flatten _ (by decide)] at this
      exact this
    | unsafeUpdate trs olds =>
      have := unsafeUpdateLoop_points wf ok (base := db) (trs.zip olds) hD0 hbody
      have hl : trs.length = olds.length := by
        simpa [WCall.mismatch] using hmm
      rw [List.map_fst_zip (by omega)] at this
      exact this
  have hcov : CovKV t s'.filt (db.apply s'.ops) :=
    covKV_apply _ (hC.mono hstep.le) (hstep.ops (by intro fl hfl pk v hm; simp [Table.start] at hm))
  rw [hbody] at he ⊢
  unfold finish at he ⊢
  simp only at he ⊢
  by_cases ho : s'.ops = []
  · rw [if_pos ho]
    rw [ho] at hdata hcov
    exact ⟨hdata, hcov⟩
  · simp only [if_neg ho] at he ⊢
    by_cases hco : env.commitOk = true
    · rw [if_pos hco]; exact ⟨hdata, hcov⟩
    · simp [hco] at he

end Bond
