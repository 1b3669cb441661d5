import Verif.Props.UpsertExact
import Verif.Props.Points
/-
The data entries alone, for calls of every kind and any conflict function: as PointLemmas, but a record may be stored under a key that is
not its own.
-/
namespace Bond
open Spec
variable {T F : Type}

/-- what a successful call does to the records, as the code does it: as specified, but Upsert folds the rows of `upsertTaken` -/
def Spec.exactEffect (pk : T → Bytes) (m : Rows T) : WCall T → Rows T
  | .upsert oc trs => (groups trs).foldl (fun acc c => putFolded (fun o x => (oc o x).1) m acc (upsertTaken pk c)) m
  | c => effect pk m c

/-- the calls (table.go:316-947) of which the effect on the data entries is known exactly: all, if the sort is stable, but UnsafeUpdate of rows that are not
stored on a table with a filter -/
def ExactCall (t : Table T F) (env : Env T) (V : KV) : WCall T → Prop
  | .insert _ => True
  | .update trs => (trs.map t.pk).Nodup ∨ env.Stable
  | .upsert _ _ => env.Stable
  | .delete _ => True
  | .unsafeInsert _ => True
  | .unsafeUpdate trs _ => t.filter.isSome = true → ∀ x ∈ trs, (V.get (t.key x)).isSome = true

theorem DataIs.congr {t : Table T F} {V W : KV} {m : Rows T} (h : DataIs t V m)
    (he : ∀ pk, W.get (dataKey t.id pk) = V.get (dataKey t.id pk)) : DataIs t W m :=
  ⟨fun pk hn => by rw [he]; exact h.absent pk hn, fun pk x hx => by rw [he]; exact h.present pk x hx⟩

/-- appending the writes for one row -/
theorem DataIs.put' {t : Table T F} (wf : t.WF) {base : KV} {ops : List WOp} {m : Rows T} (h : DataIs t (base.apply ops) m) {x : T}
    {b : Bytes} (hb : t.ser x = some b) {g : Index T → List WOp} (hg : OpsIn t g) {ord : List (Index T)} (hp : ord.Perm t.indexes) :
    DataIs t (base.apply (ops ++ .set (t.key x) b :: ord.flatMap g)) (m.put (t.pk x) x) := by
  rw [KV.apply_append]; exact h.put wf (p := t.pk x) hb hg hp

theorem insertLoop_is {t : Table T F} (wf : t.WF) {env : Env T} (ok : env.OK t) {base : KV} {entries : List (Bytes × Bytes)}
    {trs : List T} {items : List (Bytes × Nat)} {rs : List T} (hd : Describes t trs items rs) :
    ∀ {prev : Option Bytes} {s s' : WSt T F} {m : Rows T},
    (rs.map t.key).Pairwise (fun a b => ble a b = true) →
    (∀ p, prev = some p → ∀ r ∈ rs, ble p (t.key r) = true) →
    DataIs t (base.apply s.ops) m →
    t.insertLoop env entries trs prev items s = (s', none) →
    DataIs t (base.apply s'.ops) (m.putAll t.pk rs) ∧ (rs.map t.pk).Nodup ∧ (∀ r ∈ rs, some (t.key r) ≠ prev) := by
  induction hd with
  | nil =>
    intro prev s s' m _ _ hH he
    simp only [Table.insertLoop, Prod.mk.injEq, and_true] at he
    subst he
    exact ⟨hH, by simp, by simp⟩
  | @cons e r items rs hr hd ih =>
    intro prev s s' m hsort hprev hH he
    obtain ⟨key, j⟩ := e
    obtain ⟨hj, hk⟩ := hr
    simp only at hj hk
    rw [Table.insertLoop] at he
    split at he
    · simp at he
    split at he
    · simp at he
    rename_i hnd
    rw [not_or] at hnd
    obtain ⟨hpk, _⟩ := hnd
    rw [hj] at he
    simp only at he
    split at he
    · simp at he
    rename_i data hdata
    subst hk
    simp only [List.map_cons, List.pairwise_cons, List.mem_map, forall_exists_index, and_imp,
      forall_apply_eq_imp_iff₂] at hsort
    obtain ⟨a, d, f⟩ := ih (prev := some (t.key r)) (m := m.put (t.pk r) r) hsort.2
      (by rintro p ⟨⟩ y hy; exact hsort.1 y hy) (hH.put' wf hdata (onInsert_in t r) (ok.order s.clock)) he
    have hpks : ∀ y ∈ rs, t.pk y ≠ t.pk r := fun y hy e => f y hy (by rw [key_inj.2 e])
    refine ⟨a, ?_, ?_⟩
    · rw [List.map_cons, List.nodup_cons]
      refine ⟨?_, d⟩
      rw [List.mem_map]; rintro ⟨y, hy, e⟩; exact hpks y hy e
    · intro y hy
      rcases List.mem_cons.1 hy with rfl | hy
      · exact fun e => hpk e.symm
      · cases hp : prev with
        | none => simp
        | some p =>
          intro e
          simp only [Option.some.injEq] at e
          have h1 := hprev p hp r (by simp)
          exact sorted_tail_ne h1 (fun e' => hpk (by rw [hp, e'])) (hsort.1 y hy) e

theorem updateLoop_is {t : Table T F} (wf : t.WF) {env : Env T} (ok : env.OK t) {base : KV} {entries : List (Bytes × Bytes)}
    {trs : List T} {items : List (Bytes × Nat)} {rs : List T} (hd : Describes t trs items rs) :
    ∀ {s s' : WSt T F} {m : Rows T}, DataIs t (base.apply s.ops) m →
    t.updateLoop env entries trs items s = (s', none) → DataIs t (base.apply s'.ops) (m.putAll t.pk rs) := by
  induction hd with
  | nil =>
    intro s s' m hH he
    simp only [Table.updateLoop, Prod.mk.injEq, and_true] at he
    subst he
    exact hH
  | @cons e r items rs hr hd ih =>
    intro s s' m hH he
    obtain ⟨key, j⟩ := e
    obtain ⟨hj, hk⟩ := hr
    simp only at hj hk
    rw [Table.updateLoop] at he
    split at he
    · simp at he
    split at he
    · rename_i hdup
      have hih := ih (s := { s with clock := s.clock + 1 }) (m := m) hH he
      cases hd with
      | nil => simp at hdup
      | @cons e2 r2 items2 rs2 hr2 hd2 =>
        simp only [List.head?_cons, Option.map_some, Option.some.injEq] at hdup
        have hpk : t.pk r2 = t.pk r := key_inj.1 (by rw [← hr2.2, hdup, hk])
        have hput : m.putAll t.pk (r :: r2 :: rs2) = m.putAll t.pk (r2 :: rs2) := by
          rw [putAll_cons, putAll_cons, putAll_cons, hpk, put_put]
        rw [hput]
        exact hih
    · subst hk
      split at he
      · simp at he
      · split at he
        · simp at he
        · rename_i old _
          rw [hj] at he
          simp only at he
          split at he
          · simp at he
          · rename_i data hdata
            exact ih (s := ⟨_, s.filt, _, old⟩) (m := m.put (t.pk r) r)
              (hH.put' wf hdata (onUpdate_in t old r) (ok.order s.clock)) he

theorem unsafeInsertLoop_is {t : Table T F} (wf : t.WF) {env : Env T} (ok : env.OK t) {base : KV} (trs : List T) :
    ∀ {s s' : WSt T F} {m : Rows T}, DataIs t (base.apply s.ops) m →
    t.unsafeInsertLoop env trs s = (s', none) → DataIs t (base.apply s'.ops) (m.putAll t.pk trs) := by
  induction trs with
  | nil =>
    intro s s' m hH he
    simp only [Table.unsafeInsertLoop, Prod.mk.injEq, and_true] at he
    subst he
    exact hH
  | cons x xs ih =>
    intro s s' m hH he
    rw [Table.unsafeInsertLoop] at he
    split at he
    · simp at he
    split at he
    · simp at he
    rename_i data hdata
    exact ih (m := m.put (t.pk x) x) (hH.put' wf hdata (onInsert_in t x) (ok.order s.clock)) he

theorem unsafeUpdateLoop_is {t : Table T F} (wf : t.WF) {env : Env T} (ok : env.OK t) {base : KV} (ps : List (T × T)) :
    ∀ {s s' : WSt T F} {m : Rows T}, DataIs t (base.apply s.ops) m →
    t.unsafeUpdateLoop env ps s = (s', none) → DataIs t (base.apply s'.ops) (m.putAll t.pk (ps.map Prod.fst)) := by
  induction ps with
  | nil =>
    intro s s' m hH he
    simp only [Table.unsafeUpdateLoop, Prod.mk.injEq, and_true] at he
    subst he
    exact hH
  | cons p ps ih =>
    obtain ⟨x, old⟩ := p
    intro s s' m hH he
    rw [Table.unsafeUpdateLoop] at he
    split at he
    · simp at he
    split at he
    · simp at he
    rename_i data hdata
    exact ih (s := { s with ops := _, clock := _ }) (m := m.put (t.pk x) x) (hH.put' wf hdata (onUpdate_in t old x) (ok.order s.clock)) he

theorem DataIs.erase {t : Table T F} {V W : KV} {m : Rows T} (h : DataIs t V m) (ps : List Bytes)
    (he : ∀ pk, W.get (dataKey t.id pk) = if pk ∈ ps then none else V.get (dataKey t.id pk)) : DataIs t W (m.eraseAll ps) := by
  refine ⟨?_, ?_⟩
  · intro pk hn
    rw [eraseAll_apply] at hn
    rw [he]
    split at hn
    · rename_i hp; rw [if_pos hp]
    · rename_i hp; rw [if_neg hp]; exact h.absent pk hn
  · intro pk x hx
    rw [eraseAll_apply] at hx
    rw [he]
    split at hx
    · cases hx
    · rename_i hp; rw [if_neg hp]; exact h.present pk x hx

theorem DataIs.covers {t : Table T F} {f : F} {V : KV} {m : Rows T} (h : DataIs t V m) (hc : CovKV t f V) : FilterCovers t f m := by
  intro fl hfl pk x hx
  obtain ⟨b, _, hg⟩ := h.present pk x hx
  exact hc fl hfl pk (by rw [hg]; rfl)

theorem DataIs.get_eq {t : Table T F} {V W : KV} {m m' : Rows T} (h : DataIs t V m) (h' : DataIs t W m') {p : Bytes}
    (he : m p = m' p) : V.get (dataKey t.id p) = W.get (dataKey t.id p) := by
  cases hm : m p with
  | none => rw [h.absent _ hm, h'.absent _ (by rw [← he, hm])]
  | some x =>
    obtain ⟨b, hb, hg⟩ := h.present _ _ hm
    obtain ⟨b', hb', hg'⟩ := h'.present _ _ (by rw [← he, hm])
    rw [hb] at hb'
    cases hb'
    rw [hg, hg']

theorem chunks_is {t : Table T F} {base : KV} {g : List T → WSt T F → WSt T F × Option Err} {r : List T → List T}
    (hg : ∀ c s s' m, DataIs t (base.apply s.ops) m → g c s = (s', none) → DataIs t (base.apply s'.ops) (m.putAll t.pk (r c)))
    (cs : List (List T)) : ∀ {s s' : WSt T F} {m : Rows T}, DataIs t (base.apply s.ops) m → forChunks g cs s = (s', none) →
    DataIs t (base.apply s'.ops) (m.putAll t.pk (cs.flatMap r)) := by
  induction cs with
  | nil =>
    intro s s' m hH he
    simp only [forChunks, Prod.mk.injEq, and_true] at he
    subst he; exact hH
  | cons c cs ih =>
    intro s s' m hH he
    rw [forChunks] at he
    split at he
    · rename_i s1 h1
      rw [List.flatMap_cons, putAll_append]
      exact ih (hg c s s1 m hH h1) he
    · simp at he

/-- A successful call without batch has its specified effect on the data entries, and the filter covers them. -/
theorem run_is {t : Table T F} (wf : t.WF) (rt : t.RoundTrip) (fs : t.FilterSound) {env : Env T} (ok : env.OK t)
    {db : KV} {f : F} {m : Rows T} {c : WCall T} (hD : DataIs t db m) (hC : CovKV t f db) (hc : ExactCall t env db c)
    (he : (t.run env db f none c).err = none) :
    DataIs t (t.run env db f none c).db (exactEffect t.pk m c) ∧ CovKV t (t.run env db f none c).filt (t.run env db f none c).db := by
  rw [Table.run_eq] at he ⊢
  by_cases hmm : c.mismatch = true
  · simp [hmm] at he
  simp only [hmm, Bool.false_eq_true, if_false] at he ⊢
  have hb : (t.body env db none (t.start f) c).2 = none := by
    unfold finish at he
    cases hx : (t.body env db none (t.start f) c).2 with
    | none => rfl
    | some e => simp [hx] at he
  have hstep := body_covStep wf fs ok (f := f) (db := db) (ob := none) (c := c) (fun s hs _ => hC.mono hs) (by
    rintro trs olds rfl p hp fl hfl
    exact hC fl hfl _ (hc (by rw [hfl]; rfl) p.1 (List.of_mem_zip hp).1))
  have hbody : t.body env db none (t.start f) c = ((t.body env db none (t.start f) c).1, none) := by rw [← hb]
  generalize hs' : (t.body env db none (t.start f) c).1 = s' at hbody hstep
  have hD0 : DataIs t (db.apply (t.start f).ops) m := hD
  have hdata : DataIs t (db.apply s'.ops) (exactEffect t.pk m c) := by
    cases c with
    | insert trs =>
      have := chunks_is (t := t) (base := db) (r := fun c => c) (g := t.insertChunk env db none) (fun c s s1 m1 hH h1 => by
        obtain ⟨hd, hp⟩ := describes_sort t env ok c
        obtain ⟨a, d, _⟩ := insertLoop_is (base := db) wf ok hd (prev := none) (sortedRows_sorted t ok c) (by simp) hH h1
        rw [putAll_perm t.pk hp d] at a
        exact a) _ hD0 hbody
      rw [flatMap_id', batched_flatten _ (by decide)] at this
      exact this
    | update trs =>
      have := chunks_is (t := t) (base := db) (r := sortedRows t env) (g := t.updateChunk env db none) (fun c s s1 m1 hH h1 =>
        updateLoop_is (base := db) wf ok (describes_sort t env ok c).1 hH h1) _ hD0 hbody
      have he : m.putAll t.pk (visited t env (batched trs persistentBatchSize)) = m.putAll t.pk trs := by
        rcases hc with h | h
        · exact putAll_visited_nodup ok (by decide) m h
        · exact putAll_visited_stable ok h (by decide) m trs
      rw [visited] at he
      rw [he] at this
      exact this
    | upsert oc trs =>
      have := upsertChunks_exact wf ok hc rt fs (oc := oc) hD (batched trs persistentBatchSize) (s := t.start f) (m := m) hD0 (hD.covers hC)
        (hD.covers hC) hbody
      rw [batched_groups] at this
      exact this
    | delete trs =>
      exact hD.erase _ (fun pk => by
        have := deleteLoop_data wf ok (base := db) hbody pk
        exact this)
    | unsafeInsert trs =>
      have := chunks_is (t := t) (base := db) (r := fun c => c) (g := t.unsafeInsertLoop env) (fun c s s1 m1 hH h1 =>
        unsafeInsertLoop_is wf ok c hH h1) _ hD0 hbody
      rw [flatMap_id', batched_flatten _ (by decide)] at this
      exact this
    | unsafeUpdate trs olds =>
      have := unsafeUpdateLoop_is wf ok (base := db) (trs.zip olds) hD0 hbody
      have hl : trs.length = olds.length := by
        simpa [WCall.mismatch] using hmm
      rw [List.map_fst_zip (by omega)] at this
      exact this
  have hcov : CovKV t s'.filt (db.apply s'.ops) :=
    covKV_apply _ (hC.mono hstep.le) (hstep.ops (by intro fl hfl pk v hm; simp [Table.start] at hm))
  rw [hbody] at he ⊢
  unfold finish at he ⊢
  simp only at he ⊢
  by_cases ho : s'.ops = []
  · rw [if_pos ho]
    rw [ho] at hdata hcov
    exact ⟨hdata, hcov⟩
  · simp only [if_neg ho] at he ⊢
    by_cases hco : env.commitOk = true
    · rw [if_pos hco]; exact ⟨hdata, hcov⟩
    · simp [hco] at he

end Bond