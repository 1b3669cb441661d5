import Verif.LoopLemmas
/- The loops of Insert and Update refine operations on the abstract row map. -/
namespace Bond
open Spec
variable {T F : Type}

theorem filterCovers_add {t : Table T F} (fs : t.FilterSound) {f : F} {m : Rows T} (h : FilterCovers t f m) (x : T) :
    FilterCovers t (t.filterAdd f (t.key x)) (m.put (t.pk x) x) := by
  intro fl hfl pk y hy
  unfold Table.filterAdd; rw [hfl]
  rw [put_apply] at hy
  split at hy
  · rename_i e; subst e; exact (fs fl hfl f _).1
  · exact (fs fl hfl f _).2 _ (h fl hfl pk y hy)

theorem filterCovers_put {t : Table T F} {f : F} {m : Rows T} (h : FilterCovers t f m) {p : Bytes} {o x : T}
    (ho : m p = some o) : FilterCovers t f (m.put p x) := by
  intro fl hfl pk y hy
  rw [put_apply] at hy
  split at hy
  · rename_i e; subst e; exact h fl hfl _ o ho
  · exact h fl hfl pk y hy

theorem filterCovers_erase {t : Table T F} {f : F} {m : Rows T} (h : FilterCovers t f m) (p : Bytes) :
    FilterCovers t f (m.erase p) := by
  intro fl hfl pk y hy
  simp only [Rows.erase] at hy
  split at hy
  · simp at hy
  · exact h fl hfl pk y hy

/-- a stored value is found, provided the filter covers the stored rows -/
theorem existIter_eq {t : Table T F} {f : F} {m : Rows T} {V : KV} (hH : Holds t V m) (hF : FilterCovers t f m)
    {entries : List (Bytes × Bytes)} {pk : Bytes} (he : seekExact entries (dataKey t.id pk) = V.get (dataKey t.id pk)) :
    t.existIter f entries (dataKey t.id pk) = V.get (dataKey t.id pk) := by
  unfold Table.existIter
  split
  · rename_i fl hfl
    split
    · rename_i hm
      cases hp : m pk with
      | none => rw [hH.absent pk hp]
      | some x => rw [hF fl hfl pk x hp] at hm; simp at hm
    · exact he
  · exact he

theorem existIter_none_of_seek {t : Table T F} {f : F} {entries : List (Bytes × Bytes)} {k : Bytes}
    (he : seekExact entries k = none) : t.existIter f entries k = none := by
  unfold Table.existIter
  split
  · split
    · rfl
    · exact he
  · exact he

/-- sorted keys: rows after a row with another key never have the key of an earlier one -/
theorem sorted_tail_ne {k k' : Bytes} (h1 : ble k k' = true) (h2 : k ≠ k') {k'' : Bytes} (h3 : ble k' k'' = true) :
    k'' ≠ k := by
  intro e; subst e; exact h2 (ble_antisymm h1 h3)

theorem insertLoop_ok {t : Table T F} (wf : t.WF) {env : Env T} (ok : env.OK t) (fs : t.FilterSound)
    {base R : KV} {lo : Bytes} {trs : List T} {items : List (Bytes × Nat)} {rs : List T}
    (hd : Describes t trs items rs) :
    ∀ {prev : Option Bytes} {s s' : WSt T F} {m : Rows T},
    (rs.map t.key).Pairwise (fun a b => ble a b = true) →
    (∀ p, prev = some p → ∀ r ∈ rs, ble p (t.key r) = true) →
    (∀ r ∈ rs, ble lo (t.key r) = true) →
    (∀ r ∈ rs, some (t.key r) ≠ prev → R.get (t.key r) = (base.apply s.ops).get (t.key r)) →
    Holds t (base.apply s.ops) m → FilterCovers t s.filt m →
    t.insertLoop env (R.scan lo t.dataKeySpaceEnd) trs prev items s = (s', none) →
    Holds t (base.apply s'.ops) (m.putAll t.pk rs) ∧ SameOutside t (base.apply s.ops) (base.apply s'.ops) ∧
    FilterCovers t s'.filt (m.putAll t.pk rs) ∧ (rs.map t.pk).Nodup ∧ (∀ r ∈ rs, m (t.pk r) = none) ∧
    (∀ r ∈ rs, some (t.key r) ≠ prev) := by
  induction hd with
  | nil =>
    intro prev s s' m _ _ _ _ hH hF he
    simp only [Table.insertLoop, Prod.mk.injEq, and_true] at he
    subst he
    exact ⟨hH, SameOutside.refl _ _, hF, by simp, by simp, by simp⟩
  | @cons e r items rs hr hd ih =>
    intro prev s s' m hsort hprev hlo hag hH hF he
    obtain ⟨key, j⟩ := e
    obtain ⟨hj, hk⟩ := hr
    simp only at hj hk
    rw [Table.insertLoop] at he
    split at he
    · simp at he
    split at he
    · simp at he
    rename_i hnd
    rw [not_or] at hnd
    obtain ⟨hpk, hex⟩ := hnd
    rw [hj] at he
    simp only at he
    split at he
    · simp at he
    rename_i data hdata
    subst hk
    have hR := hag r (by simp) (fun e => hpk e.symm)
    have hseek := seekExact_scan R (hlo r (by simp)) (dataKey_lt_end t (t.pk r))
    have hex' : t.existIter s.filt (R.scan lo t.dataKeySpaceEnd) (t.key r) = (base.apply s.ops).get (t.key r) :=
      existIter_eq hH hF (hseek.trans hR)
    have habs : m (t.pk r) = none := by
      cases hm : m (t.pk r) with
      | none => rfl
      | some x =>
        obtain ⟨b, _, hb⟩ := hH.present _ _ hm
        rw [hex'] at hex
        exact absurd (by rw [show t.key r = dataKey t.id (t.pk r) from rfl, hb]; rfl) hex
    simp only [List.map_cons, List.pairwise_cons, List.mem_map, forall_exists_index, and_imp,
      forall_apply_eq_imp_iff₂] at hsort
    have hins := holds_insert wf hH habs hdata (ok.order s.clock)
    have hins1 := hins.1
    have hins2 := hins.2
    rw [← KV.apply_append] at hins1 hins2
    have := ih (prev := some (t.key r)) (m := m.put (t.pk r) r) hsort.2
      (by rintro p ⟨⟩ y hy; exact hsort.1 y hy) (fun y hy => hlo y (by simp [hy])) ?_ hins1 (filterCovers_add fs hF r) he
    · obtain ⟨a, b, c, d, e, f⟩ := this
      have hpks : ∀ y ∈ rs, t.pk y ≠ t.pk r := fun y hy e => f y hy (by rw [key_inj.2 e])
      refine ⟨a, hins2.trans b, c, ?_, ?_, ?_⟩
      · rw [List.map_cons, List.nodup_cons]
        refine ⟨?_, d⟩
        rw [List.mem_map]; rintro ⟨y, hy, e⟩; exact hpks y hy e
      · intro y hy
        rcases List.mem_cons.1 hy with rfl | hy
        · exact habs
        · have := e y hy; rw [put_apply, if_neg (hpks y hy)] at this; exact this
      · intro y hy
        rcases List.mem_cons.1 hy with rfl | hy
        · exact fun e => hpk e.symm
        · cases hp : prev with
          | none => simp
          | some p =>
            intro e
            simp only [Option.some.injEq] at e
            have h1 := hprev p hp r (by simp)
            exact sorted_tail_ne h1 (fun e' => hpk (by rw [hp, e'])) (hsort.1 y hy) e
    · intro y hy hne
      have hpy : t.pk y ≠ t.pk r := fun e => hne (by rw [key_inj.2 e])
      have h1 := holds_get_eq (p := t.pk y) hH hins1 (by rw [put_apply, if_neg hpy])
      have h2 : some (t.key y) ≠ prev := by
        intro e
        have h1 := hprev _ e.symm r (by simp)
        exact sorted_tail_ne h1 (fun e' => hpk (by rw [← e, e'])) (hsort.1 y hy) rfl
      rw [hag y (by simp [hy]) h2]
      exact h1

/-- every reason for a failing loop is absent ⇒ it succeeds -/
theorem insertLoop_complete {t : Table T F} {env : Env T} {R : KV} {lo : Bytes} {trs : List T}
    {items : List (Bytes × Nat)} {rs : List T} (hd : Describes t trs items rs) :
    ∀ {prev : Option Bytes} {s : WSt T F}, (∀ n, env.done n = false) → (∀ r ∈ rs, (t.ser r).isSome) →
    (∀ r ∈ rs, ble lo (t.key r) = true) → (∀ r ∈ rs, R.get (t.key r) = none) → (rs.map t.pk).Nodup →
    (∀ r ∈ rs, some (t.key r) ≠ prev) →
    (t.insertLoop env (R.scan lo t.dataKeySpaceEnd) trs prev items s).2 = none := by
  induction hd with
  | nil => intros; rfl
  | @cons e r items rs hr hd ih =>
    intro prev s hdone hser hlo hR hnd hprev
    obtain ⟨key, j⟩ := e
    obtain ⟨hj, hk⟩ := hr
    simp only at hj hk
    subst hk
    rw [Table.insertLoop, if_neg (by simp [hdone])]
    have hseek := seekExact_scan R (hlo r (by simp)) (dataKey_lt_end t (t.pk r))
    rw [if_neg]
    · rw [hj]
      simp only
      have := hser r (by simp)
      cases hs : t.ser r with
      | none => simp [hs] at this
      | some b =>
        simp only
        rw [List.map_cons, List.nodup_cons] at hnd
        apply ih hdone (fun y hy => hser y (by simp [hy])) (fun y hy => hlo y (by simp [hy]))
          (fun y hy => hR y (by simp [hy])) hnd.2
        intro y hy e
        simp only [Option.some.injEq] at e
        exact hnd.1 (key_inj.1 e ▸ List.mem_map.2 ⟨y, hy, rfl⟩)
    · rw [not_or]
      refine ⟨fun e => hprev r (by simp) e.symm, ?_⟩
      rw [existIter_none_of_seek (hseek.trans (hR r (by simp)))]
      simp

theorem sortedRows_sorted (t : Table T F) {env : Env T} (ok : env.OK t) (trs : List T) :
    ((sortedRows t env trs).map t.key).Pairwise (fun a b => ble a b = true) := by
  rw [← (describes_sort t env ok trs).1.keys]
  exact sortKeys_sorted t env ok _

theorem sorted_headD {l : List Bytes} (h : l.Pairwise (fun a b => ble a b = true)) : ∀ x ∈ l, ble (l.headD []) x = true := by
  cases l with
  | nil => simp
  | cons a r =>
    intro x hx
    simp only [List.headD_cons]
    rcases List.mem_cons.1 hx with rfl | hx
    · exact ble_refl _
    · exact (List.pairwise_cons.1 h).1 x hx

theorem sortedRows_lo (t : Table T F) {env : Env T} (ok : env.OK t) (trs : List T) : ∀ r ∈ sortedRows t env trs,
    ble (((sortKeys env (trs.map t.key)).map Prod.fst).headD []) (t.key r) = true := by
  intro r hr
  apply sorted_headD (sortKeys_sorted t env ok _)
  rw [(describes_sort t env ok trs).1.keys]
  exact List.mem_map.2 ⟨r, hr, rfl⟩

/-- one slice of `Insert` -/
theorem insertChunk_ok {t : Table T F} (wf : t.WF) {env : Env T} (ok : env.OK t) (fs : t.FilterSound)
    {db base : KV} {ob : Option Batch} {trs : List T} {s s' : WSt T F} {m : Rows T}
    (hag : ∀ r ∈ trs, (readView db ob s.ops).get (t.key r) = (base.apply s.ops).get (t.key r))
    (hH : Holds t (base.apply s.ops) m) (hF : FilterCovers t s.filt m)
    (he : t.insertChunk env db ob trs s = (s', none)) :
    Holds t (base.apply s'.ops) (m.putAll t.pk trs) ∧ SameOutside t (base.apply s.ops) (base.apply s'.ops) ∧
    FilterCovers t s'.filt (m.putAll t.pk trs) ∧ (trs.map t.pk).Nodup ∧ (∀ r ∈ trs, m (t.pk r) = none) := by
  obtain ⟨hd, hp⟩ := describes_sort t env ok trs
  obtain ⟨a, b, c, d, e, _⟩ := insertLoop_ok (base := base) wf ok fs hd (prev := none) (sortedRows_sorted t ok trs)
    (by simp) (sortedRows_lo t ok trs) (fun r hr _ => hag r (hp.mem_iff.1 hr)) hH hF he
  rw [putAll_perm t.pk hp d] at a c
  exact ⟨a, b, c, (hp.map t.pk).nodup_iff.1 d, fun r hr => e r (hp.mem_iff.2 hr)⟩

theorem insertChunk_complete {t : Table T F} {env : Env T} (ok : env.OK t)
    {db : KV} {ob : Option Batch} {trs : List T} {s : WSt T F} (hdone : ∀ n, env.done n = false)
    (hser : ∀ r ∈ trs, (t.ser r).isSome) (hR : ∀ r ∈ trs, (readView db ob s.ops).get (t.key r) = none)
    (hnd : (trs.map t.pk).Nodup) : (t.insertChunk env db ob trs s).2 = none := by
  obtain ⟨hd, hp⟩ := describes_sort t env ok trs
  exact insertLoop_complete hd hdone (fun r hr => hser r (hp.mem_iff.1 hr)) (sortedRows_lo t ok trs)
    (fun r hr => hR r (hp.mem_iff.1 hr)) ((hp.map t.pk).nodup_iff.2 hnd) (by simp)

/-- The reads of a write call see the effects of the call's own earlier slices where it matters:
either the batch is readable, or slices share no primary key and the database agrees with the batch. -/
def ReadsOK (t : Table T F) (db base : KV) (ob : Option Batch) (ops : List WOp) (cs : List (List T)) : Prop :=
  (∀ ops, readView db ob ops = base.apply ops) ∨
  ((∀ ops, readView db ob ops = db) ∧ cs.Pairwise (fun c d => ∀ x ∈ c, ∀ y ∈ d, t.pk x ≠ t.pk y) ∧
    ∀ c ∈ cs, ∀ x ∈ c, db.get (t.key x) = (base.apply ops).get (t.key x))

theorem ReadsOK.head {t : Table T F} {db base : KV} {ob : Option Batch} {ops : List WOp} {c : List T} {cs : List (List T)}
    (h : ReadsOK t db base ob ops (c :: cs)) :
    ∀ r ∈ c, (readView db ob ops).get (t.key r) = (base.apply ops).get (t.key r) := by
  intro r hr
  rcases h with h | ⟨h1, _, h3⟩
  · rw [h]
  · rw [h1]; exact h3 c (by simp) r hr

theorem ReadsOK.tail {t : Table T F} {db base : KV} {ob : Option Batch} {ops ops' : List WOp} {c : List T} {cs : List (List T)}
    {m m' : Rows T} (h : ReadsOK t db base ob ops (c :: cs)) (hH : Holds t (base.apply ops) m)
    (hH' : Holds t (base.apply ops') m') (hm : ∀ p, (∀ x ∈ c, t.pk x ≠ p) → m' p = m p) :
    ReadsOK t db base ob ops' cs := by
  rcases h with h | ⟨h1, h2, h3⟩
  · exact Or.inl h
  · rw [List.pairwise_cons] at h2
    refine Or.inr ⟨h1, h2.2, fun d hd y hy => ?_⟩
    rw [h3 d (by simp [hd]) y hy]
    exact holds_get_eq hH hH' (hm _ (fun x hx => h2.1 d hd x hx y hy)).symm

theorem insertChunks_ok {t : Table T F} (wf : t.WF) {env : Env T} (ok : env.OK t) (fs : t.FilterSound)
    {db base : KV} {ob : Option Batch} {cs : List (List T)} {s s' : WSt T F} {m : Rows T}
    (hr : ReadsOK t db base ob s.ops cs) (hH : Holds t (base.apply s.ops) m) (hF : FilterCovers t s.filt m)
    (he : forChunks (t.insertChunk env db ob) cs s = (s', none)) :
    Holds t (base.apply s'.ops) (m.putAll t.pk cs.flatten) ∧ SameOutside t (base.apply s.ops) (base.apply s'.ops) ∧
    FilterCovers t s'.filt (m.putAll t.pk cs.flatten) ∧ (cs.flatten.map t.pk).Nodup ∧
    (∀ r ∈ cs.flatten, m (t.pk r) = none) := by
  induction cs generalizing s m with
  | nil =>
    simp only [forChunks, Prod.mk.injEq, and_true] at he
    subst he
    exact ⟨hH, SameOutside.refl _ _, hF, by simp, by simp⟩
  | cons c cs ih =>
    rw [forChunks] at he
    split at he
    · rename_i s1 h1
      obtain ⟨a, b, cc, d, e⟩ := insertChunk_ok wf ok fs hr.head hH hF h1
      obtain ⟨a2, b2, c2, d2, e2⟩ := ih (hr.tail hH a (fun p hp => putAll_other _ _ _ _ hp)) a cc he
      rw [List.flatten_cons, putAll_append]
      have hdis : ∀ x ∈ c, ∀ y ∈ cs.flatten, t.pk x ≠ t.pk y := by
        intro x hx y hy e'
        have h3 := e2 y hy
        rw [← e', putAll_mem _ _ d hx] at h3
        simp at h3
      refine ⟨a2, b.trans b2, c2, ?_, ?_⟩
      · rw [List.map_append, List.nodup_append]
        refine ⟨d, d2, ?_⟩
        intro p hp q hq
        obtain ⟨x, hx, rfl⟩ := List.mem_map.1 hp
        obtain ⟨y, hy, rfl⟩ := List.mem_map.1 hq
        exact hdis x hx y hy
      · intro r hr'
        rcases List.mem_append.1 hr' with h | h
        · exact e r h
        · rw [← putAll_other m t.pk c (t.pk r) (fun x hx => hdis x hx r h)]
          exact e2 r h
    · simp at he

end Bond
