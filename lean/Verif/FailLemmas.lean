import Verif.HistoryLemmas
import Verif.Spec.Failed
/-
What a write call has put in its batch when it fails: what the same call with fewer rows, those it got through, puts there.
-/
namespace Bond
open Spec
variable {T F : Type}

theorem Describes.take {t : Table T F} {trs : List T} {items : List (Bytes × Nat)} {rs : List T} (h : Describes t trs items rs) :
    ∀ i, Describes t trs (items.take i) (rs.take i) := by
  induction h with
  | nil => intro i; simp; exact .nil
  | cons hr _ ih =>
    intro i
    cases i with
    | zero => exact .nil
    | succ i => exact .cons hr (ih i)

/-- the same writes and the same filter -/
def SameWrites (a b : WSt T F) : Prop := a.ops = b.ops ∧ a.filt = b.filt

theorem insertLoop_stop (t : Table T F) (env : Env T) (entries : List (Bytes × Bytes)) (trs : List T) (items : List (Bytes × Nat)) :
    ∀ (prev : Option Bytes) (s : WSt T F), ∃ i s', t.insertLoop env entries trs prev (items.take i) s = (s', none) ∧
      SameWrites s' (t.insertLoop env entries trs prev items s).1 := by
  induction items with
  | nil => intro prev s; exact ⟨0, s, rfl, rfl, rfl⟩
  | cons x items ih =>
    intro prev s
    obtain ⟨key, j⟩ := x
    rw [Table.insertLoop]
    split
    · exact ⟨0, s, rfl, rfl, rfl⟩
    split
    · exact ⟨0, s, rfl, rfl, rfl⟩
    split
    · exact ⟨0, s, rfl, rfl, rfl⟩
    rename_i h1 h2 _ tr htr
    split
    · exact ⟨0, s, rfl, rfl, rfl⟩
    rename_i data hdata
    obtain ⟨i, s', h, e⟩ := ih (some key) _
    refine ⟨i + 1, s', ?_, e⟩
    rw [List.take_succ_cons, Table.insertLoop, if_neg h1, if_neg h2, htr]
    simp only
    rw [hdata]
    exact h

theorem updateLoop_stop (t : Table T F) (env : Env T) (entries : List (Bytes × Bytes)) (trs : List T) (items : List (Bytes × Nat)) :
    ∀ (s : WSt T F), ∃ i s', t.updateLoop env entries trs (items.take i) s = (s', none) ∧
      SameWrites s' (t.updateLoop env entries trs items s).1 := by
  induction items with
  | nil => intro s; exact ⟨0, s, rfl, rfl, rfl⟩
  | cons x items ih =>
    intro s
    obtain ⟨key, j⟩ := x
    rw [Table.updateLoop]
    split
    · exact ⟨0, s, rfl, rfl, rfl⟩
    rename_i h1
    split
    · rename_i h2
      obtain ⟨i, s', h, e⟩ := ih { s with clock := s.clock + 1 }
      cases i with
      | zero =>
        rw [List.take_zero, Table.updateLoop] at h
        cases h
        exact ⟨0, s, rfl, e⟩
      | succ i =>
        refine ⟨i + 2, s', ?_, e⟩
        rw [List.take_succ_cons, Table.updateLoop, if_neg h1, if_pos]
        · exact h
        · cases items with
          | nil => simp at h2
          | cons y items => simpa using h2
    rename_i h2
    split
    · exact ⟨0, s, rfl, rfl, rfl⟩
    rename_i v hv
    split
    · exact ⟨0, s, rfl, rfl, rfl⟩
    rename_i old hold
    split
    · exact ⟨0, s, rfl, rfl, rfl⟩
    rename_i tr htr
    split
    · exact ⟨0, s, rfl, rfl, rfl⟩
    rename_i data hdata
    obtain ⟨i, s', h, e⟩ := ih { ops := s.ops ++ .set key data :: (env.order s.clock).flatMap (fun idx => onUpdate t idx old tr)
                                 filt := s.filt, clock := s.clock + 1, oldTr := old }
    refine ⟨i + 1, s', ?_, e⟩
    rw [List.take_succ_cons, Table.updateLoop, if_neg h1, if_neg]
    · simp only [hv, hold, htr, hdata]
      exact h
    · cases items with
      | nil => simp
      | cons y items =>
        cases i with
        | zero => simp
        | succ i => simpa using h2

theorem deleteLoop_stop (t : Table T F) (env : Env T) (trs : List T) :
    ∀ (s : WSt T F), ∃ i s', t.deleteLoop env (trs.take i) s = (s', none) ∧ SameWrites s' (t.deleteLoop env trs s).1 := by
  induction trs with
  | nil => intro s; exact ⟨0, s, rfl, rfl, rfl⟩
  | cons x trs ih =>
    intro s
    rw [Table.deleteLoop]
    split
    · exact ⟨0, s, rfl, rfl, rfl⟩
    rename_i h1
    obtain ⟨i, s', h, e⟩ := ih { s with ops := s.ops ++ .del (t.key x) :: (env.order s.clock).flatMap (fun idx => onDelete t idx x)
                                        clock := s.clock + 1 }
    refine ⟨i + 1, s', ?_, e⟩
    rw [List.take_succ_cons, Table.deleteLoop, if_neg h1]
    exact h

theorem unsafeInsertLoop_stop (t : Table T F) (env : Env T) (trs : List T) :
    ∀ (s : WSt T F), ∃ i s', t.unsafeInsertLoop env (trs.take i) s = (s', none) ∧ SameWrites s' (t.unsafeInsertLoop env trs s).1 := by
  induction trs with
  | nil => intro s; exact ⟨0, s, rfl, rfl, rfl⟩
  | cons x trs ih =>
    intro s
    rw [Table.unsafeInsertLoop]
    split
    · exact ⟨0, s, rfl, rfl, rfl⟩
    rename_i h1
    split
    · exact ⟨0, s, rfl, rfl, rfl⟩
    rename_i data hdata
    obtain ⟨i, s', h, e⟩ := ih _
    refine ⟨i + 1, s', ?_, e⟩
    rw [List.take_succ_cons, Table.unsafeInsertLoop, if_neg h1, hdata]
    exact h

theorem unsafeUpdateLoop_stop (t : Table T F) (env : Env T) (ps : List (T × T)) :
    ∀ (s : WSt T F), ∃ i s', t.unsafeUpdateLoop env (ps.take i) s = (s', none) ∧ SameWrites s' (t.unsafeUpdateLoop env ps s).1 := by
  induction ps with
  | nil => intro s; exact ⟨0, s, rfl, rfl, rfl⟩
  | cons p ps ih =>
    intro s
    obtain ⟨x, old⟩ := p
    rw [Table.unsafeUpdateLoop]
    split
    · exact ⟨0, s, rfl, rfl, rfl⟩
    rename_i h1
    split
    · exact ⟨0, s, rfl, rfl, rfl⟩
    rename_i data hdata
    obtain ⟨i, s', h, e⟩ := ih { s with ops := s.ops ++ .set (t.key x) data :: (env.order s.clock).flatMap (fun idx => onUpdate t idx old x)
                                        clock := s.clock + 1 }
    refine ⟨i + 1, s', ?_, e⟩
    rw [List.take_succ_cons, Table.unsafeUpdateLoop, if_neg h1, hdata]
    exact h

/-- without repeated keys -/
theorem upsertLoop_stop (t : Table T F) (env : Env T) (oc : Table.OnConflict T) (entries : List (Bytes × Bytes)) (trs : List T)
    {items : List (Bytes × Nat)} {rs : List T} (hd : Describes t trs items rs) :
    ∀ (fuel n : Nat) (s : WSt T F), items.length ≤ fuel → (rs.map t.pk).Nodup →
      ∃ i s', t.upsertLoop env oc entries trs fuel n (items.take i) s = (s', none) ∧
        SameWrites s' (t.upsertLoop env oc entries trs fuel n items s).1 := by
  induction hd with
  | nil => intro fuel n s _ _; exact ⟨0, (t.upsertLoop env oc entries trs fuel n [] s).1, by cases fuel <;> rfl, rfl, rfl⟩
  | @cons x r items rs hr hd ih =>
    intro fuel n s hfuel hnd
    obtain ⟨key, j⟩ := x
    obtain ⟨hj, hk⟩ := hr
    simp only at hj hk
    have hz : ∃ i s', t.upsertLoop env oc entries trs fuel n (((key, j) :: items).take i) s = (s', none) ∧ SameWrites s' s :=
      ⟨0, s, by cases fuel <;> rfl, rfl, rfl⟩
    cases fuel with
    | zero => exact ⟨0, s, rfl, rfl, rfl⟩
    | succ fuel =>
    rw [List.map_cons, List.nodup_cons] at hnd
    have hno : ∀ y ∈ rs, t.key y ≠ key := by
      intro y hy e
      rw [hk] at e
      exact hnd.1 (key_inj.1 e ▸ List.mem_map.2 ⟨y, hy, rfl⟩)
    have hstep : ∀ (i : Nat), Table.upsertDup oc trs key (items.take i) = fun n a b => some (items.take i, n, a, b) := by
      intro i
      funext n a b
      exact upsertDup_nil (hd.take i) (fun y hy => hno y (List.mem_of_mem_take hy)) n a b
    have hdup : Table.upsertDup oc trs key items = fun n a b => some (items, n, a, b) := by
      funext n a b
      exact upsertDup_nil hd hno n a b
    rw [Table.upsertLoop]
    simp only [hj, hdup]
    split
    · exact hz
    rename_i h1
    split
    · exact hz
    rename_i found hfound
    split
    · exact hz
    rename_i data hdata
    obtain ⟨i, s', h, e⟩ := ih fuel (n + 1) _ (by simpa using hfuel) hnd.2
    refine ⟨i + 1, s', ?_, e⟩
    rw [List.take_succ_cons, Table.upsertLoop]
    simp only [hj, hstep i, if_neg h1]
    rw [hfound]
    simp only
    rw [hdata]
    exact h

/-! ### slices -/

theorem pairwise_append_le {l : List T} {key : T → Bytes} (h : (l.map key).Pairwise (fun a b => ble a b = true)) (i : Nat) :
    ∀ x ∈ l.take i, ∀ y ∈ l.drop i, ble (key x) (key y) = true := by
  have := h
  rw [← List.take_append_drop i l, List.map_append, List.pairwise_append] at this
  intro x hx y hy
  exact this.2.2 _ (List.mem_map.2 ⟨x, hx, rfl⟩) _ (List.mem_map.2 ⟨y, hy, rfl⟩)

/-- what is known after the slices `cs`, whether all of them have been dealt with or not: `eff` is the effect of rows on the content -/
def PartDone (t : Table T F) (eff : Rows T → List T → Rows T) (base : KV) (cs : List (List T)) (s s' : WSt T F) (m : Rows T) : Prop :=
  ∃ d r, (d ++ r).Perm cs.flatten ∧ (cs.length ≤ 1 → ∀ x ∈ d, ∀ y ∈ r, ble (t.key x) (t.key y) = true) ∧
    Holds t (base.apply s'.ops) (eff m d) ∧ SameOutside t (base.apply s.ops) (base.apply s'.ops) ∧ FilterCovers t s'.filt (eff m d)

theorem PartDone.nil {t : Table T F} {eff : Rows T → List T → Rows T} (h0 : ∀ m, eff m [] = m) {base : KV} {s : WSt T F} {m : Rows T}
    (hH : Holds t (base.apply s.ops) m) (hF : FilterCovers t s.filt m) : PartDone t eff base [] s s m :=
  ⟨[], [], List.Perm.refl _, by simp, by rw [h0]; exact hH, SameOutside.refl _ _, by rw [h0]; exact hF⟩

/-- after a slice that has failed -/
theorem PartDone.fail {t : Table T F} {eff : Rows T → List T → Rows T} {base : KV} {c : List T} {cs : List (List T)} {s s' : WSt T F}
    {m : Rows T} {l : List T} (hp : l.Perm c) (hs : (l.map t.key).Pairwise (fun a b => ble a b = true)) (i : Nat)
    (h1 : Holds t (base.apply s'.ops) (eff m (l.take i))) (h2 : SameOutside t (base.apply s.ops) (base.apply s'.ops))
    (h3 : FilterCovers t s'.filt (eff m (l.take i))) : PartDone t eff base (c :: cs) s s' m := by
  refine ⟨l.take i, l.drop i ++ cs.flatten, ?_, ?_, h1, h2, h3⟩
  · rw [← List.append_assoc, List.take_append_drop, List.flatten_cons]
    exact hp.append_right _
  · intro hlen
    have : cs = [] := List.eq_nil_of_length_eq_zero (by simpa using hlen)
    subst this
    simp only [List.flatten_nil, List.append_nil]
    exact pairwise_append_le hs i

/-- after a slice that has been dealt with -/
theorem PartDone.cons {t : Table T F} {eff : Rows T → List T → Rows T} (happ : ∀ m a b, eff m (a ++ b) = eff (eff m a) b) {base : KV}
    {c : List T} {cs : List (List T)} {s s1 s' : WSt T F} {m : Rows T} {l : List T} (hp : l.Perm c)
    (h2 : SameOutside t (base.apply s.ops) (base.apply s1.ops)) (hcs : cs = [] → s' = s1)
    (h : PartDone t eff base cs s1 s' (eff m l)) : PartDone t eff base (c :: cs) s s' m := by
  obtain ⟨d, r, a1, a2, a3, a4, a5⟩ := h
  refine ⟨l ++ d, r, ?_, ?_, by rw [happ]; exact a3, h2.trans a4, by rw [happ]; exact a5⟩
  · rw [List.append_assoc, List.flatten_cons]
    exact hp.append a1
  · intro hlen
    have : cs = [] := List.eq_nil_of_length_eq_zero (by simpa using hlen)
    subst this
    have := List.append_eq_nil_iff.1 (List.perm_nil.1 a1)
    rw [this.2]
    simp

theorem insertChunks_part {t : Table T F} (wf : t.WF) {env : Env T} (ok : env.OK t) (fs : t.FilterSound)
    {db base : KV} {ob : Option Batch} {cs : List (List T)} {s : WSt T F} {m : Rows T}
    (hr : ReadsOK t db base ob s.ops cs) (hH : Holds t (base.apply s.ops) m) (hF : FilterCovers t s.filt m) :
    PartDone t (fun m d => m.putAll t.pk d) base cs s (forChunks (t.insertChunk env db ob) cs s).1 m := by
  induction cs generalizing s m with
  | nil => exact PartDone.nil (fun _ => rfl) hH hF
  | cons c cs ih =>
    obtain ⟨hd, hp⟩ := describes_sort t env ok c
    rw [forChunks]
    split
    · rename_i s1 h1
      obtain ⟨a, b, cc, d, e⟩ := insertChunk_ok wf ok fs hr.head hH hF h1
      rw [← putAll_perm t.pk hp ((hp.map t.pk).nodup_iff.2 d)] at a cc
      refine PartDone.cons (fun m a b => putAll_append m t.pk a b) hp b (by intro e; subst e; rfl) (ih (hr.tail hH a (fun p hq => ?_)) a cc)
      exact putAll_other _ _ _ _ (fun x hx => hq x (hp.mem_iff.1 hx))
    · rename_i s1 e h1
      obtain ⟨i, s', h, hw⟩ := insertLoop_stop t env ((readView db ob s.ops).scan (((sortKeys env (c.map t.key)).map Prod.fst).headD [])
        t.dataKeySpaceEnd) c (sortKeys env (c.map t.key)) none s
      have h1' : t.insertLoop env ((readView db ob s.ops).scan (((sortKeys env (c.map t.key)).map Prod.fst).headD [])
        t.dataKeySpaceEnd) c none (sortKeys env (c.map t.key)) s = (s1, some e) := h1
      rw [h1'] at hw
      have hsort := sortedRows_sorted t ok c
      obtain ⟨x1, x2, x3, _⟩ := insertLoop_ok (base := base) wf ok fs (hd.take i) (prev := none)
        (by rw [List.map_take]; exact hsort.sublist (List.take_sublist _ _)) (by simp)
        (fun r hr' => sortedRows_lo t ok c r (List.mem_of_mem_take hr'))
        (fun r hr' _ => hr.head r (hp.mem_iff.1 (List.mem_of_mem_take hr'))) hH hF h
      rw [hw.1] at x1 x2
      rw [hw.2] at x3
      exact PartDone.fail hp hsort i x1 x2 x3

theorem updateChunks_part {t : Table T F} (wf : t.WF) {env : Env T} (ok : env.OK t) (rt : t.RoundTrip)
    {db base : KV} {ob : Option Batch} {cs : List (List T)} {s : WSt T F} {m : Rows T}
    (hr : ReadsOK t db base ob s.ops cs) (hH : Holds t (base.apply s.ops) m) (hF : FilterCovers t s.filt m) :
    PartDone t (fun m d => m.putAll t.pk d) base cs s (forChunks (t.updateChunk env db ob) cs s).1 m := by
  induction cs generalizing s m with
  | nil => exact PartDone.nil (fun _ => rfl) hH hF
  | cons c cs ih =>
    obtain ⟨hd, hp⟩ := describes_sort t env ok c
    rw [forChunks]
    split
    · rename_i s1 h1
      obtain ⟨a, b, cc, d⟩ := updateChunk_ok wf ok rt hr.head hH hF h1
      refine PartDone.cons (fun m a b => putAll_append m t.pk a b) hp b (by intro e; subst e; rfl) (ih (hr.tail hH a (fun p hq => ?_)) a cc)
      exact putAll_other _ _ _ _ (fun x hx => hq x (hp.mem_iff.1 hx))
    · rename_i s1 e h1
      obtain ⟨i, s', h, hw⟩ := updateLoop_stop t env ((readView db ob s.ops).scan (((sortKeys env (c.map t.key)).map Prod.fst).headD [])
        t.dataKeySpaceEnd) c (sortKeys env (c.map t.key)) s
      have h1' : t.updateLoop env ((readView db ob s.ops).scan (((sortKeys env (c.map t.key)).map Prod.fst).headD [])
        t.dataKeySpaceEnd) c (sortKeys env (c.map t.key)) s = (s1, some e) := h1
      rw [h1'] at hw
      have hsort := sortedRows_sorted t ok c
      obtain ⟨x1, x2, x3, _⟩ := updateLoop_ok (base := base) wf ok rt (hd.take i)
        (by rw [List.map_take]; exact hsort.sublist (List.take_sublist _ _))
        (fun r hr' => sortedRows_lo t ok c r (List.mem_of_mem_take hr'))
        (fun r hr' => hr.head r (hp.mem_iff.1 (List.mem_of_mem_take hr'))) hH hF h
      rw [hw.1] at x1 x2
      rw [hw.2] at x3
      exact PartDone.fail hp hsort i x1 x2 x3

theorem upsertChunks_part {t : Table T F} (wf : t.WF) {env : Env T} (ok : env.OK t) (rt : t.RoundTrip) (fs : t.FilterSound)
    {oc : Table.OnConflict T} (hoc : OnConflictOK t oc)
    {db base : KV} {ob : Option Batch} {cs : List (List T)} {s : WSt T F} {m : Rows T} (hnd : (cs.flatten.map t.pk).Nodup)
    (hr : ReadsOK t db base ob s.ops cs) (hH : Holds t (base.apply s.ops) m) (hF : FilterCovers t s.filt m) :
    PartDone t (fun m d => m.upsertAll t.pk (fun o x => (oc o x).1) d) base cs s (forChunks (t.upsertChunk env db ob oc) cs s).1 m := by
  induction cs generalizing s m with
  | nil => exact PartDone.nil (fun _ => rfl) hH hF
  | cons c cs ih =>
    obtain ⟨hd, hp⟩ := describes_sort t env ok c
    rw [List.flatten_cons, List.map_append, List.nodup_append] at hnd
    have hndc := (hp.map t.pk).nodup_iff.2 hnd.1
    rw [forChunks]
    split
    · rename_i s1 h1
      obtain ⟨a, b, cc⟩ := upsertLoop_ok (base := base) wf ok rt fs hoc hd (Nat.le_refl _) hndc (sortedRows_lo t ok c)
        (fun r hr' => hr.head r (hp.mem_iff.1 hr')) hH hF h1
      refine PartDone.cons (fun m a b => upsertAll_append m t.pk _ a b) hp b (by intro e; subst e; rfl)
        (ih hnd.2.1 (hr.tail hH a (fun p hq => ?_)) a cc)
      exact upsertAll_other _ _ _ _ _ (fun x hx => hq x (hp.mem_iff.1 hx))
    · rename_i s1 e h1
      obtain ⟨i, s', h, hw⟩ := upsertLoop_stop t env oc ((readView db ob s.ops).scan (((sortKeys env (c.map t.key)).map Prod.fst).headD [])
        t.dataKeySpaceEnd) c hd (sortKeys env (c.map t.key)).length 0 s (Nat.le_refl _) hndc
      have h1' : t.upsertLoop env oc ((readView db ob s.ops).scan (((sortKeys env (c.map t.key)).map Prod.fst).headD [])
        t.dataKeySpaceEnd) c (sortKeys env (c.map t.key)).length 0 (sortKeys env (c.map t.key)) s = (s1, some e) := h1
      rw [h1'] at hw
      have hsort := sortedRows_sorted t ok c
      obtain ⟨x1, x2, x3⟩ := upsertLoop_ok (base := base) wf ok rt fs hoc (hd.take i)
        (by rw [List.length_take]; exact Nat.min_le_right _ _) (by rw [List.map_take]; exact hndc.sublist (List.take_sublist _ _))
        (fun r hr' => sortedRows_lo t ok c r (List.mem_of_mem_take hr'))
        (fun r hr' => hr.head r (hp.mem_iff.1 (List.mem_of_mem_take hr'))) hH hF h
      rw [hw.1] at x1 x2
      rw [hw.2] at x3
      exact PartDone.fail hp hsort i x1 x2 x3

theorem unsafeInsertChunks_part {t : Table T F} (wf : t.WF) {env : Env T} (ok : env.OK t) (fs : t.FilterSound)
    {base : KV} {cs : List (List T)} {s : WSt T F} {m : Rows T} (hH : Holds t (base.apply s.ops) m)
    (hF : FilterCovers t s.filt m) (hnd : (cs.flatten.map t.pk).Nodup) (habs : ∀ x ∈ cs.flatten, m (t.pk x) = none) :
    ∃ d, d <+: cs.flatten ∧ Holds t (base.apply (forChunks (t.unsafeInsertLoop env) cs s).1.ops) (m.putAll t.pk d) ∧
      SameOutside t (base.apply s.ops) (base.apply (forChunks (t.unsafeInsertLoop env) cs s).1.ops) ∧
      FilterCovers t (forChunks (t.unsafeInsertLoop env) cs s).1.filt (m.putAll t.pk d) := by
  induction cs generalizing s m with
  | nil => exact ⟨[], List.prefix_rfl, hH, SameOutside.refl _ _, hF⟩
  | cons c cs ih =>
    rw [List.flatten_cons, List.map_append, List.nodup_append] at hnd
    rw [forChunks]
    split
    · rename_i s1 h1
      obtain ⟨a, b, cc⟩ := unsafeInsertLoop_ok wf ok fs hH hF hnd.1 (fun x hx => habs x (by simp [hx])) h1
      obtain ⟨d, hd, a2, b2, c2⟩ := ih a cc hnd.2.1 (by
        intro y hy
        rw [putAll_other, habs y (by rw [List.flatten_cons]; exact List.mem_append.2 (Or.inr hy))]
        intro x hx
        exact hnd.2.2 _ (List.mem_map.2 ⟨x, hx, rfl⟩) _ (List.mem_map.2 ⟨y, hy, rfl⟩))
      refine ⟨c ++ d, ?_, by rw [putAll_append]; exact a2, b.trans b2, by rw [putAll_append]; exact c2⟩
      rw [List.flatten_cons]
      exact (List.prefix_append_right_inj c).2 hd
    · rename_i s1 e h1
      obtain ⟨i, s', h, hw⟩ := unsafeInsertLoop_stop t env c s
      rw [h1] at hw
      obtain ⟨x1, x2, x3⟩ := unsafeInsertLoop_ok (base := base) wf ok fs hH hF
        (by rw [List.map_take]; exact hnd.1.sublist (List.take_sublist _ _))
        (fun x hx => habs x (by rw [List.flatten_cons]; exact List.mem_append.2 (Or.inl (List.mem_of_mem_take hx)))) h
      rw [hw.1] at x1 x2
      rw [hw.2] at x3
      refine ⟨c.take i, ?_, x1, x2, x3⟩
      rw [List.flatten_cons]
      exact (List.take_prefix i c).trans (List.prefix_append _ _)

theorem truthful_take {t : Table T F} (ps : List (T × T)) : ∀ (m : Rows T) (i : Nat), TruthfulOld t m ps → TruthfulOld t m (ps.take i) := by
  induction ps with
  | nil => intro m i h; simpa using h
  | cons p ps ih =>
    intro m i h
    cases i with
    | zero => trivial
    | succ i => obtain ⟨x, old⟩ := p; exact ⟨h.1, ih _ i h.2⟩

theorem batched_short {trs : List T} {bs : Nat} (h : trs.length ≤ bs) : (batched trs bs).length ≤ 1 := by
  by_cases hne : trs = []
  · subst hne; simp [batched_nil]
  · rw [batched_single trs h hne]; simp

theorem PartDone.someRows {t : Table T F} {eff : Rows T → List T → Rows T} {base : KV} {trs : List T} {s s' : WSt T F} {m : Rows T}
    (h : PartDone t eff base (batched trs persistentBatchSize) s s' m) :
    ∃ d, SomeRows t.key d trs ∧ Holds t (base.apply s'.ops) (eff m d) ∧ SameOutside t (base.apply s.ops) (base.apply s'.ops) ∧
      FilterCovers t s'.filt (eff m d) := by
  obtain ⟨d, r, a1, a2, a3⟩ := h
  rw [batched_flatten trs (by decide)] at a1
  exact ⟨d, ⟨r, a1, fun hl => a2 (batched_short hl)⟩, a3⟩

/-- what is in the batch after a call, failed or not -/
theorem run_part {t : Table T F} (wf : t.WF) (rt : t.RoundTrip) (fs : t.FilterSound) {env : Env T} (ok : env.OK t)
    {db : KV} {f : F} {b : Batch} {m : Rows T} {c : WCall T} (hb : b.indexed = true)
    (hH : Holds t (baseView db (some b)) m) (hF : FilterCovers t f m) (hg : GoodRun t env (baseView db (some b)) c) :
    ∃ c', PartCall t.key c' c ∧ Holds t (t.run env db f (some b) c).view (effect t.pk m c') ∧
      SameOutside t (baseView db (some b)) (t.run env db f (some b) c).view ∧
      FilterCovers t (t.run env db f (some b) c).filt (effect t.pk m c') := by
  have hb : Readable (some b) := by intro b' hb'; cases hb'; exact hb
  have rtf : t.RoundTripFresh := fun x b hb => rt x b hb _
  have hview : ∀ r : WSt T F × Option Err, (finish env db (some b) r).view = (baseView db (some b)).apply r.1.ops := by
    intro r; simp [finish, WOut.view, baseView, KV.apply_append]
  have h0 : Holds t ((baseView db (some b)).apply (t.start f).ops) m := by simpa [Table.start, KV.apply_nil] using hH
  have hs0 : ∀ V, SameOutside t ((baseView db (some b)).apply (t.start f).ops) V → SameOutside t (baseView db (some b)) V := by
    intro V h; simpa [Table.start, KV.apply_nil] using h
  obtain ⟨hc, -⟩ := hg
  rw [Table.run_eq]
  cases c with
  | insert trs =>
    obtain ⟨d, h1, h2, h3, h4⟩ := (insertChunks_part (env := env) wf ok fs (s := t.start f)
      (readsOK_of (by decide) (callReads_of hb hc)) h0 hF).someRows
    exact ⟨.insert d, h1, by rw [if_neg (by simp [WCall.mismatch]), hview]; exact h2, by rw [if_neg (by simp [WCall.mismatch]), hview]; exact hs0 _ h3,
      by rw [if_neg (by simp [WCall.mismatch]), finish_filt]; exact h4⟩
  | update trs =>
    obtain ⟨d, h1, h2, h3, h4⟩ := (updateChunks_part (env := env) wf ok rt (s := t.start f)
      (readsOK_of (by decide) (callReads_of hb hc)) h0 hF).someRows
    exact ⟨.update d, h1, by rw [if_neg (by simp [WCall.mismatch]), hview]; exact h2, by rw [if_neg (by simp [WCall.mismatch]), hview]; exact hs0 _ h3,
      by rw [if_neg (by simp [WCall.mismatch]), finish_filt]; exact h4⟩
  | upsert oc trs =>
    obtain ⟨d, h1, h2, h3, h4⟩ := (upsertChunks_part (env := env) wf ok rt fs hc.2 (s := t.start f)
      (by rw [batched_flatten trs (by decide)]; exact hc.1) (readsOK_of (by decide) (callReads_of hb (Or.inl hc.1))) h0 hF).someRows
    exact ⟨.upsert oc d, ⟨rfl, h1⟩, by rw [if_neg (by simp [WCall.mismatch]), hview]; exact h2,
      by rw [if_neg (by simp [WCall.mismatch]), hview]; exact hs0 _ h3, by rw [if_neg (by simp [WCall.mismatch]), finish_filt]; exact h4⟩
  | delete trs =>
    obtain ⟨i, s', h, hw⟩ := deleteLoop_stop t env trs (t.start f)
    obtain ⟨h2, h3, h4⟩ := deleteLoop_ok (base := baseView db (some b)) wf ok h0 hF
      (fun x hx old ho => hc x (List.mem_of_mem_take hx) old (by rw [storedRow_eq rtf hH]; exact ho)) h
    rw [hw.1] at h2 h3
    rw [hw.2] at h4
    exact ⟨.delete (trs.take i), List.take_prefix _ _, by rw [if_neg (by simp [WCall.mismatch]), hview]; exact h2,
      by rw [if_neg (by simp [WCall.mismatch]), hview]; exact hs0 _ h3, by rw [if_neg (by simp [WCall.mismatch]), finish_filt]; exact h4⟩
  | unsafeInsert trs =>
    obtain ⟨d, h1, h2, h3, h4⟩ := unsafeInsertChunks_part (env := env) wf ok fs (cs := batched trs persistentBatchSize) h0 hF
      (by rw [batched_flatten trs (by decide)]; exact hc.1)
      (by rw [batched_flatten trs (by decide)]; intro x hx; rw [← storedRow_eq rtf hH]; exact hc.2 x hx)
    rw [batched_flatten trs (by decide)] at h1
    exact ⟨.unsafeInsert d, h1, by rw [if_neg (by simp [WCall.mismatch]), hview]; exact h2,
      by rw [if_neg (by simp [WCall.mismatch]), hview]; exact hs0 _ h3, by rw [if_neg (by simp [WCall.mismatch]), finish_filt]; exact h4⟩
  | unsafeUpdate trs olds =>
    by_cases hlen : trs.length = olds.length
    · obtain ⟨g1, g2⟩ := hc hlen
      have htr := truthful_of _ m (fun p hp => by rw [← storedRow_eq rtf hH]; exact g2 p hp)
        (by rw [List.map_fst_zip (by omega)]; exact g1)
      obtain ⟨i, s', h, hw⟩ := unsafeUpdateLoop_stop t env (trs.zip olds) (t.start f)
      obtain ⟨h2, h3, h4⟩ := unsafeUpdateLoop_ok (base := baseView db (some b)) wf ok h0 hF (truthful_take _ m i htr) h
      rw [hw.1] at h2 h3
      rw [hw.2] at h4
      rw [List.map_take, List.map_fst_zip (by omega)] at h2 h4
      have hmm : ¬ (WCall.unsafeUpdate trs olds).mismatch = true := by simp [WCall.mismatch, hlen]
      exact ⟨.unsafeUpdate (trs.take i) olds, ⟨rfl, List.take_prefix _ _⟩, by rw [if_neg hmm, hview]; exact h2,
        by rw [if_neg hmm, hview]; exact hs0 _ h3, by rw [if_neg hmm, finish_filt]; exact h4⟩
    · have hmm : (WCall.unsafeUpdate trs olds).mismatch = true := by simp [WCall.mismatch, hlen]
      refine ⟨.unsafeUpdate [] olds, ⟨rfl, List.nil_prefix⟩, ?_, ?_, ?_⟩ <;> rw [if_pos hmm]
      · exact hH
      · exact SameOutside.refl _ _
      · exact hF

end Bond
