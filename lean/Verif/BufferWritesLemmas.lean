import Verif.BufferWrites
import Verif.BuffersLemmas
/-
The writes on memory are the writes on bytes.
-/
namespace Bond

variable {T F : Type}

theorem batched_length_le {α : Type} (items : List α) (bs : Nat) {c : List α} (hc : c ∈ batched items bs) :
    c.length ≤ items.length ∧ c.length ≤ bs := by
  have key : ∀ (fuel k : Nat), c ∈ batchedLoop items bs fuel k → c.length ≤ items.length ∧ c.length ≤ bs := by
    intro fuel
    induction fuel with
    | zero => intro k h; simp [batchedLoop] at h
    | succ n ih =>
      intro k h
      unfold batchedLoop at h
      split at h
      · rcases List.mem_cons.mp h with h | h
        · subst h
          simp only [List.length_drop, List.length_take]
          split
          · rename_i hgt
            have : items.length % bs < bs := Nat.mod_lt _ (by omega)
            omega
          · omega
        · exact ih _ h
      · simp at h
  exact key _ _ hc

theorem Bufs.append_iff {m : Mem} {a b : List Sl} : Bufs m (a ++ b) ↔ Bufs m a ∧ Bufs m b ∧ ∀ x ∈ a, ∀ y ∈ b, x.Dis y := by
  unfold Bufs
  rw [List.pairwise_append]
  constructor
  · rintro ⟨h1, h2, h3, h4⟩
    exact ⟨⟨fun s hs => h1 s (List.mem_append_left _ hs), h2⟩, ⟨fun s hs => h1 s (List.mem_append_right _ hs), h3⟩, h4⟩
  · rintro ⟨⟨h1, h2⟩, ⟨h3, h4⟩, h5⟩
    exact ⟨fun s hs => (List.mem_append.mp hs).elim (h1 s) (h3 s), h2, h4, h5⟩

/-- writing to some of the buffers -/
theorem Bufs.upd {m m' : Mem} {a b b' : List Sl} (h : Bufs m (a ++ b)) (u : Upd m b m' b') :
    Bufs m' (a ++ b') ∧ ∀ x ∈ a, m'.read x = m.read x := by
  obtain ⟨h1, h2, h3⟩ := Bufs.append_iff.mp h
  refine ⟨Bufs.append_iff.mpr ⟨⟨fun s hs => (h1.1 s hs).mono u.next_le, h1.2⟩, u.bufs, fun x hx => (u.frame x (h1.1 x hx) (h3 x hx)).2⟩, ?_⟩
  exact fun x hx => (u.frame x (h1.1 x hx) (h3 x hx)).1

theorem Writes.upd {m m' : Mem} {v v' : Sl} (w : Writes m v m' v') : Upd m [v] m' [v'] :=
  ⟨rfl, w.next_le, ⟨fun s hs => by rw [List.mem_singleton] at hs; rw [hs]; exact w.ok, List.pairwise_singleton _ _⟩,
    fun r hr hd => ⟨(w.frame r hr (hd v (by simp))).1, fun x hx => by
      rw [List.mem_singleton] at hx; rw [hx]; exact (w.frame r hr (hd v (by simp))).2⟩⟩

theorem keyM_spec {t : Table T F} (grow : Nat → Nat → Nat) {pc : Pieces T} (hp : pc.For t) (tr : T) {m : Mem} {b : Sl} (h : b.OK m) :
    Writes m b (t.keyM grow pc tr m b).1 (t.keyM grow pc tr m b).2 ∧ (t.keyM grow pc tr m b).1.read (t.keyM grow pc tr m b).2 = t.key tr := by
  have := keyEncodeRawM_spec grow t.id primaryIndexID none none (some (pc.pk tr)) h.zero
  refine ⟨⟨this.1.next_le, this.1.ok, fun r hr hd => this.1.frame r hr hd.zero⟩, ?_⟩
  unfold Table.keyM
  rw [this.2, Mem.read_zero]
  simp only [Option.map_none, Option.map_some, hp.pk]
  rfl

theorem indexKeyM_spec {t : Table T F} (grow : Nat → Nat → Nat) {pc : Pieces T} (hp : pc.For t) (idx : Index T) (tr : T) {m : Mem} {b : Sl}
    (h : b.OK m) :
    Writes m b (t.indexKeyM grow pc idx tr m b.zero).1 (t.indexKeyM grow pc idx tr m b.zero).2 ∧
    (t.indexKeyM grow pc idx tr m b.zero).1.read (t.indexKeyM grow pc idx tr m b.zero).2 = t.indexKey idx tr := by
  have := keyEncodeRawM_spec grow t.id idx.id (some (pc.key idx tr)) (some (pc.ord idx tr)) (some (pc.pk tr)) h.zero
  refine ⟨⟨this.1.next_le, this.1.ok, fun r hr hd => this.1.frame r hr hd.zero⟩, ?_⟩
  unfold Table.indexKeyM
  rw [this.2, Mem.read_zero]
  simp only [Option.map_some, hp.pk, hp.key, hp.ord]
  rfl

theorem keysExternalM_spec {t : Table T F} (grow : Nat → Nat → Nat) {pc : Pieces T} (hp : pc.For t) : ∀ (trs : List T) (m : Mem)
    (bs : List Sl), Bufs m bs → trs.length ≤ bs.length → ∃ m' ks left, t.keysExternalM grow pc m trs bs = some (m', ks, left) ∧
      Upd m bs m' (ks ++ left) ∧ ks.map m'.read = trs.map t.key := by
  intro trs
  induction trs with
  | nil => intro m bs h _; exact ⟨m, [], bs, rfl, Upd.refl h, rfl⟩
  | cons tr trs ih =>
    intro m bs h hl
    cases bs with
    | nil => simp at hl
    | cons b bs =>
      obtain ⟨w, r⟩ := keyM_spec grow hp tr (h.1 b List.mem_cons_self)
      obtain ⟨m', ks, left, e, u, c⟩ := ih (t.keyM grow pc tr m b).1 bs (h.tail_writes w) (by simpa using hl)
      obtain ⟨U, rd⟩ := Upd.cons h w u
      refine ⟨m', (t.keyM grow pc tr m b).2 :: ks, left, ?_, U, ?_⟩
      · simp only [Table.keysExternalM, e, Option.map_some]
      · rw [List.map_cons, List.map_cons, c, rd, r]

/-- only scratch buffers and new memory were written to -/
structure Scr (bufs : List Sl) (m m' : Mem) : Prop where
  next_le : m.next ≤ m'.next
  frame : ∀ r : Sl, r.OK m → (∀ b ∈ bufs, r.Dis b) → m'.read r = m.read r

theorem Scr.refl (bufs : List Sl) (m : Mem) : Scr bufs m m := ⟨Nat.le_refl _, fun _ _ _ => rfl⟩

theorem Scr.trans {bufs : List Sl} {m m1 m2 : Mem} (a : Scr bufs m m1) (b : Scr bufs m1 m2) : Scr bufs m m2 :=
  ⟨Nat.le_trans a.next_le b.next_le, fun r hr hd => (b.frame r (hr.mono a.next_le) hd).trans (a.frame r hr hd)⟩

theorem Writes.scr {bufs : List Sl} {m m' : Mem} {v v' : Sl} (w : Writes m v m' v') (h : v ∈ bufs) : Scr bufs m m' :=
  ⟨w.next_le, fun r hr hd => (w.frame r hr (hd v h)).1⟩

theorem onInsertM_spec {t : Table T F} (grow : Nat → Nat → Nat) {pc : Pieces T} (hp : pc.For t) (tr : T) {ib : Sl} {bufs : List Sl}
    (hib : ib ∈ bufs) (idx : Index T) {m : Mem} (h : ib.OK m) :
    Scr bufs m (onInsertM t grow pc tr ib.zero idx m).1 ∧ (onInsertM t grow pc tr ib.zero idx m).2 = onInsert t idx tr := by
  unfold onInsertM onInsert
  split
  · obtain ⟨w, r⟩ := indexKeyM_spec grow hp idx tr h
    exact ⟨w.scr hib, by simp only [r]⟩
  · exact ⟨Scr.refl _ _, rfl⟩

theorem onDeleteM_spec {t : Table T F} (grow : Nat → Nat → Nat) {pc : Pieces T} (hp : pc.For t) (tr : T) {ib : Sl} {bufs : List Sl}
    (hib : ib ∈ bufs) (idx : Index T) {m : Mem} (h : ib.OK m) :
    Scr bufs m (onDeleteM t grow pc tr ib.zero idx m).1 ∧ (onDeleteM t grow pc tr ib.zero idx m).2 = onDelete t idx tr := by
  unfold onDeleteM onDelete
  split
  · obtain ⟨w, r⟩ := indexKeyM_spec grow hp idx tr h
    exact ⟨w.scr hib, by simp only [r]⟩
  · exact ⟨Scr.refl _ _, rfl⟩

theorem onUpdateM_spec {t : Table T F} (grow : Nat → Nat → Nat) {pc : Pieces T} (hp : pc.For t) (old tr : T) {ib ib2 : Sl} (hd : ib.Dis ib2)
    (idx : Index T) {m : Mem} (h : ib.OK m) (h2 : ib2.OK m) :
    Scr [ib, ib2] m (onUpdateM t grow pc old tr ib.zero ib2.zero idx m).1 ∧
    (onUpdateM t grow pc old tr ib.zero ib2.zero idx m).2 = onUpdate t idx old tr := by
  unfold onUpdateM onUpdate
  by_cases ho : idx.filter old
  · obtain ⟨w, r⟩ := indexKeyM_spec grow hp idx old h
    by_cases hn : idx.filter tr
    · obtain ⟨w2, r2⟩ := indexKeyM_spec grow hp idx tr (h2.mono w.next_le)
      have hk := w2.frame _ w.ok (w.frame ib2 h2 hd.symm).2.symm
      simp only [ho, hn, ↓reduceIte, r2, hk.1, r]
      exact ⟨(w.scr (by simp)).trans (w2.scr (by simp)), trivial⟩
    · simp only [ho, hn, ↓reduceIte, r, Bool.false_eq_true]
      exact ⟨w.scr (by simp), trivial⟩
  · by_cases hn : idx.filter tr
    · obtain ⟨w2, r2⟩ := indexKeyM_spec grow hp idx tr h2
      simp only [ho, hn, ↓reduceIte, r2, Bool.false_eq_true]
      exact ⟨w2.scr (by simp), trivial⟩
    · simp only [ho, hn, ↓reduceIte, Bool.false_eq_true]
      exact ⟨Scr.refl _ _, trivial⟩

theorem idxOpsM_spec {bufs : List Sl} {f : Index T → Mem → Mem × List WOp} {g : Index T → List WOp}
    (h : ∀ i m, (∀ b ∈ bufs, b.OK m) → Scr bufs m (f i m).1 ∧ (f i m).2 = g i) : ∀ (is : List (Index T)) (m : Mem), (∀ b ∈ bufs, b.OK m) →
    Scr bufs m (idxOpsM f is m).1 ∧ (idxOpsM f is m).2 = is.flatMap g := by
  intro is
  induction is with
  | nil => intro m _; exact ⟨Scr.refl _ _, rfl⟩
  | cons i is ih =>
    intro m hb
    obtain ⟨a, b⟩ := h i m hb
    obtain ⟨c, d⟩ := ih (f i m).1 (fun x hx => (hb x hx).mono a.next_le)
    exact ⟨a.trans c, by simp only [idxOpsM, b, d, List.flatMap_cons]⟩

/-- the buffers of a write call, apart from each other -/
abbrev WBufs (m : Mem) (ib ib2 val : Sl) (kb : List Sl) : Prop := Bufs m (ib :: ib2 :: val :: kb)

/-- serializing a row into the value buffer -/
theorem WBufs.serialize {m : Mem} {ib ib2 val : Sl} {kb : List Sl} (h : WBufs m ib ib2 val kb) (grow : Nat → Nat → Nat) (data : Bytes) :
    WBufs (m.append grow val.zero data).1 ib ib2 (m.append grow val.zero data).2 kb ∧
    (m.append grow val.zero data).1.read (m.append grow val.zero data).2 = data ∧
    ∀ k ∈ kb, (m.append grow val.zero data).1.read k = m.read k := by
  have p : (ib :: ib2 :: val :: kb).Perm ((ib :: ib2 :: kb) ++ [val]) := by
    have : (val :: kb).Perm (kb ++ [val]) := (List.perm_append_singleton val kb).symm
    exact (this.cons ib2).cons ib
  have h' : Bufs m ((ib :: ib2 :: kb) ++ [val]) := h.perm p.symm
  have hv : val.OK m := h.1 val (by simp)
  have w0 : Writes m val m val.zero := ⟨Nat.le_refl _, hv.zero, fun _ _ hd => ⟨rfl, hd.zero⟩⟩
  have w := w0.trans (append_writes grow hv.zero data)
  have rd := read_append grow m val.zero data
  rw [Mem.read_zero, List.nil_append] at rd
  generalize m.append grow val.zero data = d at w rd ⊢
  obtain ⟨b, e⟩ := h'.upd w.upd
  have p2 : (ib :: ib2 :: d.2 :: kb).Perm ((ib :: ib2 :: kb) ++ [d.2]) := by
    have : (d.2 :: kb).Perm (kb ++ [d.2]) := (List.perm_append_singleton d.2 kb).symm
    exact (this.cons ib2).cons ib
  exact ⟨b.perm p2, rd, fun k hk => e k (List.mem_cons_of_mem _ (List.mem_cons_of_mem _ hk))⟩

/-- building index keys -/
theorem WBufs.scr {m m' : Mem} {ib ib2 val : Sl} {kb : List Sl} (h : WBufs m ib ib2 val kb) (s : Scr [ib, ib2] m m') :
    WBufs m' ib ib2 val kb ∧ ∀ k ∈ kb, m'.read k = m.read k := by
  refine ⟨⟨fun x hx => (h.1 x hx).mono s.next_le, h.2⟩, fun k hk => s.frame k (h.1 k (by simp [hk])) ?_⟩
  have h1 := List.pairwise_cons.mp h.2
  have h2 := List.pairwise_cons.mp h1.2
  intro b hb
  simp only [List.mem_cons, List.not_mem_nil, or_false] at hb
  rcases hb with rfl | rfl
  · exact (h1.1 k (by simp [hk])).symm
  · exact (h2.1 k (by simp [hk])).symm

theorem WBufs.ok {m : Mem} {ib ib2 val : Sl} {kb : List Sl} (h : WBufs m ib ib2 val kb) : (∀ b ∈ [ib, ib2], b.OK m) ∧ ib.Dis ib2 := by
  refine ⟨fun b hb => h.1 b ?_, (List.pairwise_cons.mp h.2).1 ib2 (by simp)⟩
  simp only [List.mem_cons, List.not_mem_nil, or_false] at hb ⊢
  rcases hb with h | h
  · exact Or.inl h
  · exact Or.inr (Or.inl h)

/-- the keys with their places, on bytes -/
def readKeys (m : Mem) (l : List (Sl × Nat)) : List (Bytes × Nat) := l.map (fun p => (m.read p.1, p.2))

theorem readKeys_congr {m m' : Mem} {kb : List Sl} (h : ∀ k ∈ kb, m'.read k = m.read k) {l : List (Sl × Nat)} (hl : ∀ p ∈ l, p.1 ∈ kb) :
    readKeys m' l = readKeys m l := by
  apply List.map_congr_left
  intro p hp
  simp only [h p.1 (hl p hp)]

theorem insertLoopM_spec {t : Table T F} (env : Env T) (grow : Nat → Nat → Nat) {pc : Pieces T} (hp : pc.For t) (ib ib2 : Sl) (kb : List Sl)
    (entries : List (Bytes × Bytes)) (trs : List T) : ∀ (l : List (Sl × Nat)) (prev : Option Sl) (m : Mem) (val : Sl) (s : WSt T F),
    WBufs m ib ib2 val kb → (∀ p ∈ l, p.1 ∈ kb) → (∀ k, prev = some k → k ∈ kb) →
    (t.insertLoopM env grow pc ib entries trs prev l m val s).1 = t.insertLoop env entries trs (prev.map m.read) (readKeys m l) s ∧
    WBufs (t.insertLoopM env grow pc ib entries trs prev l m val s).2.1 ib ib2 (t.insertLoopM env grow pc ib entries trs prev l m val s).2.2 kb := by
  intro l
  induction l with
  | nil => intro prev m val s h _ _; exact ⟨rfl, h⟩
  | cons p l ih =>
    intro prev m val s h hl hpr
    obtain ⟨key, j⟩ := p
    simp only [Table.insertLoopM, readKeys, List.map_cons, Table.insertLoop]
    split
    · exact ⟨rfl, h⟩
    split
    · exact ⟨rfl, h⟩
    cases trs[j]? with
    | none => exact ⟨rfl, h⟩
    | some tr =>
      simp only
      cases t.ser tr with
      | none => exact ⟨rfl, h⟩
      | some data =>
        simp only
        obtain ⟨h1, r1, k1⟩ := h.serialize grow data
        generalize m.append grow val.zero data = d at h1 r1 k1 ⊢
        obtain ⟨sc, ops⟩ := idxOpsM_spec (bufs := [ib, ib2]) (f := onInsertM t grow pc tr ib.zero) (g := fun i => onInsert t i tr)
          (fun i m hb => onInsertM_spec grow hp tr (by simp) i (hb ib (by simp))) (env.order s.clock) d.1 h1.ok.1
        generalize idxOpsM (onInsertM t grow pc tr ib.zero) (env.order s.clock) d.1 = x at sc ops ⊢
        obtain ⟨h2, k2⟩ := h1.scr sc
        have hkey := hl (key, j) List.mem_cons_self
        have hl' : ∀ p ∈ l, p.1 ∈ kb := fun p hp => hl p (List.mem_cons_of_mem _ hp)
        obtain ⟨e, b⟩ := ih (some key) x.1 d.2
          { ops := s.ops ++ .set (d.1.read key) (d.1.read d.2) :: x.2
            filt := t.filterAdd s.filt (x.1.read key), clock := s.clock + 1, oldTr := s.oldTr } h2 hl'
          (fun k hk => by cases hk; exact hkey)
        refine ⟨?_, b⟩
        rw [e, readKeys_congr (fun k hk => (k2 k hk).trans (k1 k hk)) hl', Option.map_some, k2 _ hkey, k1 _ hkey, r1, ops]
        rfl

theorem readKeys_head (m : Mem) (l : List (Sl × Nat)) : ((readKeys m l).head?.map Prod.fst) = l.head?.map (fun p => m.read p.1) := by
  cases l <;> rfl

theorem updateLoopM_spec {t : Table T F} (env : Env T) (grow : Nat → Nat → Nat) {pc : Pieces T} (hp : pc.For t) (ib ib2 : Sl) (kb : List Sl)
    (entries : List (Bytes × Bytes)) (trs : List T) : ∀ (l : List (Sl × Nat)) (m : Mem) (val : Sl) (s : WSt T F),
    WBufs m ib ib2 val kb → (∀ p ∈ l, p.1 ∈ kb) →
    (t.updateLoopM env grow pc ib ib2 entries trs l m val s).1 = t.updateLoop env entries trs (readKeys m l) s ∧
    WBufs (t.updateLoopM env grow pc ib ib2 entries trs l m val s).2.1 ib ib2 (t.updateLoopM env grow pc ib ib2 entries trs l m val s).2.2 kb := by
  intro l
  induction l with
  | nil => intro m val s h _; exact ⟨rfl, h⟩
  | cons p l ih =>
    intro m val s h hl
    obtain ⟨key, j⟩ := p
    have hl' : ∀ p ∈ l, p.1 ∈ kb := fun p hp => hl p (List.mem_cons_of_mem _ hp)
    have e0 : readKeys m ((key, j) :: l) = (m.read key, j) :: readKeys m l := rfl
    rw [e0]
    simp only [Table.updateLoopM, Table.updateLoop, readKeys_head]
    split
    · exact ⟨rfl, h⟩
    split
    · exact ih m val _ h hl'
    cases seekExact entries (m.read key) with
    | none => exact ⟨rfl, h⟩
    | some v =>
    simp only
    cases t.deser s.oldTr v with
    | none => exact ⟨rfl, h⟩
    | some old =>
    simp only
    cases trs[j]? with
    | none => exact ⟨rfl, h⟩
    | some tr =>
      simp only
      cases t.ser tr with
      | none => exact ⟨rfl, h⟩
      | some data =>
        simp only
        obtain ⟨h1, r1, k1⟩ := h.serialize grow data
        generalize m.append grow val.zero data = d at h1 r1 k1 ⊢
        obtain ⟨sc, ops⟩ := idxOpsM_spec (bufs := [ib, ib2]) (f := onUpdateM t grow pc old tr ib.zero ib2.zero) (g := fun i => onUpdate t i old tr)
          (fun i m hb => onUpdateM_spec grow hp old tr h1.ok.2 i (hb ib (by simp)) (hb ib2 (by simp))) (env.order s.clock) d.1 h1.ok.1
        generalize idxOpsM (onUpdateM t grow pc old tr ib.zero ib2.zero) (env.order s.clock) d.1 = x at sc ops ⊢
        obtain ⟨h2, k2⟩ := h1.scr sc
        have hkey := hl (key, j) List.mem_cons_self
        obtain ⟨e, b⟩ := ih x.1 d.2
          { ops := s.ops ++ .set (d.1.read key) (d.1.read d.2) :: x.2
            filt := s.filt, clock := s.clock + 1, oldTr := old } h2 hl'
        refine ⟨?_, b⟩
        rw [e, readKeys_congr (fun k hk => (k2 k hk).trans (k1 k hk)) hl', k1 _ hkey, r1, ops]

theorem upsertDupM_spec (oc : Table.OnConflict T) (trs : List T) (m : Mem) (key : Sl) : ∀ (l : List (Sl × Nat)) (i : Nat) (tr old : T),
    Table.upsertDup oc trs (m.read key) (readKeys m l) i tr old =
      (upsertDupM oc trs m key l i tr old).map (fun r => (readKeys m r.1, r.2)) ∧
    ∀ r, upsertDupM oc trs m key l i tr old = some r → ∀ p ∈ r.1, p ∈ l := by
  intro l
  induction l with
  | nil => intro i tr old; exact ⟨rfl, by intro r h; simp only [upsertDupM, Option.some.injEq] at h; subst h; intro p hp; exact hp⟩
  | cons p l ih =>
    intro i tr old
    obtain ⟨k', j'⟩ := p
    have e0 : readKeys m ((k', j') :: l) = (m.read k', j') :: readKeys m l := rfl
    rw [e0]
    simp only [Table.upsertDup, upsertDupM]
    split
    · cases trs[i + 1]? with
      | none => exact ⟨rfl, by simp⟩
      | some x =>
        simp only
        obtain ⟨a, b⟩ := ih (i + 1) (oc tr x).1 (oc tr x).2
        exact ⟨a, fun r hr p hp => List.mem_cons_of_mem _ (b r hr p hp)⟩
    · exact ⟨rfl, by intro r h; simp only [Option.some.injEq] at h; subst h; intro p hp; exact hp⟩

theorem upsertLoopM_spec {t : Table T F} (env : Env T) (grow : Nat → Nat → Nat) {pc : Pieces T} (hp : pc.For t) (ib ib2 : Sl) (kb : List Sl)
    (oc : Table.OnConflict T) (entries : List (Bytes × Bytes)) (trs : List T) : ∀ (fuel i : Nat) (l : List (Sl × Nat)) (m : Mem) (val : Sl)
    (s : WSt T F), WBufs m ib ib2 val kb → (∀ p ∈ l, p.1 ∈ kb) →
    (t.upsertLoopM env grow pc ib ib2 oc entries trs fuel i l m val s).1 = t.upsertLoop env oc entries trs fuel i (readKeys m l) s ∧
    WBufs (t.upsertLoopM env grow pc ib ib2 oc entries trs fuel i l m val s).2.1 ib ib2
      (t.upsertLoopM env grow pc ib ib2 oc entries trs fuel i l m val s).2.2 kb := by
  intro fuel
  induction fuel with
  | zero => intro i l m val s h _; simp only [Table.upsertLoopM, Table.upsertLoop]; exact ⟨trivial, h⟩
  | succ n ih =>
    intro i l m val s h hl
    cases l with
    | nil => simp only [Table.upsertLoopM, readKeys, List.map_nil, Table.upsertLoop]; exact ⟨trivial, h⟩
    | cons p l =>
      obtain ⟨key, j⟩ := p
      have hl' : ∀ p ∈ l, p.1 ∈ kb := fun p hp => hl p (List.mem_cons_of_mem _ hp)
      have hkey := hl (key, j) List.mem_cons_self
      have e0 : readKeys m ((key, j) :: l) = (m.read key, j) :: readKeys m l := rfl
      rw [e0]
      simp only [Table.upsertLoopM, Table.upsertLoop]
      cases trs[j]? with
      | none => exact ⟨rfl, h⟩
      | some tr =>
      simp only
      split
      · exact ⟨rfl, h⟩
      cases t.existIter s.filt entries (m.read key) with
      | none =>
        simp only
        obtain ⟨du, dm⟩ := upsertDupM_spec oc trs m key l i tr s.oldTr
        rw [du]
        cases hd : upsertDupM oc trs m key l i tr s.oldTr with
        | none => exact ⟨rfl, h⟩
        | some r =>
        obtain ⟨rest', i', tr', old'⟩ := r
        have hr' : ∀ p ∈ rest', p.1 ∈ kb := fun p hp => hl' p (dm _ hd p hp)
        simp only [Option.map_some]
        cases t.ser tr' with
        | none => exact ⟨rfl, h⟩
        | some data =>
          simp only
          obtain ⟨h1, r1, k1⟩ := h.serialize grow data
          generalize m.append grow val.zero data = d at h1 r1 k1 ⊢
          obtain ⟨sc, ops⟩ := idxOpsM_spec (bufs := [ib, ib2]) (f := onInsertM t grow pc tr' ib.zero) (g := fun i => onInsert t i tr')
            (fun i m hb => onInsertM_spec grow hp tr' (by simp) i (hb ib (by simp))) (env.order s.clock) d.1 h1.ok.1
          generalize idxOpsM (onInsertM t grow pc tr' ib.zero) (env.order s.clock) d.1 = x at sc ops ⊢
          obtain ⟨h2, k2⟩ := h1.scr sc
          obtain ⟨e, b⟩ := ih (i' + 1) rest' x.1 d.2
            { ops := s.ops ++ .set (d.1.read key) (d.1.read d.2) :: x.2
              filt := t.filterAdd s.filt (x.1.read key), clock := s.clock + 1, oldTr := old' } h2 hr'
          refine ⟨?_, b⟩
          rw [e, readKeys_congr (fun k hk => (k2 k hk).trans (k1 k hk)) hr', k2 _ hkey, k1 _ hkey, r1, ops]
      | some v =>
        simp only
        cases t.deser s.oldTr v with
        | none => exact ⟨rfl, h⟩
        | some old =>
          simp only [Option.map_some]
          obtain ⟨du, dm⟩ := upsertDupM_spec oc trs m key l i (oc old tr).1 (oc old tr).2
          rw [du]
          cases hd : upsertDupM oc trs m key l i (oc old tr).1 (oc old tr).2 with
          | none => exact ⟨rfl, h⟩
          | some r =>
          obtain ⟨rest', i', tr', old'⟩ := r
          have hr' : ∀ p ∈ rest', p.1 ∈ kb := fun p hp => hl' p (dm _ hd p hp)
          simp only [Option.map_some]
          cases t.ser tr' with
          | none => exact ⟨rfl, h⟩
          | some data =>
            simp only
            obtain ⟨h1, r1, k1⟩ := h.serialize grow data
            generalize m.append grow val.zero data = d at h1 r1 k1 ⊢
            obtain ⟨sc, ops⟩ := idxOpsM_spec (bufs := [ib, ib2]) (f := onUpdateM t grow pc old' tr' ib.zero ib2.zero)
              (g := fun i => onUpdate t i old' tr')
              (fun i m hb => onUpdateM_spec grow hp old' tr' h1.ok.2 i (hb ib (by simp)) (hb ib2 (by simp))) (env.order s.clock) d.1 h1.ok.1
            generalize idxOpsM (onUpdateM t grow pc old' tr' ib.zero ib2.zero) (env.order s.clock) d.1 = x at sc ops ⊢
            obtain ⟨h2, k2⟩ := h1.scr sc
            obtain ⟨e, b⟩ := ih (i' + 1) rest' x.1 d.2
              { ops := s.ops ++ .set (d.1.read key) (d.1.read d.2) :: x.2
                filt := s.filt, clock := s.clock + 1, oldTr := old' } h2 hr'
            refine ⟨?_, b⟩
            rw [e, readKeys_congr (fun k hk => (k2 k hk).trans (k1 k hk)) hr', k1 _ hkey, r1, ops]

theorem deleteLoopM_spec {t : Table T F} (env : Env T) (grow : Nat → Nat → Nat) {pc : Pieces T} (hp : pc.For t) (kb ib : Sl)
    (L : List Sl) : ∀ (trs : List T) (m : Mem) (s : WSt T F), Bufs m (ib :: kb :: L) →
    (t.deleteLoopM env grow pc kb ib trs m s).1 = t.deleteLoop env trs s ∧ Bufs (t.deleteLoopM env grow pc kb ib trs m s).2 (ib :: kb :: L) := by
  intro trs
  induction trs with
  | nil => intro m s h; exact ⟨rfl, h⟩
  | cons tr trs ih =>
    intro m s h
    simp only [Table.deleteLoopM, Table.deleteLoop]
    split
    · exact ⟨rfl, h⟩
    have hib : ib.OK m := h.1 ib (by simp)
    obtain ⟨w, r⟩ := keyM_spec grow hp tr (h.1 kb (by simp))
    generalize t.keyM grow pc tr m kb = k at w r ⊢
    obtain ⟨sc, ops⟩ := idxOpsM_spec (bufs := [ib]) (f := onDeleteM t grow pc tr ib.zero) (g := fun i => onDelete t i tr)
      (fun i m hb => onDeleteM_spec grow hp tr (by simp) i (hb ib (by simp))) (env.order s.clock) k.1
      (by intro b hb; rw [List.mem_singleton] at hb; rw [hb]; exact hib.mono w.next_le)
    generalize idxOpsM (onDeleteM t grow pc tr ib.zero) (env.order s.clock) k.1 = x at sc ops ⊢
    obtain ⟨e, b⟩ := ih x.1 { s with ops := s.ops ++ .del (k.1.read k.2) :: x.2, clock := s.clock + 1 }
      ⟨fun y hy => ((h.1 y hy).mono w.next_le).mono sc.next_le, h.2⟩
    refine ⟨?_, b⟩
    rw [e, r, ops]

theorem sortKeysM_read (env : Env T) (m : Mem) (keys : List Sl) : readKeys m (sortKeysM env m keys) = sortKeys env (keys.map m.read) := by
  unfold readKeys sortKeysM sortKeys
  simp only [List.map_map]
  apply List.map_congr_left
  intro j _
  simp only [Function.comp]
  rw [List.getD_eq_getElem?_getD, List.getD_eq_getElem?_getD, List.getElem?_map]
  cases keys[j]? <;> rfl

theorem sortKeysM_perm {t : Table T F} {env : Env T} (ok : env.OK t) (m : Mem) (keys : List Sl) :
    ((sortKeysM env m keys).map Prod.fst).Perm keys := by
  have p := (ok.sort_perm (keys.map m.read)).map (fun j => keys.getD j ⟨0, 0, 0, 0⟩)
  have e : (List.range (keys.map m.read).length).map (fun j => keys.getD j ⟨0, 0, 0, 0⟩) = keys := by
    apply List.ext_getElem?
    intro i
    rw [List.getElem?_map, List.length_map]
    by_cases h : i < keys.length
    · rw [List.getElem?_range h, Option.map_some, List.getD_eq_getElem?_getD, List.getElem?_eq_getElem h]; rfl
    · rw [List.getElem?_eq_none (by simp; omega), List.getElem?_eq_none (by omega)]; rfl
  rw [e] at p
  have e2 : (sortKeysM env m keys).map Prod.fst = (env.sort (keys.map m.read)).map (fun j => keys.getD j ⟨0, 0, 0, 0⟩) := by
    simp [sortKeysM]
  rw [e2]
  exact p

/-- the buffers of a write call before and after a slice -/
structure WMem.Good (n : Nat) (w : WMem) : Prop where
  bufs : WBufs w.mem w.ib w.ib2 w.val w.keys
  len : n ≤ w.keys.length

/-- one slice on memory is one slice on bytes, if the loop is -/
theorem chunkM_spec {t : Table T F} {env : Env T} (ok : env.OK t) (grow : Nat → Nat → Nat) {pc : Pieces T} (hp : pc.For t) (db : KV)
    (ob : Option Batch)
    (loop : List (Bytes × Bytes) → List (Sl × Nat) → Mem → Sl → WSt T F → (WSt T F × Option Err) × Mem × Sl)
    (loop0 : List (Bytes × Bytes) → List (Bytes × Nat) → WSt T F → WSt T F × Option Err) (trs : List T) (s : WSt T F) (w : WMem) {n : Nat}
    (g : w.Good n) (hl : trs.length ≤ n)
    (hloop : ∀ es (l : List (Sl × Nat)) m val s kb, WBufs m w.ib w.ib2 val kb → (∀ p ∈ l, p.1 ∈ kb) →
      (loop es l m val s).1 = loop0 es (readKeys m l) s ∧ WBufs (loop es l m val s).2.1 w.ib w.ib2 (loop es l m val s).2.2 kb) :
    ((t.chunkM env grow pc db ob loop trs (s, w)).1.1, (t.chunkM env grow pc db ob loop trs (s, w)).2) =
      (let keys := sortKeys env (trs.map t.key)
       loop0 ((readView db ob s.ops).scan ((keys.map Prod.fst).headD []) t.dataKeySpaceEnd) keys s) ∧
    (t.chunkM env grow pc db ob loop trs (s, w)).1.2.Good n := by
  have hb : Bufs w.mem ([w.ib, w.ib2, w.val] ++ w.keys) := g.bufs
  obtain ⟨m, ks, left, e, u, c⟩ := keysExternalM_spec grow hp trs w.mem w.keys (Bufs.append_iff.mp hb).2.1 (Nat.le_trans hl g.len)
  obtain ⟨b1, _⟩ := hb.upd u
  have pk := sortKeysM_perm ok m ks
  have b2 : WBufs m w.ib w.ib2 w.val ((sortKeysM env m ks).map Prod.fst ++ left) :=
    b1.perm (((((pk.append_right left).cons _).cons _).cons _))
  unfold Table.chunkM
  simp only [e]
  obtain ⟨l1, l2⟩ := hloop ((readView db ob s.ops).scan ((((sortKeysM env m ks).map Prod.fst).map m.read).headD []) t.dataKeySpaceEnd)
    (sortKeysM env m ks) m w.val s ((sortKeysM env m ks).map Prod.fst ++ left) b2
    (fun p hp => List.mem_append_left _ (List.mem_map_of_mem hp))
  refine ⟨?_, l2, ?_⟩
  · rw [sortKeysM_read, c, sortKeysM_fst, c] at l1
    rw [sortKeysM_fst, c]
    rw [← l1]
  · show n ≤ ((sortKeysM env m ks).map Prod.fst ++ left).length
    rw [List.length_append, pk.length_eq, ← List.length_append, u.length_eq]
    exact g.len

theorem forChunksM_spec {σ μ α : Type} {fM : List α → σ × μ → (σ × μ) × Option Err} {f : List α → σ → σ × Option Err} {P : μ → Prop} :
    ∀ (cs : List (List α)), (∀ c ∈ cs, ∀ s w, P w → ((fM c (s, w)).1.1, (fM c (s, w)).2) = f c s ∧ P (fM c (s, w)).1.2) → ∀ (s : σ) (w : μ),
    P w → ((forChunks fM cs (s, w)).1.1, (forChunks fM cs (s, w)).2) = forChunks f cs s ∧ P (forChunks fM cs (s, w)).1.2 := by
  intro cs
  induction cs with
  | nil => intro _ s w hw; exact ⟨rfl, hw⟩
  | cons c cs ih =>
    intro h s w hw
    obtain ⟨a, b⟩ := h c List.mem_cons_self s w hw
    simp only [forChunks]
    rw [← a]
    cases hc : fM c (s, w) with
    | mk q e =>
      obtain ⟨s', w'⟩ := q
      rw [hc] at b
      cases e with
      | none => exact ih (fun c hc => h c (List.mem_cons_of_mem _ hc)) s' w' b
      | some e => exact ⟨rfl, b⟩

theorem chunk_len {trs c : List T} {bs n : Nat} (hn : min trs.length bs ≤ n) (hc : c ∈ batched trs bs) : c.length ≤ n := by
  have := batched_length_le trs bs hc
  omega

theorem insertM_spec {t : Table T F} {env : Env T} (ok : env.OK t) (bs : Nat) (grow : Nat → Nat → Nat) {pc : Pieces T} (hp : pc.For t) (db : KV)
    (filt : F) (ob : Option Batch) (trs : List T) (w : WMem) {n : Nat} (hn : min trs.length bs ≤ n) (g : w.Good n) :
    (t.insertM bs env grow pc db filt ob trs w).1 = t.insertBs bs env db filt ob trs ∧ (t.insertM bs env grow pc db filt ob trs w).2.Good n := by
  unfold Table.insertM Table.insertBs
  dsimp only
  obtain ⟨a, b⟩ := forChunksM_spec (P := WMem.Good n) (f := t.insertChunk env db ob)
    (fM := fun c sw => t.chunkM env grow pc db ob (fun es ks => t.insertLoopM env grow pc sw.2.ib es c none ks) c sw) (batched trs bs)
    (fun c hc s w hw => chunkM_spec ok grow hp db ob _ (fun es ks => t.insertLoop env es c none ks) c s w hw (chunk_len hn hc)
      (fun es l m val s kb h1 h2 => insertLoopM_spec env grow hp w.ib w.ib2 kb es c l none m val s h1 h2 (by simp)))
    { ops := [], filt := filt, clock := 0, oldTr := t.nil } w g
  rw [← a]
  exact ⟨rfl, b⟩

theorem updateM_spec {t : Table T F} {env : Env T} (ok : env.OK t) (bs : Nat) (grow : Nat → Nat → Nat) {pc : Pieces T} (hp : pc.For t) (db : KV)
    (filt : F) (ob : Option Batch) (trs : List T) (w : WMem) {n : Nat} (hn : min trs.length bs ≤ n) (g : w.Good n) :
    (t.updateM bs env grow pc db filt ob trs w).1 = t.updateBs bs env db filt ob trs ∧ (t.updateM bs env grow pc db filt ob trs w).2.Good n := by
  unfold Table.updateM Table.updateBs
  dsimp only
  obtain ⟨a, b⟩ := forChunksM_spec (P := WMem.Good n) (f := t.updateChunk env db ob)
    (fM := fun c sw => t.chunkM env grow pc db ob (fun es ks => t.updateLoopM env grow pc sw.2.ib sw.2.ib2 es c ks) c sw) (batched trs bs)
    (fun c hc s w hw => chunkM_spec ok grow hp db ob _ (fun es ks => t.updateLoop env es c ks) c s w hw (chunk_len hn hc)
      (fun es l m val s kb h1 h2 => updateLoopM_spec env grow hp w.ib w.ib2 kb es c l m val s h1 h2))
    { ops := [], filt := filt, clock := 0, oldTr := t.nil } w g
  rw [← a]
  exact ⟨rfl, b⟩

theorem upsertM_spec {t : Table T F} {env : Env T} (ok : env.OK t) (bs : Nat) (grow : Nat → Nat → Nat) {pc : Pieces T} (hp : pc.For t) (db : KV)
    (filt : F) (ob : Option Batch) (oc : Table.OnConflict T) (trs : List T) (w : WMem) {n : Nat} (hn : min trs.length bs ≤ n) (g : w.Good n) :
    (t.upsertM bs env grow pc db filt ob oc trs w).1 = t.upsertBs bs env db filt ob oc trs ∧
    (t.upsertM bs env grow pc db filt ob oc trs w).2.Good n := by
  unfold Table.upsertM Table.upsertBs
  dsimp only
  obtain ⟨a, b⟩ := forChunksM_spec (P := WMem.Good n) (f := t.upsertChunk env db ob oc)
    (fM := fun c sw => t.chunkM env grow pc db ob (fun es ks => t.upsertLoopM env grow pc sw.2.ib sw.2.ib2 oc es c ks.length 0 ks) c sw)
    (batched trs bs)
    (fun c hc s w hw => chunkM_spec ok grow hp db ob _ (fun es ks => t.upsertLoop env oc es c ks.length 0 ks) c s w hw (chunk_len hn hc)
      (fun es l m val s kb h1 h2 => by
        have := upsertLoopM_spec env grow hp w.ib w.ib2 kb oc es c l.length 0 l m val s h1 h2
        have e : (readKeys m l).length = l.length := by simp [readKeys]
        rw [e]
        exact this))
    { ops := [], filt := filt, clock := 0, oldTr := t.nil } w g
  rw [← a]
  exact ⟨rfl, b⟩

theorem deleteM_spec {t : Table T F} (env : Env T) (grow : Nat → Nat → Nat) {pc : Pieces T} (hp : pc.For t) (db : KV)
    (filt : F) (ob : Option Batch) (trs : List T) (w : WMem) {n : Nat} (g : w.Good n) :
    (t.deleteM env grow pc db filt ob trs w).1 = t.delete env db filt ob trs ∧ (t.deleteM env grow pc db filt ob trs w).2.Good n := by
  unfold Table.deleteM Table.delete
  obtain ⟨a, b⟩ := deleteLoopM_spec env grow hp w.ib2 w.ib (w.val :: w.keys) trs w.mem { ops := [], filt := filt, clock := 0, oldTr := t.nil } g.bufs
  exact ⟨by simp only [a], b, g.len⟩

theorem getChunksM_spec {t : Table T F} {env : Env T} (ok : env.OK t) (grow : Nat → Nat → Nat) {pc : Pieces T} (hp : pc.For t) (f : F) (db : KV)
    (ob : Option Batch) (n : Nat) : ∀ (cs : List (List T)) (m : Mem) (kb vb : List Sl), (∀ c ∈ cs, c.length ≤ n) → n ≤ kb.length →
    vb.length = n → Bufs m (kb ++ vb) → t.getChunksM env grow pc f db ob cs m kb vb = t.getChunks env f db ob n cs := by
  intro cs
  induction cs with
  | nil => intro m kb vb _ _ _ _; rfl
  | cons c cs ih =>
    intro m kb vb hc hk hv hb
    simp only [Table.getChunksM, Table.getChunks]
    obtain ⟨m1, ks, left, e, u, rd⟩ := keysExternalM_spec grow hp c m kb (Bufs.append_iff.mp hb).1 (Nat.le_trans (hc c List.mem_cons_self) hk)
    rw [e]
    obtain ⟨b1, _⟩ := (hb.perm (List.perm_append_comm)).upd u
    obtain ⟨bv, bk, dis⟩ := Bufs.append_iff.mp b1
    obtain ⟨u2, c2⟩ := getKeysM_spec t ok grow f db ob m1 ks vb false bv (fun k hk => by
      have hk' : k ∈ ks ++ left := List.mem_append_left _ hk
      exact ⟨(bk.1 k hk').clip, fun v hv => ((dis v hv k hk').clip (bk.1 k hk').2).symm⟩)
    rw [rd, hv] at c2
    rw [c2]
    dsimp only
    have b2 := (b1.perm List.perm_append_comm).upd u2
    generalize t.getKeysM env grow f db ob m1 ks vb false = G at u2 b2
    obtain ⟨m2, vb2, res⟩ := G
    simp only at u2 b2 ⊢
    cases res with
    | error e => rfl
    | ok values =>
      simp only [Except.map]
      cases t.decodeAll (values.map m2.read) with
      | error e => rfl
      | ok trs =>
        simp only
        have pk : ((if ks = [] then [] else (sortKeysM env m1 ks).map Prod.fst : List Sl)).Perm ks := by
          split
          · rename_i h; rw [h]
          · exact sortKeysM_perm ok m1 ks
        rw [ih m2 ((if ks = [] then [] else (sortKeysM env m1 ks).map Prod.fst) ++ left) vb2 (fun x hx => hc x (List.mem_cons_of_mem _ hx))
          (by rw [List.length_append, pk.length_eq, ← List.length_append, u.length_eq]; exact hk)
          (by rw [u2.length_eq, hv])
          (b2.1.perm ((pk.append_right left).append_right vb2))]

end Bond
