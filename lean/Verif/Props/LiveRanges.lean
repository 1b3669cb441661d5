import Verif.Props.LivePages
import Verif.Props.Paging
/-
C118 for several points and several ranges.
-/
namespace Bond
open Spec
variable {T F : Type}

/-- the rows behind `a`, of rows in order -/
theorem skipHead_filter {t : Table T F} (wf : t.WF) {idx : Index T} (hi : IsIndex t idx) (a : T) : ∀ (l : List T), l.Pairwise (IdxLt t idx) →
    skipHead t idx a (l.filter (fun x => ble (t.indexKey idx a) (t.indexKey idx x))) = l.filter (fun x => blt (t.indexKey idx a) (t.indexKey idx x))
  | [], _ => rfl
  | y :: ys, h => by
    have hp := List.pairwise_cons.1 h
    by_cases hay : ble (t.indexKey idx a) (t.indexKey idx y) = true
    · have hlt : ∀ z ∈ ys, blt (t.indexKey idx a) (t.indexKey idx z) = true := fun z hz =>
        blt_of_ble_of_blt hay ((indexKey_lt wf hi _ _).2 (hp.1 z hz))
      have e1 : ys.filter (fun x => ble (t.indexKey idx a) (t.indexKey idx x)) = ys :=
        List.filter_eq_self.2 (fun z hz => ble_of_blt (hlt z hz))
      have e2 : ys.filter (fun x => blt (t.indexKey idx a) (t.indexKey idx x)) = ys := List.filter_eq_self.2 hlt
      rw [List.filter_cons_of_pos (by exact hay), e1, skipHead]
      by_cases hk : t.indexKey idx y = t.indexKey idx a
      · rw [if_pos hk, List.filter_cons_of_neg (by simp [hk, blt_irrefl]), e2]
      · have : blt (t.indexKey idx a) (t.indexKey idx y) = true := by
          rcases (ble_iff _ _).1 hay with h | h
          · exact absurd h.symm hk
          · exact h
        rw [if_neg hk, List.filter_cons_of_pos (by exact this), e2]
    · have hn : ¬ blt (t.indexKey idx a) (t.indexKey idx y) = true := fun h => hay (ble_of_blt h)
      rw [List.filter_cons_of_neg (by simpa using hay), List.filter_cons_of_neg (by simpa using hn)]
      exact skipHead_filter wf hi a ys hp.2

/-- what has to hold for a selector: at every moment its rows are in index order, and the query goes on behind a cursor with the rows from the cursor on -/
theorem goodPages_rows {t : Table T F} (srt : (T → T → Bool) → List T → List T) (q : Query T) {ws : List (Moment T F)}
    (S : ∀ w ∈ ws, Setting t w.env w.filt w.db w.batch w.rows)
    (hint : q.intersects = []) (hi : IsIndex t q.index) (hs : q.sel.OK q.index) (hless : q.less = none) (hrev : q.reverse = false) (hoff : q.offset = 0)
    (hn : 0 < q.limit.toNat) (hL : q.limit.toNat < 2 ^ 63) (Cur : T → Prop)
    (hR : ∀ w ∈ ws, ∃ rows, Yields t w.env w.filt w.db w.batch q.index q.sel false rows ∧ rows.Pairwise (IdxLt t q.index) ∧ (∀ x ∈ rows, Cur x) ∧
      ∀ a, Cur a → ∃ sel, q.selectorWithAfter t a = some sel ∧ sel.OK q.index ∧
        Yields t w.env w.filt w.db w.batch q.index sel false (rows.filter (fun x => ble (t.indexKey q.index a) (t.indexKey q.index x)))) :
    (∀ w ∈ ws, ∃ p, PageAt t srt q w none p) ∧
    (∀ w ∈ ws, ∀ w' ∈ ws, ∀ a, SelectedAt t srt q w' a → ∃ p, PageAt t srt q w (some a) p) ∧
    ∀ pages, LivePages (PageAt t srt q) ws none pages → GoodPages t srt q (IdxLt t q.index) ws pages := by
  have hpage : ∀ l : List T, page q.offset.toNat q.limit.toNat l = l.take q.limit.toNat := by
    intro l; unfold page; rw [if_neg (by omega), hoff]; rfl
  have key : ∀ w ∈ ws, (∀ x, SelectedAt t srt q w x → Cur x) ∧ ∀ a, (∀ a', a = some a' → Cur a') → ∃ L : List T,
      PageAt t srt q w a (L.take q.limit.toNat) ∧ L.Pairwise (IdxLt t q.index) ∧
      ∀ x, x ∈ L ↔ SelectedAt t srt q w x ∧ ∀ a', a = some a' → IdxLt t q.index a' x := by
    intro w hw
    have S := S w hw
    obtain ⟨rows, hy, hpw, hcur, haft⟩ := hR w hw
    have hall : Returns t w.env srt w.filt w.db w.batch { q with after := none, limit := 0 } (rows.filter (accepts q)) := by
      have := query_plain S srt (q := { q with after := none, limit := 0 }) hint hi hs rfl (by simp only [hoff]; decide) (show (0 : UInt64).toNat < 2 ^ 63 by decide)
        (by rw [show ({ q with after := none, limit := 0 } : Query T).reverse = false from hrev]; exact hy)
      have e : ordered srt { q with after := none, limit := 0 } rows = rows.filter (accepts q) := by unfold ordered; simp only [hless]; rfl
      rw [e] at this
      simpa [page, hoff] using this
    have hsel : ∀ x, SelectedAt t srt q w x ↔ x ∈ rows.filter (accepts q) := by
      intro x
      constructor
      · rintro ⟨r, h, hx⟩; rw [hall.unique h]; exact hx
      · intro hx; exact ⟨_, hall, hx⟩
    refine ⟨fun x hx => hcur x (List.mem_filter.1 ((hsel x).1 hx)).1, fun a ha => ?_⟩
    cases a with
    | none =>
      refine ⟨rows.filter (accepts q), ?_, hpw.sublist List.filter_sublist, fun x => by rw [hsel]; simp⟩
      have := query_plain S srt (q := { q with after := none }) hint hi hs rfl (by rw [hoff]; decide) hL
        (by rw [show ({ q with after := none } : Query T).reverse = false from hrev]; exact hy)
      have e : ordered srt { q with after := none } rows = rows.filter (accepts q) := by unfold ordered; simp only [hless]; rfl
      rw [e, hpage] at this
      exact this
    | some a =>
      obtain ⟨sel, s1, s2, hy'⟩ := haft a (ha a rfl)
      have hq := query_after S srt (q := { q with after := some a }) hint hi rfl hless (sel := sel) (by
          unfold Query.selectorWithAfter at s1 ⊢; exact s1) s2 (by rw [hoff]; decide) hL
        (by rw [show ({ q with after := some a } : Query T).reverse = false from hrev]; exact hy')
      rw [hpage, skipHead_filter S.wf hi a rows hpw] at hq
      refine ⟨_, hq, hpw.sublist (List.filter_sublist.trans List.filter_sublist), fun x => ?_⟩
      rw [hsel, List.mem_filter, List.mem_filter, List.mem_filter]
      show (_ ∧ _) ∧ accepts q x = true ↔ _
      constructor
      · rintro ⟨⟨h1, h2⟩, h3⟩
        exact ⟨⟨h1, h3⟩, fun a' e => by simp only [Option.some.injEq] at e; subst e; exact (indexKey_lt S.wf hi _ _).1 h2⟩
      · rintro ⟨⟨h1, h3⟩, h2⟩
        exact ⟨⟨h1, (indexKey_lt S.wf hi _ _).2 (h2 a rfl)⟩, h3⟩
  refine ⟨fun w hw => ?_, fun w hw w' hw' a ha => ?_, fun pages hp => ?_⟩
  · obtain ⟨L, h, _⟩ := (key w hw).2 none (by simp)
    exact ⟨_, h⟩
  · obtain ⟨L, h, _⟩ := (key w hw).2 (some a) (by
      intro a' e; simp only [Option.some.injEq] at e; subst e; exact (key w' hw').1 a ha)
    exact ⟨_, h⟩
  · have hwf : t.WF := by
      cases hp with
      | stop => exact (S _ (List.mem_cons_self ..)).wf
      | more => exact (S _ (List.mem_cons_self ..)).wf
    have := livePages (lt := IdxLt t q.index) (fun h1 h2 => idxLt_trans hwf hi h1 h2) (Sel := SelectedAt t srt q)
      (Cur := fun a => ∀ a', a = some a' → Cur a') hn hp
      (fun w hw x hx a' e => by simp only [Option.some.injEq] at e; subst e; exact (key w hw).1 x hx)
      (fun w hw a p hc hp => by
        obtain ⟨L, h1, h2, h3⟩ := (key w hw).2 a hc
        exact ⟨L, Returns.unique hp h1, h2, h3⟩) (by simp)
    exact ⟨this.1, this.2.2.2, fun x hx => this.2.2.1 x hx (by simp)⟩

theorem flatMap_filter_parts {α β : Type} (p : β → Bool) (g : α → List α) (R : α → List β) :
    ∀ (l : List α), (∀ r ∈ l, (g r).flatMap R = (R r).filter p) → (l.flatMap g).flatMap R = (l.flatMap R).filter p
  | [], _ => rfl
  | r :: l, h => by
    rw [List.flatMap_cons, List.flatMap_append, List.flatMap_cons, List.filter_append, h r (by simp),
      flatMap_filter_parts p g R l (fun r hr => h r (by simp [hr]))]

/-- lists in order, one behind the other -/
theorem pairwise_flatMap {α β : Type} {lt : β → β → Prop} {R : α → List β} {rel : α → α → Prop} :
    ∀ (l : List α), (∀ r ∈ l, (R r).Pairwise lt) → l.Pairwise rel → (∀ r ∈ l, ∀ s ∈ l, rel r s → ∀ x ∈ R r, ∀ y ∈ R s, lt x y) →
    (l.flatMap R).Pairwise lt
  | [], _, _, _ => by simp
  | r :: l, h1, h2, h3 => by
    rw [List.flatMap_cons, List.pairwise_append]
    have h2' := List.pairwise_cons.1 h2
    refine ⟨h1 r (by simp), pairwise_flatMap l (fun s hs => h1 s (by simp [hs])) h2'.2
      (fun r hr s hs => h3 r (by simp [hr]) s (by simp [hs])), fun x hx y hy => ?_⟩
    obtain ⟨s, hs, hy⟩ := List.mem_flatMap.1 hy
    exact h3 r (by simp) s (by simp [hs]) (h2'.1 s hs) x hx y hy

/-- the rows from `a` on -/
theorem rows_filter_from {t : Table T F} {idx : Index T} {m : Rows T} {lo up : Bytes} {a : T} {l : List T}
    (h : IsRows t idx m (BoundP t idx (lo, up)) l) (hlo : ble lo (t.indexKey idx a) = true) :
    IsRows t idx m (BoundP t idx (t.indexKey idx a, up)) (l.filter (fun x => ble (t.indexKey idx a) (t.indexKey idx x))) := by
  refine ⟨h.1.sublist List.filter_sublist, fun x => ?_⟩
  rw [List.mem_filter, h.2]
  constructor
  · rintro ⟨⟨h1, h2⟩, h3⟩; exact ⟨h1, h3, h2.2⟩
  · rintro ⟨h1, h2⟩; exact ⟨⟨h1, ble_trans hlo h2.1, h2.2⟩, h2.1⟩

/-- C118 for several ranges given in order and not overlapping, forward and without Order, when the primary keys of the upper bounds are not empty, do
not end with 0xFF and are at no moment extended by stored ones (C27, C70).
Missing for the full C118: as for `C118_point_partial`; ranges in another order (`C70_refuted_order`). -/
theorem C118_ranges_partial {t : Table T F} (srt : (T → T → Bool) → List T → List T) (q : Query T) {ws : List (Moment T F)}
    (S : ∀ w ∈ ws, Setting t w.env w.filt w.db w.batch w.rows) {rs : List (T × T)} (hsel : q.sel = .ranges rs)
    (hne : rs ≠ []) (hord : Spec.InOrder t q.index rs) (hint : q.intersects = []) (hi : IsIndex t q.index)
    (hl : ∀ x, (q.index.key x).length < 2 ^ 32 - 1) (hff : ∀ r ∈ rs, t.pk r.2 ≠ [] ∧ NoTrailingFF (t.pk r.2))
    (hext : ∀ w ∈ ws, ∀ r ∈ rs, ∀ pk x, w.rows pk = some x → q.index.key x = q.index.key r.2 → q.index.ord x = q.index.ord r.2 →
      ∀ e, pk = t.pk r.2 ++ e → e = [])
    (hless : q.less = none) (hrev : q.reverse = false) (hoff : q.offset = 0) (hn : 0 < q.limit.toNat) (hL : q.limit.toNat < 2 ^ 63) :
    (∀ w ∈ ws, ∃ p, PageAt t srt q w none p) ∧
    (∀ w ∈ ws, ∀ w' ∈ ws, ∀ a, SelectedAt t srt q w' a → ∃ p, PageAt t srt q w (some a) p) ∧
    ∀ pages, LivePages (PageAt t srt q) ws none pages → GoodPages t srt q (IdxLt t q.index) ws pages := by
  have hok : ∀ rs' : List (T × T), rs' ≠ [] → (Selector.ranges rs').OK q.index := by
    intro rs' h
    refine ⟨?_, fun x _ => hl x⟩
    cases rs' with
    | nil => exact absurd rfl h
    | cons r rs' => simp [Selector.elems]
  refine goodPages_rows srt q S hint hi (by rw [hsel]; exact hok rs hne) hless hrev hoff hn hL
    (fun a => ∃ r ∈ rs, ble (t.indexKey q.index r.1) (t.indexKey q.index a) = true ∧ ble (t.indexKey q.index a) (t.indexKey q.index r.2) = true)
    (fun w hw => ?_)
  have S := S w hw
  have hR : ∀ p : T × T, ∃ rows, IsRows t q.index w.rows (BoundP t q.index (t.rangeBounds q.index p.1 p.2)) rows ∧
      Yields t w.env w.filt w.db w.batch q.index (.range p.1 p.2) false rows := by
    intro p
    obtain ⟨rows, h1, h2, _⟩ := S.single hi (sel := .range p.1 p.2) ⟨by simp [Selector.elems], fun x _ => hl x⟩ rfl
    exact ⟨rows, h1, by simpa [dir] using h2 false⟩
  let R := fun p => (hR p).choose
  have hR1 : ∀ p, IsRows t q.index w.rows (BoundP t q.index (t.rangeBounds q.index p.1 p.2)) (R p) := fun p => (hR p).choose_spec.1
  have hR2 : ∀ p, Yields t w.env w.filt w.db w.batch q.index (.range p.1 p.2) false (R p) := fun p => (hR p).choose_spec.2
  have hy : ∀ rs' : List (T × T), rs' ≠ [] → Yields t w.env w.filt w.db w.batch q.index (.ranges rs') false (rs'.flatMap R) := by
    intro rs' h
    have := C28_ranges S hi (hok rs' h) (r := R) (fun p _ => hR2 p) false
    simpa [dir] using this
  have hlow : ∀ p, ∀ x ∈ R p, ble (t.indexKey q.index p.1) (t.indexKey q.index x) = true := fun p x hx => (((hR1 p).2 x).1 hx).2.1
  have hup : ∀ p ∈ rs, ∀ x ∈ R p, ble (t.indexKey q.index x) (t.indexKey q.index p.2) = true := by
    intro p hp x hx
    rw [indexKey_le S.wf hi]
    have h := ((hR1 p).2 x).1 hx
    rcases ((boundP_range S.wf hi (hff p hp).1 (hff p hp).2 (hl _) x).1 h.2).2 with b | ⟨b1, b2, r, b3⟩
    · exact b
    · have := hext w hw p hp _ x h.1.1 b1 b2 r b3
      subst this
      rw [List.append_nil] at b3
      unfold IdxLe IdxLt
      rw [b1, b2, b3]
      simp [blt_irrefl]
  refine ⟨rs.flatMap R, by rw [hsel]; exact hy rs hne, ?_, ?_, ?_⟩
  · refine pairwise_flatMap rs (fun r _ => (hR1 r).1) hord.2 (fun r hr s _ hrs x hx y hy => ?_)
    rw [← indexKey_lt S.wf hi] at hrs ⊢
    exact blt_of_blt_of_ble (blt_of_ble_of_blt (hup r hr x hx) hrs) (hlow s y hy)
  · intro x hx
    obtain ⟨r, hr, hx⟩ := List.mem_flatMap.1 hx
    exact ⟨r, hr, hlow r x hx, hup r hr x hx⟩
  · rintro a ⟨r0, hr0, ha1, ha2⟩
    have hnot : ∀ r : T × T, ble (t.indexKey q.index r.1) (t.indexKey q.index a) = true → blt (t.indexKey q.index a) (t.indexKey q.index r.1) = false := by
      intro r h; simpa [ble] using h
    refine ⟨_, (by simp only [Query.selectorWithAfter, hsel]; rfl), hok _ ?_, ?_⟩
    · intro h
      have := List.flatMap_eq_nil_iff.1 h r0 hr0
      rw [hnot r0 ha1] at this
      simp [ha2] at this
    · rw [← flatMap_filter_parts (fun x => ble (t.indexKey q.index a) (t.indexKey q.index x))
        (fun rng => if blt (t.indexKey q.index a) (t.indexKey q.index rng.1) then [rng]
          else if ble (t.indexKey q.index a) (t.indexKey q.index rng.2) then [(a, rng.2)] else []) R rs ?_]
      · apply hy
        intro h
        have := List.flatMap_eq_nil_iff.1 h r0 hr0
        rw [hnot r0 ha1] at this
        simp [ha2] at this
      · intro r hr
        by_cases h1 : blt (t.indexKey q.index a) (t.indexKey q.index r.1) = true
        · rw [if_pos h1, List.flatMap_singleton]
          exact (List.filter_eq_self.2 (fun x hx => ble_of_blt (blt_of_blt_of_ble h1 (hlow r x hx)))).symm
        · rw [if_neg h1]
          have hle : ble (t.indexKey q.index r.1) (t.indexKey q.index a) = true := by simpa [ble] using h1
          by_cases h2 : ble (t.indexKey q.index a) (t.indexKey q.index r.2) = true
          · rw [if_pos h2, List.flatMap_singleton]
            exact (hR1 (a, r.2)).unique S.wf hi (rows_filter_from (hR1 r) hle)
          · rw [if_neg h2]
            have hlt : blt (t.indexKey q.index r.2) (t.indexKey q.index a) = true := by simpa [ble] using h2
            refine (List.filter_eq_nil_iff.2 (fun x hx hax => ?_)).symm
            have := blt_of_ble_of_blt (ble_trans hax (hup r hr x hx)) hlt
            rw [blt_irrefl] at this
            exact absurd this (by simp)

/-- C118 for several points on a secondary index, given in the order of their index values, which differ and do not end with 0xFF, forward and without
Order.
Missing for the full C118: as for `C118_point_partial`; the primary index (`C70_refuted_primary`), points in another order (`C70_refuted_order`). -/
theorem C118_points_partial {t : Table T F} (srt : (T → T → Bool) → List T → List T) (q : Query T) {ws : List (Moment T F)}
    (S : ∀ w ∈ ws, Setting t w.env w.filt w.db w.batch w.rows) {ps : List T} (hsel : q.sel = .points ps)
    (hne : ps ≠ []) (hord : ps.Pairwise (Spec.KeyLt q.index)) (hint : q.intersects = []) (hi : q.index ∈ t.indexes)
    (hl : ∀ x, (q.index.key x).length < 2 ^ 32 - 1) (hff : ∀ p ∈ ps, NoTrailingFF (q.index.key p))
    (hless : q.less = none) (hrev : q.reverse = false) (hoff : q.offset = 0) (hn : 0 < q.limit.toNat) (hL : q.limit.toNat < 2 ^ 63) :
    (∀ w ∈ ws, ∃ p, PageAt t srt q w none p) ∧
    (∀ w ∈ ws, ∀ w' ∈ ws, ∀ a, SelectedAt t srt q w' a → ∃ p, PageAt t srt q w (some a) p) ∧
    ∀ pages, LivePages (PageAt t srt q) ws none pages → GoodPages t srt q (IdxLt t q.index) ws pages := by
  have hi' : IsIndex t q.index := Or.inl hi
  have hok : ∀ ps' : List T, ps' ≠ [] → (Selector.points ps').OK q.index := fun ps' h => ⟨h, fun x _ => hl x⟩
  refine goodPages_rows srt q S hint hi' (by rw [hsel]; exact hok ps hne) hless hrev hoff hn hL
    (fun a => ∃ p ∈ ps, q.index.key a = q.index.key p ∧ ble (t.indexKey q.index p) (t.indexKey q.index a) = true) (fun w hw => ?_)
  have S := S w hw
  have hR : ∀ p : T, ∃ rows, IsRows t q.index w.rows (BoundP t q.index (t.indexKey q.index p, keySuccessor (keyPrefix t.id q.index.id (q.index.key p)))) rows ∧
      Yields t w.env w.filt w.db w.batch q.index (.point p) false rows := by
    intro p
    obtain ⟨rows, h1, h2, _⟩ := S.single hi' (sel := .point p) ⟨by simp [Selector.elems], fun x _ => hl x⟩ rfl
    exact ⟨rows, h1, by simpa [dir] using h2 false⟩
  let R := fun p => (hR p).choose
  have hR1 : ∀ p, IsRows t q.index w.rows (BoundP t q.index (t.indexKey q.index p, keySuccessor (keyPrefix t.id q.index.id (q.index.key p)))) (R p) :=
    fun p => (hR p).choose_spec.1
  have hR2 : ∀ p, Yields t w.env w.filt w.db w.batch q.index (.point p) false (R p) := fun p => (hR p).choose_spec.2
  have hy : ∀ ps' : List T, ps' ≠ [] → Yields t w.env w.filt w.db w.batch q.index (.points ps') false (ps'.flatMap R) := by
    intro ps' h
    have := C28_points S hi (hok ps' h) (r := R) (fun p _ => hR2 p) false
    simpa [dir] using this
  have hmem : ∀ p ∈ ps, ∀ x ∈ R p, q.index.key x = q.index.key p ∧ ble (t.indexKey q.index p) (t.indexKey q.index x) = true := fun p hp x hx =>
    ⟨((boundP_point S.wf hi' (hff p hp) (hl p) x).1 (((hR1 p).2 x).1 hx).2).1, (((hR1 p).2 x).1 hx).2.1⟩
  refine ⟨ps.flatMap R, by rw [hsel]; exact hy ps hne, ?_, ?_, ?_⟩
  · exact pairwise_flatMap ps (fun r _ => (hR1 r).1) hord (fun r hr s hs hrs x hx y hy =>
      keyLt_idxLt (hmem r hr x hx).1 (hmem s hs y hy).1 hrs)
  · intro x hx
    obtain ⟨p, hp, hx⟩ := List.mem_flatMap.1 hx
    exact ⟨p, hp, hmem p hp x hx⟩
  · rintro a ⟨p0, hp0, ha1, ha2⟩
    have hne' : pointsAfter t q.index a ps ≠ [] := by
      intro h
      have := List.flatMap_eq_nil_iff.1 h p0 hp0
      rw [show blt (t.indexKey q.index a) (t.indexKey q.index p0) = false by simpa [ble] using ha2] at this
      simp [ha1] at this
    refine ⟨_, selectorWithAfter_points S.wf hi' hsel a, hok _ hne', ?_⟩
    have e : (pointsAfter t q.index a ps).flatMap R = (ps.flatMap R).filter (fun x => ble (t.indexKey q.index a) (t.indexKey q.index x)) := by
      unfold pointsAfter
      refine flatMap_filter_parts _ _ R ps (fun p hp => ?_)
      by_cases h1 : blt (t.indexKey q.index a) (t.indexKey q.index p) = true
      · rw [if_pos h1, List.flatMap_singleton]
        exact (List.filter_eq_self.2 (fun x hx => ble_of_blt (blt_of_blt_of_ble h1 (hmem p hp x hx).2))).symm
      · rw [if_neg h1]
        have hle : ble (t.indexKey q.index p) (t.indexKey q.index a) = true := by simpa [ble] using h1
        by_cases h2 : q.index.key a = q.index.key p
        · rw [if_pos h2, List.flatMap_singleton]
          have := rows_filter_from (hR1 p) hle
          rw [← h2] at this
          exact (hR1 a).unique S.wf hi' this
        · rw [if_neg h2]
          have hlt : IdxLt t q.index p a := by
            have hna : ¬ IdxLt t q.index a p := fun h => h1 ((indexKey_lt S.wf hi' _ _).2 h)
            unfold IdxLt at hna ⊢
            rcases Nat.lt_trichotomy (q.index.key p).length (q.index.key a).length with h | h | h
            · exact Or.inl h
            · by_cases hb : blt (q.index.key p) (q.index.key a) = true
              · exact Or.inr ⟨h, Or.inl hb⟩
              · exfalso
                rcases (ble_iff (q.index.key a) (q.index.key p)).1 (by simpa [ble] using hb) with e | e
                · exact h2 e
                · exact hna (Or.inr ⟨h.symm, Or.inl e⟩)
            · exact absurd (Or.inl h) hna
          refine (List.filter_eq_nil_iff.2 (fun x hx hax => ?_)).symm
          have hxa : IdxLt t q.index x a := by
            have hk := (hmem p hp x hx).1
            unfold IdxLt at hlt ⊢
            rw [hk]
            rcases hlt with h | ⟨h, h'⟩
            · exact Or.inl h
            · rcases h' with h' | ⟨h', _⟩
              · exact Or.inr ⟨h, Or.inl h'⟩
              · exact absurd h'.symm h2
          have := (indexKey_lt S.wf hi' _ _).2 hxa
          simp [ble, this] at hax
    rw [← e]
    exact hy _ hne'

theorem exMoments_keyed : ∀ w ∈ exMoments, ∀ pk x, w.rows pk = some x → pk = exTable.pk x := by
  intro w hw pk x h
  obtain ⟨V, _, hV⟩ := (exMoments_ok w hw).content
  exact (hV.row_pk pk x h).symm

/-- the theorems at two ranges and at two points in pages of one row, with (3,7) written after the first request -/
example := C118_ranges_partial insSort (t := exTable) { exQuery with sel := .ranges [((0, 5), (1, 5)), ((0, 6), (3, 7))], limit := 1 } exMoments_ok rfl
  (by simp) (by
    refine ⟨?_, ?_⟩
    · intro r hr
      simp only [List.mem_cons, List.not_mem_nil, or_false] at hr
      rcases hr with rfl | rfl <;> unfold IdxLe IdxLt <;> decide
    · simp only [List.pairwise_cons, List.mem_singleton, forall_eq, List.Pairwise.nil, and_true, List.not_mem_nil, false_imp_iff, implies_true]
      unfold IdxLt; decide) rfl exIndex_is (by intro x; simp [exQuery, exIndex])
  (by intro r hr; simp only [List.mem_cons, List.not_mem_nil, or_false] at hr; rcases hr with rfl | rfl <;> simp [exTable, NoTrailingFF])
  (by
    intro w hw r _ pk x h _ _ e he
    have := congrArg List.length (he.symm.trans (exMoments_keyed w hw pk x h))
    simpa [exTable] using this) rfl rfl rfl (by decide) (by decide)
example := C118_points_partial insSort (t := exTable) { exQuery with sel := .points [(0, 5), (0, 6)], limit := 1 } exMoments_ok rfl
  (by simp) (by
    simp only [List.pairwise_cons, List.mem_singleton, forall_eq, List.Pairwise.nil, and_true, List.not_mem_nil, false_imp_iff, implies_true]
    unfold KeyLt; decide) rfl (by simp [exQuery, exTable]) (by intro x; simp [exQuery, exIndex])
  (by intro r hr; simp only [List.mem_cons, List.not_mem_nil, or_false] at hr; rcases hr with rfl | rfl <;> simp [exQuery, exIndex, NoTrailingFF])
  rfl rfl rfl (by decide) (by decide)

/-- the pages of two ranges, (1,5) and (2,6) are deleted after each came -/
example : let del := fun (db : KV) (x : Rec) => (exTable.delete (stdEnv exTable) db () none [x]).db
    let q : Query Rec := { exQuery with sel := .ranges [((0, 5), (1, 5)), ((0, 6), (3, 7))], limit := 1 }
    let run := fun (db : KV) (a : Option Rec) => ({ q with after := a }).execute exTable (stdEnv exTable) insSort () db none 9
    run exDB3 none = some (.ok [(1, 5)]) ∧ run (del exDB3 (1, 5)) (some (1, 5)) = some (.ok [(2, 6)]) ∧
    run (del (del exDB3 (1, 5)) (2, 6)) (some (2, 6)) = some (.ok [(3, 7)]) := by
  refine ⟨by decide +kernel, by decide +kernel, by decide +kernel⟩

end Bond
