import Verif.Props.Queries
import Verif.Props.Scans
/-
C70: reading queries with several points or ranges page by page.
-/
namespace Bond
open Spec
variable {T F : Type}

/-! ## C70 Cursor pagination with several points or ranges -/

/-- what has to hold for a selector: after row `a`, the query reads on with `a` and exactly the rows after it -/
theorem C70_aux {t : Table T F} {env : Env T} {filt : F} {db : KV} {ob : Option Batch} {m : Rows T}
    (S : Setting t env filt db ob m) (srt : (T → T → Bool) → List T → List T) (q : Query T) (hint : q.intersects = [])
    (hi : IsIndex t q.index) (hs : q.sel.OK q.index) (hless : q.less = none) (hrev : q.reverse = false) (hoff : q.offset = 0)
    (hn : 0 < q.limit.toNat) (hL : q.limit.toNat < 2 ^ 63) {rows : List T} (hy : Yields t env filt db ob q.index q.sel false rows)
    (haft : ∀ pre a suf, rows = pre ++ a :: suf → ∃ sel, q.selectorWithAfter t a = some sel ∧ sel.OK q.index ∧
      Yields t env filt db ob q.index sel false (a :: suf)) :
    Returns t env srt filt db ob { q with after := none, limit := 0 } (rows.filter (accepts q)) ∧
      (∃ pages, Pages (PageOf t env srt filt db ob q) none pages) ∧
      ∀ pages, Pages (PageOf t env srt filt db ob q) none pages →
        pages.flatten = rows.filter (accepts q) ∧ ∀ p ∈ pages, p.length ≤ q.limit.toNat := by
  have hpage : ∀ l : List T, page q.offset.toNat q.limit.toNat l = l.take q.limit.toNat := by
    intro l; unfold page; rw [if_neg (by omega), hoff]; rfl
  have h0 : PageOf t env srt filt db ob q none ((rows.filter (accepts q)).take q.limit.toNat) := by
    have := query_plain S srt (q := { q with after := none }) hint hi hs rfl (by rw [hoff]; decide) hL
      (by rw [show ({ q with after := none } : Query T).reverse = false from hrev]; exact hy)
    have e : ordered srt { q with after := none } rows = rows.filter (accepts q) := by unfold ordered; simp only [hless]; rfl
    rw [e, hpage] at this
    exact this
  have hnext : ∀ pre a suf, rows.filter (accepts q) = pre ++ a :: suf → PageOf t env srt filt db ob q (some a) (suf.take q.limit.toNat) := by
    intro pre a suf hsplit
    obtain ⟨l1, l2, hl, hl2⟩ := filter_split hsplit
    obtain ⟨sel, s1, s2, hy'⟩ := haft l1 a l2 hl
    have := query_after S srt (q := { q with after := some a }) hint hi rfl hless (sel := sel) (by
        unfold Query.selectorWithAfter at s1 ⊢; exact s1) s2 (by rw [hoff]; decide) hL
      (by rw [show ({ q with after := some a } : Query T).reverse = false from hrev]; exact hy')
    rw [skipHead, if_pos rfl, hpage] at this
    have e : l2.filter (accepts { q with after := some a }) = suf := by rw [← hl2]; rfl
    rw [e] at this
    exact this
  refine ⟨?_, pages_exist hn h0 hnext, fun pages hp =>
    pages_eq (exec := PageOf t env srt filt db ob q) (fun a p p' h h' => Returns.unique h h') hn h0 hnext hp⟩
  have := query_plain S srt (q := { q with after := none, limit := 0 }) hint hi hs rfl (by simp only [hoff]; decide) (show (0 : UInt64).toNat < 2 ^ 63 by decide)
    (by rw [show ({ q with after := none, limit := 0 } : Query T).reverse = false from hrev]; exact hy)
  have e : ordered srt { q with after := none, limit := 0 } rows = rows.filter (accepts q) := by unfold ordered; simp only [hless]; rfl
  rw [e] at this
  simpa [page, hoff] using this

/-- the ranges are given in order and do not overlap -/
def Spec.InOrder (t : Table T F) (idx : Index T) (rs : List (T × T)) : Prop :=
  (∀ r ∈ rs, IdxLe t idx r.1 r.2) ∧ rs.Pairwise (fun r s => IdxLt t idx r.2 s.1)

theorem ranges_after {t : Table T F} {env : Env T} {filt : F} {db : KV} {ob : Option Batch} {m : Rows T}
    (S : Setting t env filt db ob m) {idx : Index T} (hi : IsIndex t idx) {R : T × T → List T}
    (hR : ∀ p, IsRows t idx m (BoundP t idx (t.rangeBounds idx p.1 p.2)) (R p)) (rs : List (T × T)) (hord : Spec.InOrder t idx rs)
    (hup : ∀ p ∈ rs, ∀ x ∈ R p, IdxLe t idx x p.2) (pre : List T) (a : T) (suf : List T) (h : rs.flatMap R = pre ++ a :: suf) :
    let rs' := rs.flatMap (fun rng =>
      if blt (t.indexKey idx a) (t.indexKey idx rng.1) then [rng]
      else if ble (t.indexKey idx a) (t.indexKey idx rng.2) then [(a, rng.2)]
      else [])
    rs' ≠ [] ∧ rs'.flatMap R = a :: suf := by
  induction rs generalizing pre with
  | nil => simp at h
  | cons p ps ih =>
    obtain ⟨hle, hpw⟩ := hord
    rw [List.pairwise_cons] at hpw
    have hlow : ∀ q, ∀ x ∈ R q, IdxLe t idx q.1 x := fun q x hx => (indexKey_le S.wf hi _ _).1 (((hR q).2 x).1 hx).2.1
    simp only [List.flatMap_cons] at h ⊢
    rw [List.append_eq_append_iff] at h
    have hcases : (∃ suf1, R p = pre ++ a :: suf1 ∧ suf = suf1 ++ ps.flatMap R) ∨ ∃ pre', ps.flatMap R = pre' ++ a :: suf := by
      rcases h with ⟨as, h1, h2⟩ | ⟨bs, h1, h2⟩
      · exact Or.inr ⟨as, h2⟩
      · cases bs with
        | nil => exact Or.inr ⟨[], by simpa using h2.symm⟩
        | cons b bs =>
          simp only [List.cons_append, List.cons.injEq] at h2
          exact Or.inl ⟨bs, by rw [h1, h2.1], h2.2⟩
    rcases hcases with ⟨suf1, h1, h2⟩ | ⟨pre', h1⟩
    · have ha : a ∈ R p := by rw [h1]; simp
      have e1 : blt (t.indexKey idx a) (t.indexKey idx p.1) = false := by
        have := (indexKey_le S.wf hi _ _).2 (hlow p a ha)
        simpa [ble] using this
      have e2 := (indexKey_le S.wf hi _ _).2 (hup p (by simp) a ha)
      have e3 : ∀ s ∈ ps, blt (t.indexKey idx a) (t.indexKey idx s.1) = true := by
        intro s hs
        have := (indexKey_lt S.wf hi _ _).2 (hpw.1 s hs)
        exact blt_of_ble_of_blt e2 this
      have e4 : ps.flatMap (fun rng => if blt (t.indexKey idx a) (t.indexKey idx rng.1) then [rng]
          else if ble (t.indexKey idx a) (t.indexKey idx rng.2) then [(a, rng.2)] else []) = ps := by
        clear ih hle hup h h2 hpw
        induction ps with
        | nil => rfl
        | cons s ps ih => rw [List.flatMap_cons, if_pos (e3 s (by simp)), ih (fun s hs => e3 s (by simp [hs]))]; rfl
      rw [e4, e1, e2]
      refine ⟨by simp, ?_⟩
      have hfrom := hR p
      rw [h1] at hfrom
      have := (hR (a, p.2)).unique S.wf hi (rows_from S.wf hi hfrom)
      simp [this, h2]
    · have ha : a ∈ ps.flatMap R := by rw [h1]; simp
      rw [List.mem_flatMap] at ha
      obtain ⟨s, hs, has⟩ := ha
      have hlt : blt (t.indexKey idx p.2) (t.indexKey idx a) = true :=
        blt_of_blt_of_ble ((indexKey_lt S.wf hi _ _).2 (hpw.1 s hs)) ((indexKey_le S.wf hi _ _).2 (hlow s a has))
      have hle1 := (indexKey_le S.wf hi _ _).2 (hle p (by simp))
      have e1 : blt (t.indexKey idx a) (t.indexKey idx p.1) = false := by
        have := blt_of_ble_of_blt hle1 hlt
        exact blt_asymm this
      have e2 : ble (t.indexKey idx a) (t.indexKey idx p.2) = false := by simpa [ble] using hlt
      rw [e1, e2]
      simpa using ih ⟨fun r hr => hle r (by simp [hr]), hpw.2⟩ (fun q hq => hup q (by simp [hq])) pre' h1

/-- C70 for several ranges given in order and not overlapping, forward and without Order, when the primary keys of the upper bounds are not
empty, do not end with 0xFF and are not extended by stored ones (see C27).
Missing for the full C70: ranges in another order (`C70_refuted_order`), reversed queries (C32). -/
theorem C70_ranges_partial {t : Table T F} {env : Env T} {filt : F} {db : KV} {ob : Option Batch} {m : Rows T}
    (S : Setting t env filt db ob m) (srt : (T → T → Bool) → List T → List T) (q : Query T) {rs : List (T × T)} (hsel : q.sel = .ranges rs)
    (hne : rs ≠ []) (hord : Spec.InOrder t q.index rs) (hint : q.intersects = []) (hi : IsIndex t q.index)
    (hl : ∀ x, (q.index.key x).length < 2 ^ 32 - 1)
    (hff : ∀ r ∈ rs, t.pk r.2 ≠ [] ∧ NoTrailingFF (t.pk r.2))
    (hext : ∀ r ∈ rs, ∀ pk x, m pk = some x → q.index.key x = q.index.key r.2 → q.index.ord x = q.index.ord r.2 → ∀ e, pk = t.pk r.2 ++ e → e = [])
    (hless : q.less = none) (hrev : q.reverse = false) (hoff : q.offset = 0) (hn : 0 < q.limit.toNat) (hL : q.limit.toNat < 2 ^ 63) :
    ∃ rows, Returns t env srt filt db ob { q with after := none, limit := 0 } rows ∧
      (∃ pages, Pages (PageOf t env srt filt db ob q) none pages) ∧
      ∀ pages, Pages (PageOf t env srt filt db ob q) none pages → pages.flatten = rows ∧ ∀ p ∈ pages, p.length ≤ q.limit.toNat := by
  have hok : ∀ rs' : List (T × T), rs' ≠ [] → (Selector.ranges rs').OK q.index := by
    intro rs' h
    refine ⟨?_, fun x _ => hl x⟩
    cases rs' with
    | nil => exact absurd rfl h
    | cons r rs' => simp [Selector.elems]
  have hR : ∀ p : T × T, ∃ rows, IsRows t q.index m (BoundP t q.index (t.rangeBounds q.index p.1 p.2)) rows ∧
      Yields t env filt db ob q.index (.range p.1 p.2) false rows := by
    intro p
    obtain ⟨rows, h1, h2, _⟩ := S.single hi (sel := .range p.1 p.2) ⟨by simp [Selector.elems], fun x _ => hl x⟩ rfl
    exact ⟨rows, h1, by simpa [dir] using h2 false⟩
  let R := fun p => (hR p).choose
  have hR1 : ∀ p, IsRows t q.index m (BoundP t q.index (t.rangeBounds q.index p.1 p.2)) (R p) := fun p => (hR p).choose_spec.1
  have hR2 : ∀ p, Yields t env filt db ob q.index (.range p.1 p.2) false (R p) := fun p => (hR p).choose_spec.2
  have hy : ∀ rs' : List (T × T), rs' ≠ [] → Yields t env filt db ob q.index (.ranges rs') false (rs'.flatMap R) := by
    intro rs' h
    have := C28_ranges S hi (hok rs' h) (r := R) (fun p _ => hR2 p) false
    simpa [dir] using this
  have hup : ∀ p ∈ rs, ∀ x ∈ R p, IdxLe t q.index x p.2 := by
    intro p hp x hx
    have h := ((hR1 p).2 x).1 hx
    rcases ((boundP_range S.wf hi (hff p hp).1 (hff p hp).2 (hl _) x).1 h.2).2 with b | ⟨b1, b2, r, b3⟩
    · exact b
    · have := hext p hp _ x h.1.1 b1 b2 r b3
      subst this
      rw [List.append_nil] at b3
      unfold IdxLe IdxLt
      rw [b1, b2, b3]
      simp [blt_irrefl]
  obtain ⟨h1, h2, h3⟩ := C70_aux S srt q hint hi (by rw [hsel]; exact hok rs hne) hless hrev hoff hn hL
    (rows := rs.flatMap R) (by rw [hsel]; exact hy rs hne) (by
      intro pre a suf h
      obtain ⟨g1, g2⟩ := ranges_after S hi hR1 rs hord hup pre a suf h
      exact ⟨_, by simp only [Query.selectorWithAfter, hsel], hok _ g1, by rw [← g2]; exact hy _ g1⟩)
  exact ⟨_, h1, h2, h3⟩

/-- order of the index values alone -/
def Spec.KeyLt (idx : Index T) (x y : T) : Prop :=
  (idx.key x).length < (idx.key y).length ∨ ((idx.key x).length = (idx.key y).length ∧ blt (idx.key x) (idx.key y) = true)

theorem keyLt_idxLt {t : Table T F} {idx : Index T} {x y x' y' : T} (hx : idx.key x' = idx.key x) (hy : idx.key y' = idx.key y)
    (h : Spec.KeyLt idx x y) : IdxLt t idx x' y' := by
  unfold IdxLt
  rw [hx, hy]
  rcases h with h | ⟨h1, h2⟩
  · exact Or.inl h
  · exact Or.inr ⟨h1, Or.inl h2⟩

theorem keyLt_ne {idx : Index T} {x y : T} (h : Spec.KeyLt idx x y) : idx.key x ≠ idx.key y := by
  intro e
  rcases h with h | ⟨_, h⟩
  · rw [e] at h; omega
  · rw [e, blt_irrefl] at h; exact absurd h (by simp)

/-- the points left after row `a` -/
def pointsAfter (t : Table T F) (idx : Index T) (a : T) (ps : List T) : List T :=
  ps.flatMap (fun p => if blt (t.indexKey idx a) (t.indexKey idx p) then [p] else if idx.key a = idx.key p then [a] else [])

theorem selectorWithAfter_points {t : Table T F} (wf : t.WF) {q : Query T} (hi : IsIndex t q.index) {ps : List T} (hsel : q.sel = .points ps)
    (a : T) :
    q.selectorWithAfter t a = some (.points (pointsAfter t q.index a ps)) := by
  have key : ∀ p, (if blt (t.indexKey q.index a) (t.indexKey q.index p) then some [p]
      else do
        let n ← keyPrefixSplit (t.indexKey q.index a)
        let pa ← slice (t.indexKey q.index a) 0 n
        let m ← keyPrefixSplit (t.indexKey q.index p)
        let pp ← slice (t.indexKey q.index p) 0 m
        some (if pa = pp then [a] else [])) =
      some (if blt (t.indexKey q.index a) (t.indexKey q.index p) then [p] else if q.index.key a = q.index.key p then [a] else []) := by
    intro p
    split
    · rfl
    · simp only [(split_indexKey wf hi a).1, (split_indexKey wf hi a).2, (split_indexKey wf hi p).1, (split_indexKey wf hi p).2,
        Option.bind_eq_bind, Option.bind_some]
      have : keyPrefix t.id q.index.id (q.index.key a) = keyPrefix t.id q.index.id (q.index.key p) ↔ q.index.key a = q.index.key p := by
        constructor
        · intro h
          rw [keyPrefix_eq, keyPrefix_eq] at h
          have h' := List.append_inj' (s₁ := [t.id, q.index.id] ++ beBytes 4 (q.index.key a).length) (t₁ := q.index.key a)
            (s₂ := [t.id, q.index.id] ++ beBytes 4 (q.index.key p).length) (t₂ := q.index.key p) (by simpa using h) (by
              have := congrArg List.length h
              simp [beBytes_length] at this
              exact this)
          exact h'.2
        · intro h; rw [h]
      simp only [this]
  have hm : ∀ l : List T, l.mapM (fun p => (if blt (t.indexKey q.index a) (t.indexKey q.index p) then some [p]
      else do
        let n ← keyPrefixSplit (t.indexKey q.index a)
        let pa ← slice (t.indexKey q.index a) 0 n
        let m ← keyPrefixSplit (t.indexKey q.index p)
        let pp ← slice (t.indexKey q.index p) 0 m
        some (if pa = pp then [a] else []) : Option (List T))) =
      some (l.map (fun p => if blt (t.indexKey q.index a) (t.indexKey q.index p) then [p] else if q.index.key a = q.index.key p then [a] else [])) := by
    intro l
    induction l with
    | nil => rfl
    | cons p l ih => rw [List.mapM_cons, key, ih]; rfl
  simp only [Query.selectorWithAfter, hsel]
  rw [hm]
  simp [pointsAfter, List.flatMap_def]

theorem points_after {t : Table T F} {env : Env T} {filt : F} {db : KV} {ob : Option Batch} {m : Rows T}
    (S : Setting t env filt db ob m) {idx : Index T} (hi : IsIndex t idx) {R : T → List T}
    (hR : ∀ p, IsRows t idx m (BoundP t idx (t.indexKey idx p, keySuccessor (keyPrefix t.id idx.id (idx.key p)))) (R p))
    (hk : ∀ x, (idx.key x).length < 2 ^ 32 - 1) (ps : List T)
    (hff : ∀ p ∈ ps, NoTrailingFF (idx.key p)) (hord : ps.Pairwise (Spec.KeyLt idx)) (pre : List T) (a : T) (suf : List T)
    (h : ps.flatMap R = pre ++ a :: suf) :
    pointsAfter t idx a ps ≠ [] ∧ (pointsAfter t idx a ps).flatMap R = a :: suf := by
  induction ps generalizing pre with
  | nil => simp at h
  | cons p ps ih =>
    rw [List.pairwise_cons] at hord
    have hmem : ∀ q ∈ p :: ps, ∀ x ∈ R q, idx.key x = idx.key q ∧ IdxLe t idx q x := fun q hq x hx =>
      (boundP_point S.wf hi (hff q hq) (hk q) x).1 (((hR q).2 x).1 hx).2
    unfold pointsAfter
    simp only [List.flatMap_cons] at h ⊢
    rw [List.append_eq_append_iff] at h
    have hcases : (∃ suf1, R p = pre ++ a :: suf1 ∧ suf = suf1 ++ ps.flatMap R) ∨ ∃ pre', ps.flatMap R = pre' ++ a :: suf := by
      rcases h with ⟨as, h1, h2⟩ | ⟨bs, h1, h2⟩
      · exact Or.inr ⟨as, h2⟩
      · cases bs with
        | nil => exact Or.inr ⟨[], by simpa using h2.symm⟩
        | cons b bs =>
          simp only [List.cons_append, List.cons.injEq] at h2
          exact Or.inl ⟨bs, by rw [h1, h2.1], h2.2⟩
    rcases hcases with ⟨suf1, h1, h2⟩ | ⟨pre', h1⟩
    · have ha : a ∈ R p := by rw [h1]; simp
      obtain ⟨ha1, ha2⟩ := hmem p (by simp) a ha
      have e1 : blt (t.indexKey idx a) (t.indexKey idx p) = false := by
        have := (indexKey_le S.wf hi _ _).2 ha2
        simpa [ble] using this
      have e4 : ps.flatMap (fun p => if blt (t.indexKey idx a) (t.indexKey idx p) then [p] else if idx.key a = idx.key p then [a] else []) = ps := by
        have e3 : ∀ s ∈ ps, blt (t.indexKey idx a) (t.indexKey idx s) = true := fun s hs =>
          (indexKey_lt S.wf hi _ _).2 (keyLt_idxLt ha1 rfl (hord.1 s hs))
        clear ih hmem h h2 hord hff
        induction ps with
        | nil => rfl
        | cons s ps ih => rw [List.flatMap_cons, if_pos (e3 s (by simp)), ih (fun s hs => e3 s (by simp [hs]))]; rfl
      rw [e4, e1, if_neg (by simp), if_pos ha1]
      refine ⟨by simp, ?_⟩
      have hfrom := hR p
      rw [h1] at hfrom
      have hfrom' := rows_from S.wf hi hfrom
      rw [← ha1] at hfrom'
      have := (hR a).unique S.wf hi hfrom'
      simp [this, h2]
    · have ha : a ∈ ps.flatMap R := by rw [h1]; simp
      rw [List.mem_flatMap] at ha
      obtain ⟨s, hs, has⟩ := ha
      obtain ⟨hs1, _⟩ := hmem s (by simp [hs]) a has
      have hlt : blt (t.indexKey idx p) (t.indexKey idx a) = true :=
        (indexKey_lt S.wf hi _ _).2 (keyLt_idxLt rfl hs1 (hord.1 s hs))
      have hne : idx.key a ≠ idx.key p := by rw [hs1]; exact (keyLt_ne (hord.1 s hs)).symm
      rw [blt_asymm hlt, if_neg (by simp), if_neg hne]
      exact ih (fun q hq => hff q (by simp [hq])) hord.2 pre' h1

/-- C70 for several points on a secondary index, given in the order of their index values, which differ and do not end with 0xFF, forward
and without Order.
Missing for the full C70: the primary index (`C70_refuted_primary`), points in another order (`C70_refuted_order`), reversed queries (C32). -/
theorem C70_points_partial {t : Table T F} {env : Env T} {filt : F} {db : KV} {ob : Option Batch} {m : Rows T}
    (S : Setting t env filt db ob m) (srt : (T → T → Bool) → List T → List T) (q : Query T) {ps : List T} (hsel : q.sel = .points ps)
    (hne : ps ≠ []) (hord : ps.Pairwise (Spec.KeyLt q.index)) (hint : q.intersects = []) (hi : q.index ∈ t.indexes)
    (hl : ∀ x, (q.index.key x).length < 2 ^ 32 - 1) (hff : ∀ p ∈ ps, NoTrailingFF (q.index.key p))
    (hless : q.less = none) (hrev : q.reverse = false) (hoff : q.offset = 0) (hn : 0 < q.limit.toNat) (hL : q.limit.toNat < 2 ^ 63) :
    ∃ rows, Returns t env srt filt db ob { q with after := none, limit := 0 } rows ∧
      (∃ pages, Pages (PageOf t env srt filt db ob q) none pages) ∧
      ∀ pages, Pages (PageOf t env srt filt db ob q) none pages → pages.flatten = rows ∧ ∀ p ∈ pages, p.length ≤ q.limit.toNat := by
  have hi' : IsIndex t q.index := Or.inl hi
  have hnz : q.index.id ≠ primaryIndexID := S.wf.nz _ hi
  have hok : ∀ ps' : List T, ps' ≠ [] → (Selector.points ps').OK q.index := fun ps' h => ⟨h, fun x _ => hl x⟩
  have hR : ∀ p : T, ∃ rows, IsRows t q.index m (BoundP t q.index (t.indexKey q.index p, keySuccessor (keyPrefix t.id q.index.id (q.index.key p)))) rows ∧
      Yields t env filt db ob q.index (.point p) false rows := by
    intro p
    obtain ⟨rows, h1, h2, _⟩ := S.single hi' (sel := .point p) ⟨by simp [Selector.elems], fun x _ => hl x⟩ rfl
    exact ⟨rows, h1, by simpa [dir] using h2 false⟩
  let R := fun p => (hR p).choose
  have hR1 : ∀ p, IsRows t q.index m _ (R p) := fun p => (hR p).choose_spec.1
  have hR2 : ∀ p, Yields t env filt db ob q.index (.point p) false (R p) := fun p => (hR p).choose_spec.2
  have hy : ∀ ps' : List T, ps' ≠ [] → Yields t env filt db ob q.index (.points ps') false (ps'.flatMap R) := by
    intro ps' h
    have := C28_points S hi (hok ps' h) (r := R) (fun p _ => hR2 p) false
    simpa [dir] using this
  obtain ⟨h1, h2, h3⟩ := C70_aux S srt q hint hi' (by rw [hsel]; exact hok ps hne) hless hrev hoff hn hL
    (rows := ps.flatMap R) (by rw [hsel]; exact hy ps hne) (by
      intro pre a suf h
      obtain ⟨g1, g2⟩ := points_after S hi' hR1 hl ps hff hord pre a suf h
      exact ⟨_, selectorWithAfter_points S.wf hi' hsel a, hok _ g1, by rw [← g2]; exact hy _ g1⟩)
  exact ⟨_, h1, h2, h3⟩

/-- test data: three rows, two of them with the same index value -/
def exThree : KV := (exTable.insert (stdEnv exTable) KV.empty () none [(1, 5), (2, 6), (3, 6)]).db

/-- two ranges in order, two points in order -/
example : Spec.InOrder exTable exIndex [((0, 5), (1, 5)), ((0, 6), (3, 6))] ∧ [(0, 5), (0, 6)].Pairwise (Spec.KeyLt exIndex) ∧
    (let q : Query Rec := { index := exIndex, sel := .ranges [((0, 5), (1, 5)), ((0, 6), (3, 6))], limit := 2 }
     q.execute exTable (stdEnv exTable) insSort () exThree none 9 = some (.ok [(1, 5), (2, 6)]) ∧
     ({ q with after := some (2, 6) }).execute exTable (stdEnv exTable) insSort () exThree none 9 = some (.ok [(3, 6)]) ∧
     ({ q with after := some (3, 6) }).execute exTable (stdEnv exTable) insSort () exThree none 9 = some (.ok [])) ∧
    (let q : Query Rec := { index := exIndex, sel := .points [(0, 5), (0, 6)], limit := 2 }
     q.execute exTable (stdEnv exTable) insSort () exThree none 9 = some (.ok [(1, 5), (2, 6)]) ∧
     ({ q with after := some (2, 6) }).execute exTable (stdEnv exTable) insSort () exThree none 9 = some (.ok [(3, 6)])) := by
  refine ⟨⟨?_, ?_⟩, ?_, ⟨by decide, by decide, by decide⟩, by decide, by decide⟩
  · intro r hr
    simp only [List.mem_cons, List.not_mem_nil, or_false] at hr
    rcases hr with rfl | rfl <;> unfold IdxLe IdxLt <;> decide
  · simp only [List.pairwise_cons, List.mem_singleton, forall_eq, List.Pairwise.nil, and_true, List.not_mem_nil, false_imp_iff, implies_true]
    unfold IdxLt; decide
  · simp only [List.pairwise_cons, List.mem_singleton, forall_eq, List.Pairwise.nil, and_true, List.not_mem_nil, false_imp_iff, implies_true]
    unfold Spec.KeyLt; decide

/-- C70 is false for points on the primary index: all of its keys share the (empty) index value, so every point up to the After row is
replaced by that row, and it is returned again on the next page. -/
theorem C70_refuted_primary :
    let q : Query Rec := { index := exTable.primaryIndex, sel := .points [(1, 0), (2, 0), (3, 0)] }
    q.execute exTable (stdEnv exTable) insSort () exThree none 9 = some (.ok [(1, 5), (2, 6), (3, 6)]) ∧
    ({ q with limit := 2 }).execute exTable (stdEnv exTable) insSort () exThree none 9 = some (.ok [(1, 5), (2, 6)]) ∧
    ({ q with limit := 2, after := some (2, 6) }).execute exTable (stdEnv exTable) insSort () exThree none 9 = some (.ok [(2, 6), (3, 6)]) := by
  refine ⟨by decide, by decide, by decide⟩

/-- C70 is false for points and ranges that are not given in order: rows are left out (points), or the client gets the same page for ever
(ranges). -/
theorem C70_refuted_order :
    (let q : Query Rec := { index := exIndex, sel := .points [(0, 6), (0, 5)] }
     q.execute exTable (stdEnv exTable) insSort () exThree none 9 = some (.ok [(2, 6), (3, 6), (1, 5)]) ∧
     ({ q with limit := 2 }).execute exTable (stdEnv exTable) insSort () exThree none 9 = some (.ok [(2, 6), (3, 6)]) ∧
     ({ q with limit := 2, after := some (3, 6) }).execute exTable (stdEnv exTable) insSort () exThree none 9 = some (.ok [])) ∧
    (let q : Query Rec := { index := exTable.primaryIndex, sel := .ranges [((2, 0), (3, 0)), ((1, 0), (1, 0))], limit := 3 }
     q.execute exTable (stdEnv exTable) insSort () exThree none 9 = some (.ok [(2, 6), (3, 6), (1, 5)]) ∧
     ({ q with after := some (1, 5) }).execute exTable (stdEnv exTable) insSort () exThree none 9 = some (.ok [(2, 6), (3, 6), (1, 5)])) := by
  refine ⟨⟨by decide, by decide, by decide⟩, by decide, by decide⟩

/-- After a row behind all ranges a query panics instead of returning nothing. -/
theorem C70_refuted_panic :
    ({ index := exTable.primaryIndex, sel := .ranges [((1, 0), (2, 0))], after := some (3, 6) } : Query Rec).execute exTable (stdEnv exTable)
      insSort () exThree none 9 = some (.error .panic) := by
  decide

end Bond
