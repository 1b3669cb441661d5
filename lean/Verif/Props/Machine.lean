import Verif.MachineLemmas
import Verif.Props.Cancelled
import Verif.Props.Failed
import Verif.Props.Queries
import Verif.Props.Scans
import Verif.Props.Reads
/-
C97: a table, used by one goroutine with and without transactions, behaves as a map from primary keys to records whose indexes are
sorted views of it.
-/
namespace Bond
open Spec
variable {T F : Type}

theorem properWrite_good {t : Table T F} (rt : t.RoundTripFresh) {env : Env T} {V : KV} {m : Rows T} {c : WCall T} (hH : Holds t V m)
    (h : ProperWrite t env m c) : GoodRun t env V c := by
  have hs := storedRow_eq rt hH
  refine ⟨?_, ?_⟩
  · cases c with
    | insert trs => exact h
    | update trs => exact h.imp id And.left
    | upsert oc trs => exact h
    | delete trs =>
      intro x hx old ho
      rw [hs] at ho
      exact h x hx old ho
    | unsafeInsert trs => exact ⟨h.1, fun x hx => by rw [hs]; exact h.2 x hx⟩
    | unsafeUpdate trs olds =>
      intro hl
      exact ⟨(h hl).1, fun p hp => by rw [hs]; exact (h hl).2 p hp⟩
  · rintro trs rfl
    exact h.imp id And.right

theorem isParts_map {α : Type} {t : Table T F} {idx : Index T} {m : Rows T} {P : α → T → Prop} {r : α → List T} :
    ∀ (l : List α), (∀ a ∈ l, IsRows t idx m (P a) (r a)) → IsParts t idx m (l.map P) (l.map r)
  | [], _ => .nil
  | a :: l, h => .cons (h a (by simp)) (isParts_map l (fun b hb => h b (by simp [hb])))

theorem selects_yields {t : Table T F} {env : Env T} {filt : F} {db : KV} {ob : Option Batch} {m : Rows T}
    (S : Setting t env filt db ob m) {idx : Index T} (hi : IsIndex t idx) {sel : Selector T} (h : ProperSelector t idx m sel) :
    ∃ rows, Selects t idx m sel rows ∧ ∀ reverse, Yields t env filt db ob idx sel reverse (dir reverse rows) := by
  obtain ⟨hs, h⟩ := h
  cases sel with
  | point p => exact C24_partial S hi h (hs.2 p (by simp [Selector.elems]))
  | range lo up =>
    obtain ⟨h1, h2, h3⟩ := h
    exact C27_partial S hi h1 h2 hs.2 h3
  | points ps =>
    obtain ⟨h1, h2⟩ := h
    have hex : ∀ p, ∃ rows, p ∈ ps → IsRows t idx m (fun x => idx.key x = idx.key p ∧ IdxLe t idx p x) rows ∧
        ∀ reverse, Yields t env filt db ob idx (.point p) reverse (dir reverse rows) := by
      intro p
      by_cases hp : p ∈ ps
      · obtain ⟨rows, h3⟩ := C24_partial S hi (h2 p hp) (hs.2 p hp)
        exact ⟨rows, fun _ => h3⟩
      · exact ⟨[], fun h => absurd h hp⟩
    obtain ⟨r, hr⟩ := Classical.axiomOfChoice hex
    refine ⟨ps.flatMap r, ⟨ps.map r, by rw [List.flatMap_def], isParts_map ps (fun p hp => (hr p hp).1)⟩, ?_⟩
    exact C28_points S h1 hs (fun p hp => (hr p hp).2 false)
  | ranges rs =>
    have hex : ∀ p : T × T, ∃ rows, p ∈ rs → IsRows t idx m (fun x => IdxLe t idx p.1 x ∧ IdxLe t idx x p.2) rows ∧
        ∀ reverse, Yields t env filt db ob idx (.range p.1 p.2) reverse (dir reverse rows) := by
      intro p
      by_cases hp : p ∈ rs
      · obtain ⟨h1, h2, h3⟩ := h p hp
        obtain ⟨rows, h4⟩ := C27_partial S hi (lo := p.1) h1 h2 (fun x hx => hs.2 x (by
          simp only [Selector.elems, List.mem_flatMap]; exact ⟨p, hp, hx⟩)) h3
        exact ⟨rows, fun _ => h4⟩
      · exact ⟨[], fun h => absurd h hp⟩
    obtain ⟨r, hr⟩ := Classical.axiomOfChoice hex
    refine ⟨rs.flatMap r, ⟨rs.map r, by rw [List.flatMap_def], isParts_map rs (fun p hp => (hr p hp).1)⟩, ?_⟩
    exact C28_ranges S hi hs (fun p hp => (hr p hp).2 false)

theorem isRows_unique {t : Table T F} {idx : Index T} {m : Rows T} {P : T → Prop} {a b : List T} (ha : IsRows t idx m P a)
    (hb : IsRows t idx m P b) : ∀ x, x ∈ a ↔ x ∈ b := fun x => by rw [ha.2, hb.2]

theorem isParts_mem {t : Table T F} {idx : Index T} {m : Rows T} : ∀ {Ps : List (T → Prop)} {a b : List (List T)},
    IsParts t idx m Ps a → IsParts t idx m Ps b → ∀ x, x ∈ a.flatten ↔ x ∈ b.flatten
  | [], _, _, .nil, .nil => fun _ => Iff.rfl
  | _ :: _, _, _, .cons h1 h2, .cons h3 h4 => fun x => by
    simp only [List.flatten_cons, List.mem_append]
    rw [isRows_unique h1 h3 x, isParts_mem h2 h4 x]

theorem selects_mem {t : Table T F} {idx : Index T} {m : Rows T} {sel : Selector T} {a b : List T} (ha : Selects t idx m sel a)
    (hb : Selects t idx m sel b) : ∀ x, x ∈ a ↔ x ∈ b := by
  cases sel with
  | point p => exact isRows_unique ha hb
  | range lo up => exact isRows_unique ha hb
  | points ps =>
    obtain ⟨pa, rfl, ha⟩ := ha
    obtain ⟨pb, rfl, hb⟩ := hb
    exact isParts_mem ha hb
  | ranges rs =>
    obtain ⟨pa, rfl, ha⟩ := ha
    obtain ⟨pb, rfl, hb⟩ := hb
    exact isParts_mem ha hb

theorem selects_nodup {t : Table T F} (wf : t.WF) {idx : Index T} (hi : IsIndex t idx) {m : Rows T} {sel : Selector T}
    (hsel : (∃ p, sel = .point p) ∨ ∃ lo up, sel = .range lo up) {rows : List T} (h : Selects t idx m sel rows) (reverse : Bool) :
    ((dir reverse rows).map t.pk).Nodup := by
  have hr : (rows.map t.pk).Nodup := by
    rcases hsel with ⟨p, rfl⟩ | ⟨lo, up, rfl⟩ <;> exact Spec.IsRows.nodup_pk wf hi h
  unfold dir
  split
  · exact ((List.reverse_perm rows).map t.pk).nodup_iff.2 hr
  · exact hr

/-- a query with After, without Order and not reversed: the rows after the given one -/
theorem after_plain {t : Table T F} {env : Env T} {filt : F} {db : KV} {ob : Option Batch} {m : Rows T}
    (S : Setting t env filt db ob m) (srt : (T → T → Bool) → List T → List T) (q : Query T) (hint : q.intersects = [])
    (hi : IsIndex t q.index) (hps : ProperSelector t q.index m q.sel) {a : T} (haft : q.after = some a) (hless : q.less = none)
    (hrev : q.reverse = false)
    (hsel : (∃ p, q.sel = .point p) ∨ (∃ lo up, q.sel = .range lo up) ∧ (q.index.key a).length < 2 ^ 32 - 1)
    (ho : q.offset.toNat < 2 ^ 63) (hL : q.limit.toNat < 2 ^ 63) {rows pre rest : List T}
    (hy : Yields t env filt db ob q.index q.sel false rows) (hsplit : rows.filter (accepts q) = pre ++ a :: rest) :
    Returns t env srt filt db ob q (page q.offset.toNat q.limit.toNat rest) := by
  obtain ⟨hs, hps⟩ := hps
  obtain ⟨lo, up, sel, hb, haft'⟩ : ∃ lo up sel, boundsOf t q.index q.sel = [(lo, up)] ∧ (BoundP t q.index (lo, up) a →
      q.selectorWithAfter t a = some sel ∧ sel.OK q.index ∧ boundsOf t q.index sel = [(t.indexKey q.index a, up)]) := by
    rcases hsel with ⟨p, h⟩ | ⟨⟨lo, up, h⟩, hl⟩
    · rw [h] at hs hps
      have hl := hs.2 p (by simp [Selector.elems])
      refine ⟨t.indexKey q.index p, keySuccessor (keyPrefix t.id q.index.id (q.index.key p)), .point a, by rw [h]; rfl, fun ha => ?_⟩
      have hk := ((boundP_point S.wf hi hps hl a).1 ha).1
      exact ⟨by simp [Query.selectorWithAfter, h], ⟨by simp [Selector.elems], by simpa [Selector.elems, hk] using hl⟩, by simp only [boundsOf, hk]⟩
    · rw [h] at hs
      refine ⟨t.indexKey q.index lo, keySuccessor (t.indexKey q.index up), .range a up, by rw [h]; rfl, fun _ => ?_⟩
      refine ⟨by simp [Query.selectorWithAfter, h], ⟨by simp [Selector.elems], ?_⟩, rfl⟩
      intro p hp
      simp only [Selector.elems, List.mem_cons, List.not_mem_nil, or_false] at hp
      rcases hp with rfl | rfl
      · exact hl
      · exact hs.2 p (by simp [Selector.elems])
  obtain ⟨rows', h1, h2, _⟩ := S.single hi hs hb
  have : rows = rows' := hy.unique (h2 false)
  subst this
  obtain ⟨l1, l2, hl, hl2⟩ := filter_split hsplit
  subst hl
  have ha := (h1.2 a).1 (by simp)
  obtain ⟨s1, s2, s3⟩ := haft' ha.2
  obtain ⟨rows', r1, r2, _⟩ := S.single hi s2 s3
  have : rows' = a :: l2 := r1.unique S.wf hi (rows_from S.wf hi h1)
  subst this
  have := query_after S srt hint hi haft hless s1 s2 ho hL (by rw [hrev]; exact r2 false)
  rw [show dir false (a :: l2) = a :: l2 from rfl, skipHead, if_pos rfl, hl2] at this
  exact this

/-- the reads, with a context that is not cancelled -/
theorem read_alive {t : Table T F} (wf : t.WF) (rt : t.RoundTripFresh) (hp : 0 < t.prefetch) {srt : (T → T → Bool) → List T → List T}
    (hsrt : SortSlice srt) {env : Env T} (ok : env.OK t) {f : F} {db : KV} {ob : Option Batch} (hb : Readable ob) {m : Rows T}
    (hH : Holds t (baseView db ob) m) (hF : FilterCovers t f m) {c : TCall T} (hc : ProperRead t m ob.isSome c)
    (ha : ∀ n, env.done n = false) : ∃ N a, Reads t m c a ∧ ∀ fuel, N ≤ fuel → t.readCall srt fuel env f db ob c = some a := by
  have S : Setting t env f db ob m :=
    { wf := wf, rt := rt, ok := ok, alive := ha, prefetch := hp, content := ⟨_, readable_eq hb, hH⟩, covers := hF }
  cases c with
  | write c => exact hc.elim
  | get x => exact ⟨0, _, rfl, fun fuel _ => by simp only [Table.readCall]; rw [getPoint_eq rt (readable_eq hb) hH hF]; cases m (t.pk x) <;> rfl⟩
  | exist x => exact ⟨0, _, rfl, fun fuel _ => by simp only [Table.readCall]; rw [exist_eq (readable_eq hb) hH hF]⟩
  | getMany pts =>
    exact ⟨0, _, rfl, fun fuel _ => by simp only [Table.readCall]; rw [C20_partial rt ok hb hH hF hc]; rfl⟩
  | scan reverse =>
    obtain ⟨rows, h1, h2, h3⟩ := C23_partial S hc
    obtain ⟨N, hN⟩ := h3 reverse
    exact ⟨N, _, ⟨rows, h1, h2, rfl⟩, fun fuel hf => by simp only [Table.readCall]; rw [hN fuel hf]; rfl⟩
  | scanIndex idx sel reverse =>
    obtain ⟨rows, h1, h2⟩ := selects_yields S hc.1 hc.2
    obtain ⟨N, hN⟩ := h2 reverse
    exact ⟨N, _, ⟨rows, h1, rfl⟩, fun fuel hf => by simp only [Table.readCall]; rw [hN fuel hf]; rfl⟩
  | query q =>
    obtain ⟨h1, h2, h3, h4, h5, h6, h7⟩ := hc
    have done : ∀ rows sorted rest, QueryRows t m q rows → sorted.Perm (rows.filter (accepts q)) →
        (match q.less with | none => sorted = rows.filter (accepts q) | some less => sorted.Pairwise (fun a b => less b a = false)) →
        From q.after sorted rest → Returns t env srt f db ob q (page q.offset.toNat q.limit.toNat rest) →
        ∃ N a, Reads t m (.query q) a ∧ ∀ fuel, N ≤ fuel → t.readCall srt fuel env f db ob (.query q) = some a := by
      rintro rows sorted rest g1 g2 g3 g4 ⟨N, hN⟩
      exact ⟨N, _, ⟨rows, sorted, rest, g1, g2, g3, g4, rfl⟩, fun fuel hf => by simp only [Table.readCall]; rw [hN fuel hf]; rfl⟩
    -- the row of After is in the result
    have hmem : ∀ x, q.after = some x → ∀ rows sorted : List T, QueryRows t m q rows → sorted.Perm (rows.filter (accepts q)) →
        ∃ pre rest, sorted = pre ++ x :: rest := by
      intro x hx rows sorted g1 g2
      obtain ⟨e1, e2, _⟩ := h3 x hx
      exact List.append_of_mem (g2.mem_iff.2 (List.mem_filter.2 ⟨e2 rows g1, e1⟩))
    by_cases hi : q.intersects = []
    · obtain ⟨rows, g1, g2⟩ := selects_yields S h1 h2
      have hq : QueryRows t m q (dir q.reverse rows) := by
        unfold QueryRows; rw [if_pos hi]; exact ⟨rows, g1, rfl⟩
      cases ha : q.after with
      | none =>
        cases hl : q.less with
        | none =>
          obtain ⟨rows', g3, g4⟩ := C30 S srt q hi h1 h2.1 ha hl h4 h5
          rw [g3.unique (g2 q.reverse)] at g4
          exact done _ _ _ hq (List.Perm.refl _) (by rw [hl]) (by rw [ha]; rfl) g4
        | some less =>
          obtain ⟨rows', sorted, g3, g4, g5, g6⟩ := C31 S hsrt q hi h1 h2.1 ha hl (h6 less hl) h4 h5
          rw [g3.unique (g2 q.reverse)] at g4
          exact done _ sorted _ hq g4 (by rw [hl]; exact g5) (by rw [ha]; rfl) g6
      | some x =>
        obtain ⟨_, _, e3, e4, _⟩ := h3 x ha
        cases hl : q.less with
        | none =>
          obtain ⟨pre, rest, hsplit⟩ := hmem x ha _ _ hq (List.Perm.refl _)
          have hrev := e3 hi hl
          have hd : dir q.reverse rows = rows := by rw [hrev]; rfl
          refine done _ _ rest hq (List.Perm.refl _) (by rw [hl]) (by rw [ha]; exact ⟨pre, hsplit⟩) ?_
          rw [hd] at hsplit
          exact after_plain S srt q hi h1 h2 ha hl hrev (e4 hi) h4 h5 (g2 false) hsplit
        | some less =>
          obtain ⟨k1, k2⟩ := hsrt less (h6 less hl) ((dir q.reverse rows).filter (accepts q))
          obtain ⟨pre, rest, hsplit⟩ := hmem x ha _ _ hq k1
          refine done _ _ rest hq k1 (by rw [hl]; exact k2) (by rw [ha]; exact ⟨pre, hsplit⟩) ?_
          have hnd : ((srt less ((dir q.reverse rows).filter (accepts q))).map t.pk).Nodup := by
            rw [(k1.map t.pk).nodup_iff]
            exact (selects_nodup wf h1 ((e4 hi).imp id And.left) g1 q.reverse).sublist (List.filter_sublist.map t.pk)
          have := query_after_ordered S srt hi h1 h2.1 ha (by rw [hl]; simp) h4 h5 (g2 q.reverse)
          rw [show ordered srt q (dir q.reverse rows) = srt less ((dir q.reverse rows).filter (accepts q)) by simp [ordered, hl],
            dropAfter_split hsplit hnd, Option.getD_some] at this
          exact this
    · obtain ⟨k1, k2, k3⟩ := h7 hi
      have hob : ob = none := by cases ob with | none => rfl | some b => simp at k1
      subst hob
      have hqr : ∀ rows, IsRows t t.primaryIndex m (InAll t env f db none (q :: q.intersects)) rows → QueryRows t m q rows := by
        intro rows g1
        unfold QueryRows
        rw [if_neg hi]
        refine g1.congr (fun x _ => ?_)
        unfold InAll
        refine forall_congr' (fun q' => forall_congr' (fun hq' => ?_))
        have hp' : IsIndex t q'.index ∧ ProperSelector t q'.index m q'.sel := by
          rcases List.mem_cons.1 hq' with rfl | h
          · exact ⟨h1, h2⟩
          · exact k3 q' h
        obtain ⟨r, e1, e2⟩ := selects_yields S hp'.1 hp'.2
        constructor
        · rintro ⟨l, hl, hx⟩
          rw [hl.unique (e2 false)] at hx
          exact ⟨r, e1, hx⟩
        · rintro ⟨l, hl, hx⟩
          exact ⟨r, e2 false, (selects_mem hl e1 x).1 hx⟩
      have hord : ∀ rows, (ordered srt q rows).Perm (rows.filter (accepts q)) ∧
          (match q.less with | none => ordered srt q rows = rows.filter (accepts q) | some less => (ordered srt q rows).Pairwise (fun a b => less b a = false)) := by
        intro rows
        cases hl : q.less with
        | none => simp [ordered, hl]
        | some less =>
          obtain ⟨e1, e2⟩ := hsrt less (h6 less hl) (rows.filter (accepts q))
          simp only [ordered, hl]
          exact ⟨e1, e2⟩
      have hk3 : ∀ q' ∈ q.intersects, IsIndex t q'.index ∧ q'.sel.OK q'.index := fun q' hq' => ⟨(k3 q' hq').1, (k3 q' hq').2.1⟩
      cases ha : q.after with
      | none =>
        obtain ⟨rows, g1, g2⟩ := C33_partial S srt q hi k2 h1 h2.1 hk3 ha h4 h5
        exact done rows _ _ (hqr rows g1) (hord rows).1 (hord rows).2 (by rw [ha]; rfl) g2
      | some x =>
        obtain ⟨_, _, _, _, e5⟩ := h3 x ha
        obtain ⟨rows, g1, g2⟩ := C33_after' S q hi k2 h1 h2.1 hk3 ha (e5 hi) h4 h5 (fun rows => (hord rows).1)
        obtain ⟨pre, rest, hsplit⟩ := hmem x ha rows _ (hqr rows g1) (hord rows).1
        exact done rows _ rest (hqr rows g1) (hord rows).1 (hord rows).2 (by rw [ha]; exact ⟨pre, hsplit⟩) (g2 pre rest hsplit)

/-- C97 (a read): a read call through a read-write batch, or without one: the answer is that of the map it sees or, if the context is cancelled, the first rows with its error. -/
theorem C97_read {t : Table T F} (wf : t.WF) (rt : t.RoundTripFresh) (hp : 0 < t.prefetch) {srt : (T → T → Bool) → List T → List T}
    (hsrt : SortSlice srt) {env : Env T} (ok : env.OK t) {f : F} {db : KV} {ob : Option Batch} (hb : Readable ob) {m : Rows T}
    (hH : Holds t (baseView db ob) m) (hF : FilterCovers t f m) {c : TCall T} (hc : ProperRead t m ob.isSome c) :
    ∃ N a, (Reads t m c a ∨ CutShort t env m c a) ∧ ∀ fuel, N ≤ fuel → t.readCall srt fuel env f db ob c = some a := by
  let env0 := env.withDone (fun _ => false)
  have ok0 : env0.OK t := ⟨ok.order, ok.sort_perm, ok.sort_sorted⟩
  have h0 : ∀ n, env0.done n = false := fun _ => rfl
  have hee : env0.withDone env.done = env := rfl
  obtain ⟨N, a, h1, h2⟩ := read_alive wf rt hp hsrt ok0 hb hH hF hc h0
  have hN := h2 N (Nat.le_refl _)
  cases c with
  | write c => exact hc.elim
  | get x => exact ⟨N, a, Or.inl h1, h2⟩
  | exist x => exact ⟨N, a, Or.inl h1, h2⟩
  | getMany pts =>
    refine ⟨N, a, Or.inl h1, fun fuel hf => ?_⟩
    have := h2 fuel hf
    simp only [Table.readCall] at this ⊢
    rw [← this, ← getMany_done t env (fun _ => false)]
  | scan reverse =>
    simp only [Table.readCall, Table.scan, Option.map_eq_some_iff] at hN
    obtain ⟨o, ho, rfl⟩ := hN
    obtain ⟨o', g1, g2⟩ := C103_scanIndex t h0 env.done f db ob t.primaryIndex (.point t.empty) reverse N [] ho
    rw [hee] at g1
    refine ⟨N, o'.answer, ?_, fun fuel hf => ?_⟩
    · rcases g2 with rfl | ⟨hd, he, hpre⟩
      · exact Or.inl h1
      · have hr : o.answer = .rows o.s none := by
          obtain ⟨rows, _, _, h⟩ := h1
          unfold ScanOut.answer at h ⊢
          simp only [Answer.rows.injEq] at h
          rw [h.2]
        rw [hr] at h1
        exact Or.inr ⟨hd, o.s, o'.s, h1, hpre, by unfold ScanOut.answer; rw [he]⟩
    · simp only [Table.readCall, Option.map_eq_some_iff]
      refine ⟨o', ?_, rfl⟩
      unfold Table.scan
      exact scanIndex_more t env f db ob _ _ reverse [] g1 hf
  | scanIndex idx sel reverse =>
    simp only [Table.readCall, Option.map_eq_some_iff] at hN
    obtain ⟨o, ho, rfl⟩ := hN
    obtain ⟨o', g1, g2⟩ := C103_scanIndex t h0 env.done f db ob idx sel reverse N [] ho
    rw [hee] at g1
    refine ⟨N, o'.answer, ?_, fun fuel hf => ?_⟩
    · rcases g2 with rfl | ⟨hd, he, hpre⟩
      · exact Or.inl h1
      · have hr : o.answer = .rows o.s none := by
          obtain ⟨rows, _, h⟩ := h1
          unfold ScanOut.answer at h ⊢
          simp only [Answer.rows.injEq] at h
          rw [h.2]
        rw [hr] at h1
        exact Or.inr ⟨hd, o.s, o'.s, h1, hpre, by unfold ScanOut.answer; rw [he]⟩
    · simp only [Table.readCall, Option.map_eq_some_iff]
      exact ⟨o', scanIndex_more t env f db ob idx sel reverse [] g1 hf, rfl⟩
  | query q =>
    simp only [Table.readCall, Option.map_eq_some_iff] at hN
    obtain ⟨o, ho, rfl⟩ := hN
    obtain ⟨o', g1, g2⟩ := C103_query t h0 env.done srt f db ob q N ho
    rw [hee] at g1
    refine ⟨N, queryAnswer o', ?_, fun fuel hf => ?_⟩
    · rcases g2 with rfl | ⟨hd, rfl⟩
      · exact Or.inl h1
      · exact Or.inr ⟨hd, rfl⟩
    · simp only [Table.readCall, Option.map_eq_some_iff]
      exact ⟨o', query_more t env srt f db ob q g1 hf, rfl⟩

/-- the maps are what the database and the open batch hold, and the filter covers both -/
structure Represents (t : Table T F) (w : PWorld F) (s : Maps T) : Prop where
  stored : Holds t w.db s.stored
  covers : FilterCovers t w.filt s.stored
  closed : w.batch = none → s.tx = none
  opened : ∀ b, w.batch = some b → b.indexed = true ∧ ∃ v, s.tx = some v ∧ Holds t (w.db.apply b.ops) v ∧ FilterCovers t w.filt v

theorem writes_direct {t : Table T F} (wf : t.WF) (rt : t.RoundTrip) (fs : t.FilterSound) {env : Env T} (ok : env.OK t) {db : KV} {f : F}
    {m : Rows T} {c : WCall T} (hH : Holds t db m) (hF : FilterCovers t f m) (hg : GoodRun t env db c) :
    ∃ m', Writes t env m c (t.run env db f none c).err m' ∧ Holds t (t.run env db f none c).db m' ∧
      FilterCovers t (t.run env db f none c).filt m' := by
  have hr : Readable (none : Option Batch) := by intro b hb; simp at hb
  have hres := fun hu hser => run_result (ob := none) wf rt fs ok hr hH hF hg hu hser
  by_cases he : (t.run env db f none c).err = none
  · obtain ⟨a, _, b⟩ := run_effect wf rt fs ok (ob := none) hr hH hF hg he
    rw [run_view_nobatch] at a
    exact ⟨_, ⟨fun _ => rfl, fun h => absurd he h, hres⟩, a, b⟩
  · refine ⟨m, ⟨fun h => absurd h he, fun _ => rfl, hres⟩, ?_, run_filt_covers fs ok db none c hF⟩
    rw [((C13 t env db f c).1 he).1]
    exact hH

/-- C97 (one action): the answer and the maps afterwards are those of the specification. -/
theorem C97_step {t : Table T F} (wf : t.WF) (rt : t.RoundTrip) (fs : t.FilterSound) (hp : 0 < t.prefetch)
    {srt : (T → T → Bool) → List T → List T} (hsrt : SortSlice srt) {w : PWorld F} {s : Maps T} (h : Represents t w s) {x : PStep T}
    (hx : Proper1 t s x) :
    ∃ N a w' s', (∀ fuel, N ≤ fuel → t.pstep srt fuel w x = some (a, w')) ∧ Does t s x a s' ∧ Represents t w' s' := by
  have rtf : t.RoundTripFresh := fun x b hb => rt x b hb _
  cases x with
  | begin =>
    refine ⟨0, _, _, ⟨s.stored, some s.stored⟩, fun _ _ => rfl, ⟨rfl, rfl⟩, h.stored, h.covers, by simp, ?_⟩
    rintro b hb
    simp only [Option.some.injEq] at hb
    subst hb
    exact ⟨rfl, _, rfl, by simpa [KV.apply_nil] using h.stored, h.covers⟩
  | discard => exact ⟨0, _, _, ⟨s.stored, none⟩, fun _ _ => rfl, ⟨rfl, rfl⟩, h.stored, h.covers, by simp, by simp⟩
  | commit k =>
    cases hb : w.batch with
    | none =>
      have htx := h.closed hb
      refine ⟨0, _, _, s, fun _ _ => by simp only [Table.pstep, hb], ⟨fun _ => rfl, Or.inl ⟨rfl, ?_⟩⟩, h⟩
      cases s; simp_all
    | some b =>
      obtain ⟨hi, v, hv, hH, hF⟩ := h.opened b hb
      have heq : ∀ fuel, t.pstep srt fuel w (.commit k) =
          some (.done (Batch.commit k w.db b).2, { w with db := (Batch.commit k w.db b).1, batch := none }) := by
        intro fuel; simp only [Table.pstep, hb]
      by_cases h0 : b.ops = []
      · rw [h0, KV.apply_nil] at hH
        refine ⟨0, .done none, { w with batch := none }, ⟨v, none⟩, fun fuel _ => ?_, ⟨fun _ => rfl, Or.inl ⟨rfl, by simp [hv]⟩⟩, hH, hF, by simp, by simp⟩
        rw [heq]; simp [Batch.commit, h0]
      · cases k with
        | true =>
          refine ⟨0, .done none, { w with db := w.db.apply b.ops, batch := none }, ⟨v, none⟩, fun fuel _ => ?_,
            ⟨fun _ => rfl, Or.inl ⟨rfl, by simp [hv]⟩⟩, hH, hF, by simp, by simp⟩
          rw [heq]; simp [Batch.commit, h0]
        | false =>
          refine ⟨0, .done (some .commit), { w with batch := none }, ⟨s.stored, none⟩, fun fuel _ => ?_,
            ⟨fun h => by simp at h, Or.inr ⟨rfl, rfl⟩⟩, h.stored, h.covers, by simp, by simp⟩
          rw [heq]; simp [Batch.commit, h0]
  | call env inBatch c =>
    have hread : ∀ c : TCall T, (∀ d, c ≠ .write d) → Proper1 t s (.call env inBatch c) →
        ∃ N a w' s', (∀ fuel, N ≤ fuel → t.pstep srt fuel w (.call env inBatch c) = some (a, w')) ∧
          Does t s (.call env inBatch c) a s' ∧ Represents t w' s' := by
      intro c hc hx
      have hob : Readable (if inBatch then w.batch else none) := by
        intro b hb
        cases inBatch with
        | false => simp at hb
        | true => exact (h.opened b (by simpa using hb)).1
      have hsee : Holds t (baseView w.db (if inBatch then w.batch else none)) (if inBatch then s.tx.getD s.stored else s.stored) ∧
          FilterCovers t w.filt (if inBatch then s.tx.getD s.stored else s.stored) := by
        cases inBatch with
        | false => exact ⟨h.stored, h.covers⟩
        | true =>
          cases hb : w.batch with
          | none => rw [h.closed hb]; exact ⟨h.stored, h.covers⟩
          | some b =>
            obtain ⟨_, v, hv, h1, h2⟩ := h.opened b hb
            rw [hv]; exact ⟨h1, h2⟩
      have hsome : (if inBatch then w.batch else none).isSome = (inBatch && s.tx.isSome) := by
        cases inBatch with
        | false => rfl
        | true =>
          cases hb : w.batch with
          | none => simp [h.closed hb]
          | some b => obtain ⟨_, v, hv, _⟩ := h.opened b hb; simp [hv]
      have hx' : env.OK t ∧ ProperRead t (if inBatch then s.tx.getD s.stored else s.stored) (inBatch && s.tx.isSome) c := by
        cases c with
        | write d => exact absurd rfl (hc d)
        | _ => exact hx
      rw [← hsome] at hx'
      obtain ⟨N, a, h1, h2⟩ := C97_read wf rtf hp hsrt hx'.1 hob hsee.1 hsee.2 hx'.2
      refine ⟨N, a, w, s, fun fuel hf => ?_, ?_, h⟩
      · have h2 := h2 fuel hf
        cases c with
        | write d => exact absurd rfl (hc d)
        | _ => simp only [Table.pstep, h2, Option.map_some]
      · cases c with
        | write d => exact absurd rfl (hc d)
        | _ => cases inBatch <;> exact ⟨h1, rfl⟩
    cases c with
    | write c =>
      obtain ⟨ok, h1, h2⟩ := hx
      have direct : w.batch = none → (if inBatch then w.batch else none) = none ∧ s.tx = none := by
        intro hb
        exact ⟨by cases inBatch <;> simp [hb], h.closed hb⟩
      cases hb : w.batch with
      | none =>
        obtain ⟨hob, htx⟩ := direct hb
        rw [htx, Option.getD_none] at h2
        obtain ⟨m', g1, g2, g3⟩ := writes_direct wf rt fs ok (f := w.filt) h.stored h.covers (properWrite_good rtf h.stored h2)
        refine ⟨0, _, _, ⟨m', none⟩, fun fuel _ => rfl, ?_, ?_⟩
        · rw [hob]
          cases inBatch with
          | false => exact ⟨_, rfl, g1, htx.symm⟩
          | true =>
            refine ⟨_, rfl, ?_⟩
            rw [htx]
            exact ⟨g1, rfl⟩
        · rw [hob]
          have hnb : (if inBatch then (t.run env w.db w.filt none c).batch else w.batch) = none := by
            cases inBatch with
            | false => exact hb
            | true =>
              rw [if_pos rfl, Table.run_eq]
              split
              · rfl
              · exact finish_nobatch
          exact ⟨g2, g3, fun _ => rfl, fun b hb' => by simp only [hnb] at hb'; cases hb'⟩
      | some b =>
        obtain ⟨hi, v, hv, hH, hF⟩ := h.opened b hb
        have hin : inBatch = true := h1 (by simp [hv])
        subst hin
        rw [hv, Option.getD_some] at h2
        have hg := properWrite_good rtf hH h2
        obtain ⟨c', k0, k1, k2, _, k3⟩ := C96_call wf rt fs ok hi hH hF hg
        have hr : Readable (some b) := by intro b' hb'; cases hb'; exact hi
        have hres := fun hu hser => run_result (ob := some b) wf rt fs ok hr hH hF hg hu hser
        obtain ⟨l', hl', _⟩ := C61_partial ok w.db w.filt b c
        have hdb := (run_db_batch t env w.db w.filt b c).1
        refine ⟨0, .done (t.run env w.db w.filt (some b) c).err,
          ⟨(t.run env w.db w.filt (some b) c).db, (t.run env w.db w.filt (some b) c).filt, (t.run env w.db w.filt (some b) c).batch⟩,
          ⟨s.stored, some (effect t.pk v c')⟩, fun fuel _ => ?_, ?_, ?_⟩
        · simp only [Table.pstep, if_true, hb]
        · refine ⟨_, rfl, ?_⟩
          rw [hv]
          exact ⟨_, ⟨fun he => by rw [k1 he], fun _ => ⟨c', k0, rfl⟩, hres⟩, rfl⟩
        · refine ⟨?_, run_filt_covers fs ok w.db (some b) c h.covers, fun hn => ?_, ?_⟩
          · simp only [hdb]; exact h.stored
          · simp only [hl'] at hn; cases hn
          · intro b' hb'
            have hind := run_batch_indexed t env w.db w.filt c hr b' hb'
            simp only at hb'
            refine ⟨hind, _, rfl, ?_, k3⟩
            have : (t.run env w.db w.filt (some b) c).batchOps = b'.ops := by unfold WOut.batchOps; rw [hb']
            rw [this] at k2
            simp only [hdb]
            exact k2
    | get x => exact hread _ (by simp) hx
    | getMany x => exact hread _ (by simp) hx
    | exist x => exact hread _ (by simp) hx
    | scan x => exact hread _ (by simp) hx
    | scanIndex a b c => exact hread _ (by simp) hx
    | query x => exact hread _ (by simp) hx

/-- C97. One goroutine uses a table, with calls without batch and with transactions, in any order and any number, each call within the
documented use. Then the calls end, and their answers are those of a map from primary keys to records: Insert, Update, Upsert, Delete change it
as said, completely or, if they fail, not at all (in a transaction: for a part of the rows); Get and Exist look up; scans and
queries return its records in the order of the index; a transaction is a copy of the map that replaces it at the commit. -/
theorem C97 {t : Table T F} (wf : t.WF) (rt : t.RoundTrip) (fs : t.FilterSound) (hp : 0 < t.prefetch)
    {srt : (T → T → Bool) → List T → List T} (hsrt : SortSlice srt) (l : List (PStep T)) : ∀ {w : PWorld F} {s : Maps T},
    Represents t w s → Proper t s l →
    ∃ N as w' s', (∀ fuel, N ≤ fuel → t.prun srt fuel w l = some (as, w')) ∧ Behaves t s l as s' ∧ Represents t w' s' := by
  induction l with
  | nil => intro w s h _; exact ⟨0, [], w, s, fun _ _ => rfl, .nil, h⟩
  | cons x l ih =>
    intro w s h hx
    obtain ⟨N, a, w', s', h1, h2, h3⟩ := C97_step wf rt fs hp hsrt h hx.1
    obtain ⟨M, as, w'', s'', g1, g2, g3⟩ := ih h3 (hx.2 a s' h2)
    refine ⟨max N M, a :: as, w'', s'', fun fuel hf => ?_, .cons h2 g2, g3⟩
    simp only [Table.prun]
    rw [h1 fuel (by omega)]
    simp only
    rw [g1 fuel (by omega)]
    rfl

/-- C97 from the beginning: a database without entries of the table, as it is when the table is created. -/
theorem C97_start {t : Table T F} (wf : t.WF) (rt : t.RoundTrip) (fs : t.FilterSound) (hp : 0 < t.prefetch)
    {srt : (T → T → Bool) → List T → List T} (hsrt : SortSlice srt) {db : KV} (h : ∀ k, ¬ Outside t k → db.get k = none) (f : F)
    (l : List (PStep T)) (hl : Proper t ⟨fun _ => none, none⟩ l) :
    ∃ N as w' s', (∀ fuel, N ≤ fuel → t.prun srt fuel ⟨db, f, none⟩ l = some (as, w')) ∧ Behaves t ⟨fun _ => none, none⟩ l as s' ∧
      Represents t w' s' :=
  C97 wf rt fs hp hsrt l ⟨holds_none h, fun fl _ pk x hx => (by cases hx), fun _ => rfl, fun b hb => nomatch hb⟩ hl

/-- A program: rows are inserted, one insert is refused; a transaction updates a row and inserts others, which are seen through
it only, until it is committed. -/
def c97Program : List (PStep Rec) :=
  let env := stdEnv exTable
  [.call env false (.write (.insert [(1, 5), (2, 6)])),
   .call env false (.write (.insert [(3, 5), (2, 7)])),
   .begin,
   .call env true (.write (.update [(2, 5)])),
   .call env true (.write (.insert [(4, 9), (1, 1), (0, 5)])),
   .call env true (.scanIndex exIndex (.point (0, 5)) true),
   .call env false (.scanIndex exIndex (.points [(0, 6), (0, 5)]) false),
   .call env false (.get (2, 0)),
   .commit true,
   .call env false (.query { exTable.query with limit := 2, less := some (fun a b => decide (b.1 < a.1)) })]

example : (exTable.prun insSort 30 ⟨KV.empty, (), none⟩ c97Program).map Prod.fst = some
    [.done none, .done (some .alreadyExist), .done none, .done none, .done (some .alreadyExist), .rows [(2, 5), (1, 5), (0, 5)] none,
     .rows [(2, 6), (1, 5)] none, .row (.ok (2, 6)), .done none, .rows [(2, 5), (1, 5)] none] := by
  decide +kernel

/-- the program is within the documented use, so C97 speaks about it -/
example : Proper exTable ⟨fun _ => none, none⟩ c97Program := by
  have ok := stdEnv_ok exTable
  have hi : exIndex ∈ exTable.indexes := by simp [exTable]
  refine ⟨⟨ok, by simp, Or.inl (by decide)⟩, fun _ _ h1 => ⟨⟨ok, ?_, Or.inl (by decide)⟩, fun _ _ _ => ⟨trivial, fun _ _ h2 =>
    ⟨⟨ok, by simp, Or.inl (by decide)⟩, fun _ _ _ => ⟨⟨ok, by simp, Or.inl (by decide)⟩, fun _ _ _ => ⟨⟨ok, ?_⟩, fun _ _ _ => ⟨⟨ok, ?_⟩,
    fun _ _ _ => ⟨⟨ok, trivial⟩, fun _ _ _ => ⟨trivial, fun _ _ _ => ⟨⟨ok, ?_⟩, fun _ _ _ => trivial⟩⟩⟩⟩⟩⟩⟩⟩⟩⟩
  · obtain ⟨_, _, _, h⟩ := h1
    intro hs; rw [h] at hs; simp at hs
  · exact ⟨Or.inl hi, ⟨by simp [Selector.elems], by simp [Selector.elems, exIndex]⟩, by simp [NoTrailingFF, exIndex]⟩
  · exact ⟨Or.inl hi, ⟨by simp [Selector.elems], by simp [Selector.elems, exIndex]⟩, hi, by simp [NoTrailingFF, exIndex]⟩
  · refine ⟨Or.inr rfl, ⟨⟨by simp [Selector.elems, Table.query], ?_⟩, ?_⟩, fun x hx => (nomatch hx), by decide, by decide, ?_, fun h => absurd rfl h⟩
    · simp [Selector.elems, Table.query, Table.primaryIndex]
    · simp [Table.query, Table.primaryIndex, NoTrailingFF]
    · intro less hl
      simp only [Option.some.injEq] at hl
      subst hl
      exact ⟨by simp, by intro a b c; simp only [decide_eq_true_eq]; exact fun h1 h2 => UInt8.lt_trans h2 h1,
        by intro a b c; simp only [decide_eq_false_iff_not, UInt8.not_lt]; exact fun h1 h2 => UInt8.le_trans h1 h2⟩

/-- the page after row (1, 5) of a query by group, read by `C97_read` -/
example : ProperRead exTable (Rows.putAll (fun _ => none) exTable.pk [(1, 5), (2, 6)]) false
    (.query { exTable.query with limit := 1, after := some (1, 5) }) ∧
    exTable.readCall insSort 9 (stdEnv exTable) () exDB none (.query { exTable.query with limit := 1, after := some (1, 5) }) =
      some (.rows [(2, 6)] none) := by
  refine ⟨⟨Or.inr rfl, ⟨⟨by simp [Selector.elems, Table.query], by simp [Selector.elems, Table.query, Table.primaryIndex]⟩,
    by simp [Table.query, Table.primaryIndex, NoTrailingFF]⟩, ?_, by decide, by decide, fun less hl => (nomatch hl), fun h => absurd rfl h⟩, by decide +kernel⟩
  rintro x ⟨⟩
  refine ⟨rfl, ?_, fun _ _ => rfl, fun _ => Or.inl ⟨_, rfl⟩, fun h => absurd rfl h⟩
  intro rows h
  obtain ⟨l, h1, h2⟩ : ∃ l, Selects exTable exTable.primaryIndex (Rows.putAll (fun _ => none) exTable.pk [(1, 5), (2, 6)]) (.point (0, 0)) l ∧
    rows = dir false l := h
  rw [h2]
  refine (h1.2 (1, 5)).2 ⟨⟨by decide, rfl⟩, rfl, ?_⟩
  simp [IdxLe, IdxLt, Table.primaryIndex, exTable, blt]

/-- a context cancelled after the first row: the scan of the primary index stops with an error; the index scan had fetched both rows -/
example : exTable.scanIndex (stdEnv exTable) () exDB none exTable.primaryIndex (.point (0, 0)) false 9 [] = some ⟨[(1, 5), (2, 6)], none⟩ ∧
    exTable.scanIndex ((stdEnv exTable).withDone (fun n => decide (1 ≤ n))) () exDB none exTable.primaryIndex (.point (0, 0)) false 9 [] =
      some ⟨[(1, 5)], some .ctxDone⟩ ∧
    exTable.scanIndex ((stdEnv exTable).withDone (fun n => decide (1 ≤ n))) () exDB none exIndex (.range (0, 0) (9, 9)) false 9 [] =
      some ⟨[(1, 5), (2, 6)], none⟩ ∧
    exTable.readCall insSort 9 ((stdEnv exTable).withDone (fun n => decide (1 ≤ n))) () exDB none (.query exTable.query) = some (.rows [] (some .ctxDone)) := by
  decide +kernel

end Bond
