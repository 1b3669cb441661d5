import Verif.ScanLemmas
import Verif.Props.Reads
/-
Properties of scans: C10, C23-C29, C35, C62.
-/
namespace Bond
open Spec
variable {T F σ : Type}

/-- content of the test database -/
def exRows : Rows Rec := Rows.putAll (fun _ => none) exTable.pk [(1, 5), (2, 6)]

/-- The assumptions of the scan theorems are met by a concrete table with two rows. -/
theorem exSetting : Setting exTable (stdEnv exTable) () exDB none exRows where
  wf := exTable_wf
  rt := fun x b hb => exTable_rt x b hb _
  ok := stdEnv_ok exTable
  alive := fun _ => rfl
  prefetch := by decide
  content := ⟨exDB, rfl, exDB_holds⟩
  covers := covers_nofilter rfl _ _

theorem exIndex_is : IsIndex exTable exIndex := Or.inl (by simp [exTable])

theorem exRange_ok : (Selector.range (0, 0) (9, 9) : Selector Rec).OK exIndex := ⟨by decide, by intro p _; simp [exIndex]⟩

/-! ## C28 Multi-selectors are the concatenation of their parts -/

/-- C28, cursor: after any sequence of calls that starts with `First` or `Last`, whatever the cursor did before, the cursor over
several parts stands where one cursor over the concatenation would stand, and shows the same entry. -/
theorem C28_cursor {α : Type} (parts : List (List α)) (hp : parts ≠ []) (c : MCur) (op : CurOp)
    (hop : op = .first ∨ op = .last) (ops : List CurOp) :
    ((op :: ops).foldl (MCur.step parts) c).entry parts =
      MCur.specEntry parts.flatten ((op :: ops).foldl (MCur.specStep parts.flatten.length) .before) := by
  have key : ∀ (ops : List CurOp) (c : MCur) (p : Pos), MCur.Rest parts c ∧ MCur.abs parts c = p →
      MCur.Rest parts (ops.foldl (MCur.step parts) c) ∧
      MCur.abs parts (ops.foldl (MCur.step parts) c) = ops.foldl (MCur.specStep parts.flatten.length) p := by
    intro ops
    induction ops with
    | nil => exact fun c p h => h
    | cons o ops ih =>
      rintro c p ⟨hr, rfl⟩
      rw [List.foldl_cons, List.foldl_cons]
      apply ih
      cases o with
      | first => exact MCur.first_spec parts hp c
      | last => exact MCur.last_spec parts hp c
      | next => exact MCur.next_spec parts hp c hr
      | prev => exact MCur.prev_spec parts hp c hr
  rw [List.foldl_cons, List.foldl_cons]
  have := key ops (MCur.step parts c op) (MCur.specStep parts.flatten.length .before op) (by
    rcases hop with rfl | rfl
    · exact MCur.first_spec parts hp c
    · exact MCur.last_spec parts hp c)
  rw [MCur.entry_spec parts _ this.1, this.2]

example : ([CurOp.last, .prev, .prev].foldl (MCur.step [[], [1, 2], [], [3]]) ⟨0, .before⟩).entry [[], [1, 2], [], [3]] = some 1 := by
  decide

/-- C28, walking: the usual scan loop over the cursor visits exactly the concatenation of the parts, in reverse exactly the
reverse. -/
theorem C28_scan {α : Type} (parts : List (List α)) (hp : parts ≠ []) (reverse : Bool) :
    MCur.scan parts reverse = dir reverse parts.flatten := by
  unfold MCur.scan dir
  cases reverse with
  | false =>
    simp only [Bool.false_eq_true, if_false]
    obtain ⟨h1, h2⟩ := MCur.first_spec parts hp ⟨0, .before⟩
    rw [MCur.collect_fwd parts hp _ _ h1 0 _ (by omega)]
    · simp
    · rw [h2, Pos.first]
      by_cases h : parts.flatten.length = 0
      · rw [if_pos h]; exact Or.inr ⟨rfl, h.symm⟩
      · rw [if_neg h]; exact Or.inl ⟨rfl, by omega⟩
  | true =>
    simp only [if_true]
    obtain ⟨h1, h2⟩ := MCur.last_spec parts hp ⟨0, .before⟩
    rw [MCur.collect_bwd parts hp _ _ h1 parts.flatten.length (Nat.le_refl _) _ (by omega)]
    · rw [List.take_length]
    · rw [h2, Pos.last]
      by_cases h : parts.flatten.length = 0
      · rw [if_pos h]; exact Or.inr ⟨rfl, h⟩
      · rw [if_neg h]; exact Or.inl ⟨rfl, by omega⟩

example : MCur.scan [[], [1, 2], [], [3]] true = [3, 2, 1] := by decide

/-- C28 for SelectorPoints on a secondary index: the scan returns what the scans with the single points return, one after the
other (reverse: reversed). -/
theorem C28_points {t : Table T F} {env : Env T} {filt : F} {db : KV} {ob : Option Batch} {m : Rows T}
    (S : Setting t env filt db ob m) {idx : Index T} (hi : idx ∈ t.indexes) {ps : List T} (hs : (Selector.points ps).OK idx)
    {r : T → List T} (hr : ∀ p ∈ ps, Yields t env filt db ob idx (.point p) false (r p)) (reverse : Bool) :
    Yields t env filt db ob idx (.points ps) reverse (dir reverse (ps.flatMap r)) := by
  have hi' : IsIndex t idx := Or.inl hi
  obtain ⟨parts, h1, h2, h3⟩ := S.parts hi' hs
  clear h3
  have hparts : parts = ps.map r := by
    have hl := hs.2
    simp only [Selector.elems] at hl
    simp only [boundsOf, if_neg (show ¬ idx.id = primaryIndexID from S.wf.nz idx hi)] at h1
    clear h2 hs
    induction ps generalizing parts with
    | nil => cases h1; rfl
    | cons p ps ih =>
      cases h1 with
      | cons a b =>
        rw [ih (fun q hq => hr q (by simp [hq])) _ (fun q hq => hl q (by simp [hq])) b]
        obtain ⟨rows, g1, g2, _⟩ := S.single hi' (sel := .point p) ⟨by simp [Selector.elems], by
          simpa [Selector.elems] using hl p (by simp)⟩ rfl
        rw [List.map_cons, IsRows.unique S.wf hi' a g1, Yields.unique (hr p (by simp)) (g2 false)]
        rfl
  rw [hparts] at h2
  have := h2 reverse
  rwa [show (ps.map r).flatten = ps.flatMap r from List.flatMap_def.symm] at this

/-- C28 for SelectorRanges on any index, primary included. -/
theorem C28_ranges {t : Table T F} {env : Env T} {filt : F} {db : KV} {ob : Option Batch} {m : Rows T}
    (S : Setting t env filt db ob m) {idx : Index T} (hi : IsIndex t idx) {rs : List (T × T)} (hs : (Selector.ranges rs).OK idx)
    {r : T × T → List T} (hr : ∀ p ∈ rs, Yields t env filt db ob idx (.range p.1 p.2) false (r p)) (reverse : Bool) :
    Yields t env filt db ob idx (.ranges rs) reverse (dir reverse (rs.flatMap r)) := by
  obtain ⟨parts, h1, h2, h3⟩ := S.parts hi hs
  clear h3
  have hparts : parts = rs.map r := by
    have hl := hs.2
    simp only [Selector.elems] at hl
    simp only [boundsOf] at h1
    clear h2 hs
    induction rs generalizing parts with
    | nil => cases h1; rfl
    | cons p ps ih =>
      cases h1 with
      | cons a b =>
        rw [ih (fun q hq => hr q (by simp [hq])) _ b (fun q hq => hl q (by
          rw [List.flatMap_cons, List.mem_append]; exact Or.inr hq))]
        obtain ⟨rows, g1, g2, _⟩ := S.single hi (sel := .range p.1 p.2) ⟨by simp [Selector.elems], fun q hq => hl q (by
          rw [List.flatMap_cons, List.mem_append]; exact Or.inl hq)⟩ rfl
        rw [List.map_cons, IsRows.unique S.wf hi a g1, Yields.unique (hr p (by simp)) (g2 false)]
        rfl
  rw [hparts] at h2
  have := h2 reverse
  rwa [show (rs.map r).flatten = rs.flatMap r from List.flatMap_def.symm] at this

example : (Selector.points [(0, 6), (0, 5), (0, 6)] : Selector Rec).OK exIndex ∧
    exTable.scanIndex (stdEnv exTable) () exDB none exIndex (.points [(0, 6), (0, 9), (0, 5), (0, 6)]) true 9 [] =
      some ⟨[(2, 6), (1, 5), (2, 6)], none⟩ := by
  refine ⟨⟨by decide, ?_⟩, by decide⟩
  intro p _; simp [exIndex]

/-- An empty list of points or ranges panics. -/
theorem C28_empty {t : Table T F} (env : Env T) (filt : F) (db : KV) (ob : Option Batch) (idx : Index T) (reverse : Bool)
    (fuel : Nat) (tr : List T) :
    t.scanIndex env filt db ob idx (.points []) reverse fuel tr = some ⟨tr, some .panic⟩ ∧
    t.scanIndex env filt db ob idx (.ranges []) reverse fuel tr = some ⟨tr, some .panic⟩ := ⟨rfl, rfl⟩

/-! ## C23 Scan returns every row once, in primary-key order -/

/-- C23 when no stored primary key is below that of the table's empty record (the record from which `Scan` starts): every row is
returned exactly once, in bytewise order of the primary key, in reverse in the opposite order.
Missing for the full C23: contents with smaller primary keys, see `C23_refuted`. -/
theorem C23_partial {t : Table T F} {env : Env T} {filt : F} {db : KV} {ob : Option Batch} {m : Rows T}
    (S : Setting t env filt db ob m) (hlow : ∀ pk x, m pk = some x → ble (t.pk t.empty) pk = true) :
    ∃ rows : List T, rows.Pairwise (fun x y => blt (t.pk x) (t.pk y) = true) ∧ (∀ x, x ∈ rows ↔ m (t.pk x) = some x) ∧
      ∀ reverse, ∃ N, ∀ fuel, N ≤ fuel → ∀ tr, t.scan env filt db ob reverse fuel tr = some ⟨tr ++ dir reverse rows, none⟩ := by
  have hi : IsIndex t t.primaryIndex := Or.inr rfl
  have hkey : ∀ x, t.primaryIndex.key x = [] := fun _ => rfl
  have hord : ∀ x, t.primaryIndex.ord x = [] := fun _ => rfl
  have hlt : ∀ x y, IdxLt t t.primaryIndex x y ↔ blt (t.pk x) (t.pk y) = true := by
    intro x y; simp [IdxLt, hkey, hord, blt_irrefl]
  obtain ⟨rows, h1, h2, _⟩ := S.single hi (sel := .point t.empty) ⟨by simp [Selector.elems], by simp [Selector.elems, hkey]⟩ rfl
  have h1' := h1.congr (fun x hx => boundP_point S.wf hi (p := t.empty) (by simp [NoTrailingFF, hkey]) (by simp [hkey]) x)
  refine ⟨rows, h1'.1.imp (fun h => (hlt _ _).1 h), ?_, h2⟩
  intro x
  rw [h1'.2]
  refine ⟨fun h => h.1.1, fun h => ⟨⟨h, rfl⟩, rfl, ?_⟩⟩
  unfold IdxLe
  rw [hlt]
  have := hlow _ x h
  simpa [ble] using this

example : exTable.scan (stdEnv exTable) () exDB none true 9 [] = some ⟨[(2, 6), (1, 5)], none⟩ ∧
    (∀ pk x, exRows pk = some x → ble (exTable.pk exTable.empty) pk = true) := by
  refine ⟨by decide, ?_⟩
  intro pk x hx
  have := exDB_holds.row_pk pk x hx
  subst this
  simp only [exTable, ble, blt]
  simp

/-- test table with a signed primary key, built with the key builder as in bond's own documentation -/
def signedTable : Table (BitVec 64) Unit :=
  { id := 3, pk := fun x => (KeyBuilder.addInt64Field (KeyBuilder.new []) x).bytes, indexes := [], ser := fun x => some (beBytes 8 x.toNat)
    deser := fun _ b => some (BitVec.ofNat 64 (beNat b)), nil := 0, empty := 0, filter := none, prefetch := 100 }

/-- C23 is false in general: with a signed primary key, a row with a negative key is stored, but `Scan` does not return it. -/
theorem C23_refuted :
    let db := (signedTable.insert (stdEnv signedTable) KV.empty () none [-1, 1]).db
    (signedTable.insert (stdEnv signedTable) KV.empty () none [-1, 1]).err = none ∧
    signedTable.getOne () db none (-1) = .ok [-1] ∧
    signedTable.scan (stdEnv signedTable) () db none false 9 [] = some ⟨[1], none⟩ := by
  decide

/-! ## C24 Index scans return each matching row once, in index order -/

/-- C24: with a point selector whose index value does not end with 0xFF, the result is exactly the stored rows accepted by the index
filter that have the index value of the point and lie at or after it, once each, in index order.
Missing for the full C24: index values ending with 0xFF, where further rows are returned (`C26_refuted`). -/
theorem C24_partial {t : Table T F} {env : Env T} {filt : F} {db : KV} {ob : Option Batch} {m : Rows T}
    (S : Setting t env filt db ob m) {idx : Index T} (hi : IsIndex t idx) {p : T}
    (hn : NoTrailingFF (idx.key p)) (hl : (idx.key p).length < 2 ^ 32 - 1) :
    ∃ rows, IsRows t idx m (fun x => idx.key x = idx.key p ∧ IdxLe t idx p x) rows ∧
      ∀ reverse, Yields t env filt db ob idx (.point p) reverse (dir reverse rows) := by
  obtain ⟨rows, h1, h2, _⟩ := S.single hi (sel := .point p) ⟨by simp [Selector.elems], by simpa [Selector.elems] using hl⟩ rfl
  exact ⟨rows, h1.congr (fun x _ => boundP_point S.wf hi hn hl x), h2⟩

/-- C24 for every index value: the rows of the index group at or after the point are all returned, once each, in index order;
rows of other groups may follow them. -/
theorem C24_all {t : Table T F} {env : Env T} {filt : F} {db : KV} {ob : Option Batch} {m : Rows T}
    (S : Setting t env filt db ob m) {idx : Index T} (hi : IsIndex t idx) {p : T} (hl : (idx.key p).length < 2 ^ 32 - 1) :
    ∃ rows more, IsRows t idx m (fun x => idx.key x = idx.key p ∧ IdxLe t idx p x) rows ∧
      (rows ++ more).Pairwise (IdxLt t idx) ∧ (∀ x ∈ more, Indexed t idx m x ∧ idx.key x ≠ idx.key p) ∧
      ∀ reverse, Yields t env filt db ob idx (.point p) reverse (dir reverse (rows ++ more)) := by
  obtain ⟨all, h1, h2, _⟩ := S.single hi (sel := .point p) ⟨by simp [Selector.elems], by simpa [Selector.elems] using hl⟩ rfl
  -- the rows of the group come first
  have hsplit : ∀ l : List T, l.Pairwise (IdxLt t idx) → (∀ x ∈ l, IdxLe t idx p x) →
      l = l.filter (fun x => decide (idx.key x = idx.key p)) ++ l.filter (fun x => !decide (idx.key x = idx.key p)) := by
    intro l
    induction l with
    | nil => intros; rfl
    | cons x l ih =>
      intro hp hle
      rw [List.pairwise_cons] at hp
      have ihl := ih hp.2 (fun y hy => hle y (by simp [hy]))
      by_cases hx : idx.key x = idx.key p
      · rw [List.filter_cons_of_pos (by simpa using hx), List.filter_cons_of_neg (by simpa using hx), List.cons_append, ← ihl]
      · rw [List.filter_cons_of_neg (by simpa using hx), List.filter_cons_of_pos (by simpa using hx)]
        have : l.filter (fun x => decide (idx.key x = idx.key p)) = [] := by
          rw [List.filter_eq_nil_iff]
          intro y hy hyp
          have hyp : idx.key y = idx.key p := by simpa using hyp
          have h1 := hp.1 y hy
          have h2 := hle x (by simp)
          unfold IdxLe IdxLt at h2
          unfold IdxLt at h1
          rw [hyp] at h1
          rcases h1 with h1 | ⟨h1, h1' | ⟨h1', _⟩⟩
          · exact h2 (Or.inl h1)
          · exact h2 (Or.inr ⟨h1, Or.inl h1'⟩)
          · exact hx h1'
        rw [this] at ihl ⊢
        rw [List.nil_append] at ihl ⊢
        rw [← ihl]
  have hle : ∀ x ∈ all, IdxLe t idx p x := fun x hx => by
    rw [← indexKey_le S.wf hi]; exact ((h1.2 x).1 hx).2.1
  have e := hsplit all h1.1 hle
  refine ⟨_, _, ⟨h1.1.filter _, ?_⟩, e ▸ h1.1, ?_, fun reverse => e ▸ h2 reverse⟩
  · intro x
    rw [List.mem_filter, h1.2]
    constructor
    · rintro ⟨⟨a, b⟩, c⟩
      exact ⟨a, by simpa using c, by rw [← indexKey_le S.wf hi]; exact b.1⟩
    · rintro ⟨a, b, c⟩
      rw [← indexKey_le S.wf hi] at c
      exact ⟨⟨a, c, point_upper hl b⟩, by simpa using b⟩
  · intro x hx
    rw [List.mem_filter, h1.2] at hx
    exact ⟨hx.1.1, by simpa using hx.2⟩

/-- `C28_points` at three points, one of them repeated: the rows of each point exist by `C24_all` -/
example : ∃ r : Rec → List Rec, Yields exTable (stdEnv exTable) () exDB none exIndex (.points [(0, 6), (0, 5), (0, 6)]) true
    (dir true ([(0, 6), (0, 5), (0, 6)].flatMap r)) := by
  have h : ∀ p : Rec, ∃ rows, Yields exTable (stdEnv exTable) () exDB none exIndex (.point p) false rows := fun p => by
    obtain ⟨_, _, _, _, _, h⟩ := C24_all exSetting exIndex_is (p := p) (by simp [exIndex])
    exact ⟨_, h false⟩
  exact ⟨fun p => (h p).choose, C28_points exSetting (by simp [exTable]) ⟨by decide, by intro p _; simp [exIndex]⟩
    (fun p _ => (h p).choose_spec) true⟩

example : exTable.scanIndex (stdEnv exTable) () exDB none exIndex (.point (0, 6)) false 9 [] = some ⟨[(2, 6)], none⟩ ∧
    NoTrailingFF (exIndex.key (0, 6)) := by
  refine ⟨by decide, by simp [NoTrailingFF, exIndex]⟩

/-! ## C26 Point selectors select only the point -/

/-- C26 for index values that do not end with 0xFF: only rows with the index value of the point are returned, and every such row at
or after the point is returned. Missing for the full C26: index values ending with 0xFF, see `C26_refuted`. -/
theorem C26_partial {t : Table T F} {env : Env T} {filt : F} {db : KV} {ob : Option Batch} {m : Rows T}
    (S : Setting t env filt db ob m) {idx : Index T} (hi : IsIndex t idx) {p : T}
    (hn : NoTrailingFF (idx.key p)) (hl : (idx.key p).length < 2 ^ 32 - 1) {rows : List T} {reverse : Bool}
    (hy : Yields t env filt db ob idx (.point p) reverse rows) :
    (∀ x ∈ rows, idx.key x = idx.key p) ∧
    ∀ x, m (t.pk x) = some x → idx.filter x = true → idx.key x = idx.key p → IdxLe t idx p x → x ∈ rows := by
  obtain ⟨rows', h1, h2⟩ := C24_partial S hi hn hl
  have := Yields.unique hy (h2 reverse)
  subst this
  constructor
  · intro x hx
    rw [mem_dir, h1.2] at hx
    exact hx.2.1
  · intro x a b c d
    rw [mem_dir, h1.2]
    exact ⟨⟨a, b⟩, c, d⟩

/-- C26, second half, for every index value: no row of the point's group at or after the point is missed. -/
theorem C26_complete {t : Table T F} {env : Env T} {filt : F} {db : KV} {ob : Option Batch} {m : Rows T}
    (S : Setting t env filt db ob m) {idx : Index T} (hi : IsIndex t idx) {p : T}
    (hl : (idx.key p).length < 2 ^ 32 - 1) {rows : List T} {reverse : Bool}
    (hy : Yields t env filt db ob idx (.point p) reverse rows) :
    ∀ x, m (t.pk x) = some x → idx.filter x = true → idx.key x = idx.key p → IdxLe t idx p x → x ∈ rows := by
  obtain ⟨rows', more, h1, _, _, h2⟩ := C24_all S hi hl
  have := Yields.unique hy (h2 reverse)
  subst this
  intro x a b c d
  rw [mem_dir, List.mem_append, h1.2]
  exact Or.inl ⟨⟨a, b⟩, c, d⟩

/-- `C26_partial` and `C26_complete` at the group of the row (2,6) -/
example : ∃ rows, Yields exTable (stdEnv exTable) () exDB none exIndex (.point (0, 6)) false rows ∧ (2, 6) ∈ rows ∧ (1, 5) ∉ rows := by
  obtain ⟨_, _, _, _, _, h⟩ := C24_all exSetting exIndex_is (p := (0, 6)) (by simp [exIndex])
  have h := h false
  have hn : NoTrailingFF (exIndex.key (0, 6)) := by simp [NoTrailingFF, exIndex]
  refine ⟨_, h, C26_complete exSetting exIndex_is (by simp [exIndex]) h (2, 6) (by decide) rfl rfl (by simp [IdxLe, IdxLt, exIndex, exTable, blt]), ?_⟩
  intro hm
  exact absurd ((C26_partial exSetting exIndex_is hn (by simp [exIndex]) h).1 _ hm) (by decide)

/-- test table: records of two bytes, both of which are primary key and value of index 1 -/
def pairTable : Table Rec Unit :=
  { id := 7, pk := fun x => [x.1, x.2], indexes := [{ id := 1, key := fun x => [x.1, x.2], ord := fun _ => [], filter := fun _ => true }]
    ser := fun x => some [x.1, x.2], deser := fun _ b => match b with | [a, g] => some (a, g) | _ => none
    nil := (0, 0), empty := (0, 0), filter := none, prefetch := 100 }

/-- index 1 of `pairTable` -/
def pairIndex : Index Rec := { id := 1, key := fun x => [x.1, x.2], ord := fun _ => [], filter := fun _ => true }

/-- C26 is false for index values that end with 0xFF: the point (5, 255) also returns the row (6, 0). -/
theorem C26_refuted :
    let db := (pairTable.insert (stdEnv pairTable) KV.empty () none [(5, 255), (6, 0)]).db
    (pairTable.insert (stdEnv pairTable) KV.empty () none [(5, 255), (6, 0)]).err = none ∧
    pairTable.scanIndex (stdEnv pairTable) () db none pairIndex (.point (5, 255)) false 9 [] = some ⟨[(5, 255), (6, 0)], none⟩ := by
  decide

/-! ## C27 Range selectors are inclusive and exact -/

/-- C27 when the primary key of the upper bound is not empty and does not end with 0xFF, and no stored row of the same index value
and order has a primary key that properly extends it (as with keys of one length): the result is exactly the rows between the
two bounds, both included. Missing for the full C27: see `C27_refuted` and `C27_refuted_extends`. -/
theorem C27_partial {t : Table T F} {env : Env T} {filt : F} {db : KV} {ob : Option Batch} {m : Rows T}
    (S : Setting t env filt db ob m) {idx : Index T} (hi : IsIndex t idx) {lo up : T}
    (hne : t.pk up ≠ []) (hn : NoTrailingFF (t.pk up)) (hl : ∀ p ∈ [lo, up], (idx.key p).length < 2 ^ 32 - 1)
    (hext : ∀ pk x, m pk = some x → idx.key x = idx.key up → idx.ord x = idx.ord up → ∀ r, pk = t.pk up ++ r → r = []) :
    ∃ rows, IsRows t idx m (fun x => IdxLe t idx lo x ∧ IdxLe t idx x up) rows ∧
      ∀ reverse, Yields t env filt db ob idx (.range lo up) reverse (dir reverse rows) := by
  obtain ⟨rows, h1, h2, _⟩ := S.single hi (sel := .range lo up) ⟨by simp [Selector.elems], hl⟩ rfl
  refine ⟨rows, h1.congr (fun x hx => ?_), h2⟩
  rw [boundP_range S.wf hi hne hn (hl up (by simp)) x]
  constructor
  · rintro ⟨a, b | ⟨b1, b2, r, b3⟩⟩
    · exact ⟨a, b⟩
    · have := hext _ x hx.1 b1 b2 r b3
      subst this
      refine ⟨a, ?_⟩
      rw [List.append_nil] at b3
      unfold IdxLe IdxLt
      rw [b1, b2, b3]
      simp [blt_irrefl]
  · rintro ⟨a, b⟩; exact ⟨a, Or.inl b⟩

/-- the theorem at the range from (1,5) to (2,6) -/
example := C27_partial exSetting exIndex_is (lo := (1, 5)) (up := (2, 6)) (by decide) (by simp [NoTrailingFF, exTable])
  (by intro p _; simp [exIndex]) (by
    intro pk x h _ _ r hr
    have := (exDB_holds.row_pk pk x h).symm
    rw [hr] at this
    simp [exTable] at this
    exact this.2)

/-- C27, first half, for all bounds: no row between the bounds (both included) is missed, rows before the lower bound are never
returned, and the result is in index order without repetition. -/
theorem C27_complete {t : Table T F} {env : Env T} {filt : F} {db : KV} {ob : Option Batch} {m : Rows T}
    (S : Setting t env filt db ob m) {idx : Index T} (hi : IsIndex t idx) {lo up : T}
    (hl : ∀ p ∈ [lo, up], (idx.key p).length < 2 ^ 32 - 1) :
    ∃ rows : List T, rows.Pairwise (IdxLt t idx) ∧ (∀ x ∈ rows, Indexed t idx m x ∧ IdxLe t idx lo x) ∧
      (∀ x, Indexed t idx m x → IdxLe t idx lo x → IdxLe t idx x up → x ∈ rows) ∧
      ∀ reverse, Yields t env filt db ob idx (.range lo up) reverse (dir reverse rows) := by
  obtain ⟨rows, h1, h2, _⟩ := S.single hi (sel := .range lo up) ⟨by simp [Selector.elems], hl⟩ rfl
  refine ⟨rows, h1.1, ?_, ?_, h2⟩
  · intro x hx
    have := (h1.2 x).1 hx
    exact ⟨this.1, (indexKey_le S.wf hi lo x).1 this.2.1⟩
  · intro x hx a b
    exact (h1.2 x).2 ⟨hx, boundP_range_mem S.wf hi (hl up (by simp)) a b⟩

example : exTable.scanIndex (stdEnv exTable) () exDB none exIndex (.range (1, 5) (2, 6)) false 9 [] = some ⟨[(1, 5), (2, 6)], none⟩ ∧
    exTable.pk (2, 6) ≠ [] ∧ NoTrailingFF (exTable.pk (2, 6)) := by
  refine ⟨by decide, by decide, by simp [NoTrailingFF, exTable]⟩

/-- C27 is false when the upper bound's primary key ends with 0xFF: a row after the upper bound is returned. -/
theorem C27_refuted :
    let db := (pairTable.insert (stdEnv pairTable) KV.empty () none [(5, 255), (6, 0)]).db
    pairTable.scanIndex (stdEnv pairTable) () db none pairTable.primaryIndex (.range (5, 0) (5, 255)) false 9 [] =
      some ⟨[(5, 255), (6, 0)], none⟩ := by
  decide

/-- test table with primary keys of different lengths -/
def varTable : Table Rec Unit :=
  { id := 7, pk := fun x => if x.2 = 0 then [x.1] else [x.1, x.2]
    indexes := [{ id := 1, key := fun x => if x.2 = 0 then [x.1] else [x.1, x.2], ord := fun _ => [], filter := fun _ => true }]
    ser := fun x => some [x.1, x.2], deser := fun _ b => match b with | [a, g] => some (a, g) | _ => none
    nil := (0, 0), empty := (0, 0), filter := none, prefetch := 100 }

/-- C27 is also false when a stored primary key extends that of the upper bound: range "a".."b" returns "bx". -/
theorem C27_refuted_extends :
    let db := (varTable.insert (stdEnv varTable) KV.empty () none [(1, 0), (2, 0), (2, 7)]).db
    varTable.scanIndex (stdEnv varTable) () db none varTable.primaryIndex (.range (1, 0) (2, 0)) false 9 [] =
      some ⟨[(1, 0), (2, 0), (2, 7)], none⟩ ∧ blt (varTable.pk (2, 0)) (varTable.pk (2, 7)) = true := by
  decide

/-! ## C10 Index ranges follow the index value order -/

/-- C10 for an index whose values all have one length and an upper bound whose primary key is not empty and does not end with 0xFF:
every returned row has an index value between those of the bounds in bytewise order, and every stored row with an index value
strictly between them is returned. (Rows with the index value of a bound are decided by order and primary key, C27.)
Missing for the full C10: index values of different lengths, see `C10_refuted`. -/
theorem C10_partial {t : Table T F} {env : Env T} {filt : F} {db : KV} {ob : Option Batch} {m : Rows T}
    (S : Setting t env filt db ob m) {idx : Index T} (hi : IsIndex t idx) {lo up : T} {n : Nat}
    (hlen : ∀ x, (idx.key x).length = n) (hn32 : n < 2 ^ 32 - 1)
    (hne : t.pk up ≠ []) (hn : NoTrailingFF (t.pk up)) :
    ∃ rows : List T, (∀ reverse, Yields t env filt db ob idx (.range lo up) reverse (dir reverse rows)) ∧
      (∀ x ∈ rows, ble (idx.key lo) (idx.key x) = true ∧ ble (idx.key x) (idx.key up) = true) ∧
      ∀ x, Indexed t idx m x → blt (idx.key lo) (idx.key x) = true → blt (idx.key x) (idx.key up) = true → x ∈ rows := by
  obtain ⟨rows, h1, h2, _⟩ := S.single hi (sel := .range lo up) ⟨by simp [Selector.elems], fun p _ => by rw [hlen]; exact hn32⟩ rfl
  have hle : ∀ x y, IdxLe t idx x y → ble (idx.key x) (idx.key y) = true := by
    intro x y h
    unfold IdxLe IdxLt at h
    apply Classical.byContradiction
    intro hc
    exact h (Or.inr ⟨by rw [hlen, hlen], Or.inl (by simpa [ble] using hc)⟩)
  have hlt : ∀ x y, blt (idx.key x) (idx.key y) = true → IdxLe t idx x y := by
    intro x y h hc
    unfold IdxLt at hc
    rw [hlen, hlen] at hc
    rcases hc with hc | ⟨_, hc | ⟨hc, _⟩⟩
    · omega
    · rw [blt_asymm h] at hc; simp at hc
    · rw [hc, blt_irrefl] at h; simp at h
  refine ⟨rows, h2, ?_, ?_⟩
  · intro x hx
    have := ((h1.2 x).1 hx).2
    rw [boundP_range S.wf hi hne hn (by rw [hlen]; exact hn32) x] at this
    refine ⟨hle _ _ this.1, ?_⟩
    rcases this.2 with h | ⟨h, _⟩
    · exact hle _ _ h
    · rw [h]; exact ble_refl _
  · intro x hx a b
    rw [h1.2]
    exact ⟨hx, boundP_range_mem S.wf hi (by rw [hlen]; exact hn32) (hlt _ _ a) (hlt _ _ b)⟩

example : ∀ x, (exIndex.key x).length = 1 := fun _ => rfl

/-- the order of index values in fact: shorter ones first, those of one length by their bytes -/
def Spec.shortLt (a b : Bytes) : Prop := a.length < b.length ∨ (a.length = b.length ∧ blt a b = true)

/-- C10 for index values of any lengths, with `shortLt` for the order of bytes: every row returned has an index value between those of
the bounds, both included, and every row with an index value strictly between them is returned. The rows come in this order.
Missing for the full C10: that the order is the one of bytes, which is false (`C10_refuted`). -/
theorem C10_short_partial {t : Table T F} {env : Env T} {filt : F} {db : KV} {ob : Option Batch} {m : Rows T}
    (S : Setting t env filt db ob m) {idx : Index T} (hi : IsIndex t idx) {lo up : T}
    (hl : ∀ p ∈ [lo, up], (idx.key p).length < 2 ^ 32 - 1) (hne : t.pk up ≠ []) (hn : NoTrailingFF (t.pk up)) :
    ∃ rows : List T, (∀ reverse, Yields t env filt db ob idx (.range lo up) reverse (dir reverse rows)) ∧
      rows.Pairwise (fun x y => ¬ shortLt (idx.key y) (idx.key x)) ∧
      (∀ x ∈ rows, ¬ shortLt (idx.key x) (idx.key lo) ∧ ¬ shortLt (idx.key up) (idx.key x)) ∧
      ∀ x, Indexed t idx m x → shortLt (idx.key lo) (idx.key x) → shortLt (idx.key x) (idx.key up) → x ∈ rows := by
  obtain ⟨rows, h1, h2, _⟩ := S.single hi (sel := .range lo up) ⟨by simp [Selector.elems], hl⟩ rfl
  have hle : ∀ x y, IdxLe t idx x y → ¬ shortLt (idx.key y) (idx.key x) := by
    intro x y h hc
    exact h (hc.elim Or.inl (fun hc => Or.inr ⟨hc.1, Or.inl hc.2⟩))
  have hlt : ∀ x y, IdxLt t idx x y → ¬ shortLt (idx.key y) (idx.key x) := by
    rintro x y h hc
    unfold IdxLt at h
    rcases h with h | ⟨h, h' | ⟨h', -⟩⟩
    · rcases hc with hc | hc <;> omega
    · rcases hc with hc | ⟨-, hc⟩
      · omega
      · rw [blt_asymm h'] at hc; cases hc
    · rw [h'] at hc
      rcases hc with hc | ⟨-, hc⟩
      · omega
      · rw [blt_irrefl] at hc; cases hc
  have hlt2 : ∀ x y, shortLt (idx.key x) (idx.key y) → IdxLe t idx x y := fun x y h hc => hlt _ _ hc h
  refine ⟨rows, h2, h1.1.imp (fun h => hlt _ _ h), ?_, ?_⟩
  · intro x hx
    have := ((h1.2 x).1 hx).2
    rw [boundP_range S.wf hi hne hn (hl up (by simp)) x] at this
    refine ⟨hle _ _ this.1, ?_⟩
    rcases this.2 with h | ⟨h, _⟩
    · exact hle _ _ h
    · rw [h]
      rintro (hc | ⟨-, hc⟩)
      · omega
      · rw [blt_irrefl] at hc; cases hc
  · intro x hx a b
    rw [h1.2]
    exact ⟨hx, boundP_range_mem S.wf hi (hl up (by simp)) (hlt2 _ _ a) (hlt2 _ _ b)⟩

/-- values "b" = [2], "c" = [3] and "ax" = [1, 7]: the range from "b" to "ax" holds "b", "c" and "ax", in this order -/
example :
    let db := (varTable.insert (stdEnv varTable) KV.empty () none [(1, 7), (3, 0), (2, 0)]).db
    let idx := varTable.indexes.head (by decide)
    shortLt (idx.key (2, 0)) (idx.key (3, 0)) ∧ shortLt (idx.key (3, 0)) (idx.key (1, 7)) ∧
    varTable.scanIndex (stdEnv varTable) () db none idx (.range (2, 0) (1, 7)) false 9 [] = some ⟨[(2, 0), (3, 0), (1, 7)], none⟩ := by
  refine ⟨Or.inr ⟨rfl, by decide⟩, Or.inl (by decide), by decide⟩

/-- C10 is false for index values of different lengths: "ax" lies between "a" and "b", but the range "a".."b" does not return
it (entries are ordered by length first). -/
theorem C10_refuted :
    let db := (varTable.insert (stdEnv varTable) KV.empty () none [(1, 7)]).db
    let idx := varTable.indexes.head (by decide)
    ble (idx.key (1, 0)) (idx.key (1, 7)) = true ∧ ble (idx.key (1, 7)) (idx.key (2, 0)) = true ∧
    varTable.getOne () db none (1, 7) = .ok [(1, 7)] ∧
    varTable.scanIndex (stdEnv varTable) () db none idx (.range (1, 0) (2, 0)) false 9 [] = some ⟨[], none⟩ := by
  decide

/-! ## C29 Reverse scans are exact reversals -/

/-- C29 for scans, every index and every selector accepted by bond. -/
theorem C29_scan {t : Table T F} {env : Env T} {filt : F} {db : KV} {ob : Option Batch} {m : Rows T}
    (S : Setting t env filt db ob m) {idx : Index T} (hi : IsIndex t idx) {sel : Selector T} (hs : sel.OK idx) :
    ∃ rows : List T, Yields t env filt db ob idx sel false rows ∧ Yields t env filt db ob idx sel true rows.reverse := by
  obtain ⟨parts, _, h2, _⟩ := S.parts hi hs
  exact ⟨_, h2 false, h2 true⟩

example : exTable.scanIndex (stdEnv exTable) () exDB none exIndex (.range (0, 0) (9, 9)) true 9 [] = some ⟨[(2, 6), (1, 5)], none⟩ := by
  decide

/-! ## C25 Prefetching is invisible -/

/-- C25: for every selector and every callback that fetches every row (after possibly skipping an initial run), a scan calls the
callback once per row, in order, with that row's record, until it is asked to stop; on the primary index this holds for all
callbacks. `rows` are those that `ScanIndex` returns. -/
theorem C25 {t : Table T F} {env : Env T} {filt : F} {db : KV} {ob : Option Batch} {m : Rows T}
    (S : Setting t env filt db ob m) {idx : Index T} (hi : IsIndex t idx) {sel : Selector T} (hs : sel.OK idx) (reverse : Bool) :
    ∃ rows : List T, Yields t env filt db ob idx sel reverse rows ∧
      ∀ {σ : Type} (f : σ → Bytes → Cb σ T) (fetched : σ → Prop), (idx.id = primaryIndexID ∨ FetchesAll f fetched) →
        Visits t env filt db ob idx sel reverse f rows := by
  obtain ⟨parts, _, h2, h3⟩ := S.parts hi hs
  exact ⟨_, h2 reverse, fun f fetched hf => h3 reverse f fetched hf⟩

/-- the theorem at the range over all groups -/
example := C25 exSetting exIndex_is exRange_ok true

/-- C25: the result of such a scan does not depend on ScanPrefetchSize. -/
theorem C25_size {t : Table T F} {env : Env T} {filt : F} {db : KV} {ob : Option Batch} {m : Rows T}
    (S : Setting t env filt db ob m) {idx : Index T} (hi : IsIndex t idx) {sel : Selector T} (hs : sel.OK idx) (reverse : Bool)
    {f : σ → Bytes → Cb σ T} {fetched : σ → Prop} (hf : FetchesAll f fetched) {n : Nat} (hn : 0 < n) :
    ∃ N, ∀ fuel, N ≤ fuel → ∀ s,
      ({ t with prefetch := n }).scanIndexForEach env filt (fun _ => (db, ob)) idx sel f reverse fuel s =
      t.scanIndexForEach env filt (fun _ => (db, ob)) idx sel f reverse fuel s := by
  have S' : Setting { t with prefetch := n } env filt db ob m :=
    { wf := ⟨S.wf.ids, S.wf.nz, S.wf.klen, S.wf.olen⟩, rt := S.rt, ok := ⟨S.ok.order, S.ok.sort_perm, S.ok.sort_sorted⟩
      alive := S.alive, prefetch := hn
      content := by
        obtain ⟨V, h, hH⟩ := S.content
        exact ⟨V, h, ⟨hH.row_pk, hH.absent, hH.present, hH.only_data, hH.index⟩⟩
      covers := S.covers }
  have hi' : IsIndex { t with prefetch := n } idx := hi
  obtain ⟨parts, h1, _, h3⟩ := S.parts hi hs
  obtain ⟨parts', h1', _, h3'⟩ := S'.parts hi' hs
  have he : parts' = parts := by
    have h1'' : IsParts t idx m ((boundsOf t idx sel).map (BoundP t idx)) parts' := by
      have : ∀ {Ps parts}, IsParts { t with prefetch := n } idx m Ps parts → IsParts t idx m Ps parts := by
        intro Ps parts h
        induction h with
        | nil => exact .nil
        | cons a _ ih => exact .cons a ih
      exact this h1'
    exact h1''.unique S.wf hi h1
  subst he
  obtain ⟨N, hN⟩ := h3 reverse f fetched (Or.inr hf)
  obtain ⟨M, hM⟩ := h3' reverse f fetched (Or.inr hf)
  refine ⟨N + M, fun fuel hfu s => ?_⟩
  rw [hN fuel (by omega) s, hM fuel (by omega) s]
  rfl

/-- test callback: skips rows while the counter is positive, then fetches and records every row -/
def skipCb (s : Nat × List Rec) (_ : Bytes) : Cb (Nat × List Rec) Rec :=
  match s with
  | (n + 1, l) => .ret (n, l) true none
  | (0, l) => .get (0, l) (fun
    | .ok x => .ret (0, l ++ [x]) true none
    | .error e => .ret (0, l) false (some e))

example : FetchesAll skipCb (fun s => s.1 = 0) where
  once := by
    rintro ⟨n | n, l⟩ k
    · right
      refine ⟨_, _, rfl, ?_⟩
      intro r; cases r <;> exact ⟨_, _, _, rfl⟩
    · exact Or.inl ⟨_, _, _, rfl⟩
  after := by
    rintro ⟨n, l⟩ k rfl
    refine ⟨_, _, rfl, ?_⟩
    intro r; cases r <;> exact ⟨_, _, _, rfl⟩
  stays := by
    rintro ⟨n | n, l⟩ k r h
    · intro _; cases r <;> rfl
    · obtain ⟨_, _, h, _⟩ := h; simp [skipCb] at h

example : exTable.scanIndexForEach (stdEnv exTable) () (fun _ => (exDB, none)) exIndex (.range (0, 0) (9, 9)) skipCb false 9 (1, []) =
    some ⟨(0, [(2, 6)]), none⟩ := by decide

/-! ## C35 Scans terminate -/

/-- C35 for callbacks that fetch every row after possibly skipping an initial run (among them those that never fetch), on any index,
and for all callbacks on the primary index: the scan ends and calls the callback at most once per row (`Visits`).
Missing for the full C35: callbacks that stop fetching, see `C35_refuted`. -/
theorem C35_partial {t : Table T F} {env : Env T} {filt : F} {db : KV} {ob : Option Batch} {m : Rows T}
    (S : Setting t env filt db ob m) {idx : Index T} (hi : IsIndex t idx) {sel : Selector T} (hs : sel.OK idx) (reverse : Bool)
    {f : σ → Bytes → Cb σ T} (hf : idx.id = primaryIndexID ∨ ∃ fetched, FetchesAll f fetched) :
    ∃ rows N, (∀ x ∈ rows, Indexed t idx m x) ∧ ∀ fuel, N ≤ fuel → ∀ s,
      t.scanIndexForEach env filt (fun _ => (db, ob)) idx sel f reverse fuel s = some (runRows f (seen t idx rows) s) := by
  obtain ⟨parts, h1, _, h3⟩ := S.parts hi hs
  have : Visits t env filt db ob idx sel reverse f (dir reverse parts.flatten) := by
    rcases hf with h | ⟨fetched, h⟩
    · exact h3 reverse f (fun _ => True) (Or.inl h)
    · exact h3 reverse f fetched (Or.inr h)
  obtain ⟨N, hN⟩ := this
  exact ⟨_, N, fun x hx => h1.indexed x ((mem_dir _ _ _).1 hx), hN⟩

example : FetchesAll (fun (s : Nat) (_ : Bytes) => (Cb.ret (s + 1) true none : Cb Nat Rec)) (fun _ => False) where
  once := fun _ _ => Or.inl ⟨_, _, _, rfl⟩
  after := fun _ _ h => h.elim
  stays := by rintro s k r ⟨_, _, h, _⟩; simp at h

/-- test callback: fetches the first row, then only counts -/
def firstOnlyCb (s : Nat) (_ : Bytes) : Cb Nat Rec :=
  if s = 0 then .get s (fun _ => .ret 1 true none) else .ret (s + 1) true none

/-- C35 is false: a callback that fetches the first row and then only counts is called for ever with the second row
(the loop over the prefetched rows advances only when `Get` is called). -/
theorem C35_refuted (fuel : Nat) :
    exTable.scanIndexForEach (stdEnv exTable) () (fun _ => (exDB, none)) exIndex (.range (0, 0) (9, 9)) firstOnlyCb false fuel 0 = none := by
  have hin : ∀ (fuel : Nat) (p : PSt) (s : Nat), p.vidx < p.values.length → (∃ k, p.indexKeys[p.vidx]? = some k) → s ≠ 0 →
      exTable.innerLoop firstOnlyCb fuel p s = .running := by
    intro fuel
    induction fuel with
    | zero => intro p s h _ _; rw [Table.innerLoop, if_pos h]
    | succ fuel ih =>
      rintro p s h ⟨k, hk⟩ hs
      rw [Table.innerLoop, if_pos h, hk]
      simp only [firstOnlyCb, if_neg hs, Table.runInner]
      exact ih p (s + 1) h ⟨k, hk⟩ (by omega)
  cases fuel with
  | zero => decide
  | succ fuel =>
    have hparts : exTable.iterParts exDB none exIndex (.range (0, 0) (9, 9)) =
        some [[(exTable.indexKey exIndex (1, 5), []), (exTable.indexKey exIndex (2, 6), [])]] := by decide
    unfold Table.scanIndexForEach
    rw [hparts]
    simp only [walk, if_neg (show ¬ exIndex.id = primaryIndexID by decide)]
    rw [show (if false = true then ([[(exTable.indexKey exIndex (1, 5), []), (exTable.indexKey exIndex (2, 6), [])]] : List (List (Bytes × Bytes))).flatten.reverse
      else [[(exTable.indexKey exIndex (1, 5), []), (exTable.indexKey exIndex (2, 6), [])]].flatten) =
      [(exTable.indexKey exIndex (1, 5), []), (exTable.indexKey exIndex (2, 6), [])] from rfl]
    rw [Table.outerLoop]
    have hout : exTable.runOuter (stdEnv exTable) () (fun _ => (exDB, none))
        { rest := [(exTable.indexKey exIndex (1, 5), []), (exTable.indexKey exIndex (2, 6), [])], keys := [], indexKeys := [], values := [], vidx := 0 }
        (firstOnlyCb 0 (exTable.indexKey exIndex (1, 5))) =
        some ({ rest := [], keys := [exTable.key (1, 5), exTable.key (2, 6)]
                indexKeys := [exTable.indexKey exIndex (1, 5), exTable.indexKey exIndex (2, 6)], values := [[1, 5], [2, 6]], vidx := 1 }, 1, true, none) := by
      decide
    simp only [stdEnv, Bool.false_eq_true, if_false]
    simp only [stdEnv] at hout
    rw [hout]
    simp only [Bool.not_true, Option.isSome_none, Bool.or_self, Bool.false_eq_true, if_false]
    rw [hin (fuel + 1) _ 1 (by decide) ⟨_, rfl⟩ (by decide)]

/-! ## C62 Writing to the table while scanning it -/

/-- C62 for callbacks that keep the rows not visited yet readable (`KeepsRows`, with the invariant `inv` of the callback's state):
every row of the index that was selected when the scan began is visited once, in order.
Missing for the full C62: callbacks that change rows they have not visited yet, see `C62_refuted_error`, `C62_refuted_stale`. -/
theorem C62_partial {t : Table T F} (wf : t.WF) (rt : t.RoundTripFresh) {env : Env T} (ok : env.OK t)
    (hd : ∀ n, env.done n = false) {filt : F} {view : σ → KV × Option Batch} (hp : 0 < t.prefetch) {idx : Index T}
    (hi : IsIndex t idx) {s : σ} {V : KV} (hr : readable (view s).1 (view s).2 = some V) {m : Rows T} (hH : Holds t V m)
    {p : T} (hn : NoTrailingFF (idx.key p)) (hl : (idx.key p).length < 2 ^ 32 - 1)
    {f : σ → Bytes → Cb σ T} {fetched : σ → Prop} (hf : FetchesAll f fetched) {inv : List (Bytes × T) → σ → Prop}
    (hk : KeepsRows t filt view f inv) (reverse : Bool) :
    ∃ rows, IsRows t idx m (fun x => idx.key x = idx.key p ∧ IdxLe t idx p x) rows ∧
      (inv (seen t idx (dir reverse rows)) s → ∀ fuel, rows.length ≤ fuel →
        t.scanIndexForEach env filt view idx (.point p) f reverse fuel s = some (runRows f (seen t idx (dir reverse rows)) s)) := by
  have hs : (Selector.point p).OK idx := ⟨by simp [Selector.elems], by simpa [Selector.elems] using hl⟩
  obtain ⟨h1, h2⟩ := iterBounds_eq wf hi hs
  obtain ⟨parts, h0, h3⟩ := scan_parts wf hi hH _ h2
  clear h0
  simp only [boundsOf, List.map_cons, List.map_nil] at h3
  have h3' := h3
  cases h3 with
  | cons a b =>
    cases b
    rename_i rows
    refine ⟨rows, a.congr (fun x _ => boundP_point wf hi hn hl x), fun hinv fuel hfu => ?_⟩
    have := scanIndexForEach_eq wf rt ok hd (filt := filt) hp hi hH h1 h2 (f := f) hr (reverse := reverse) (parts := [rows])
      (by simpa only [boundsOf, List.map_cons, List.map_nil] using h3') (fetched := fetched) (inv := inv) (fuel := fuel)
    simp only [List.flatten_cons, List.flatten_nil, List.append_nil] at this
    exact this (Or.inr ⟨hf, hk, hinv⟩) hfu

/-- callback that fetches each row and deletes it from the table; state: database and filter, and the rows deleted -/
def deleteCb (t : Table T F) (env : Env T) (filt : F) (s : KV × List T) (_ : Bytes) : Cb (KV × List T) T :=
  .get s (fun
    | .error e => .ret s false (some e)
    | .ok x =>
      let o := t.delete env s.1 filt none [x]
      .ret (o.db, s.2 ++ [x]) true o.err)

/-- C62 for deleting: scanning an index group and deleting each row as it is visited removes exactly the rows of the group at or
after the point, with all their index entries, and nothing else. -/
theorem C62_delete {t : Table T F} (wf : t.WF) (rt : t.RoundTripFresh) {env : Env T} (ok : env.OK t)
    (hd : ∀ n, env.done n = false) (hc : env.commitOk = true) {filt : F} (hp : 0 < t.prefetch) {idx : Index T}
    (hi : IsIndex t idx) {db : KV} {m : Rows T} (hH : Holds t db m) (hF : FilterCovers t filt m)
    {p : T} (hn : NoTrailingFF (idx.key p)) (hl : (idx.key p).length < 2 ^ 32 - 1) (reverse : Bool) :
    ∃ rows db' m', IsRows t idx m (fun x => idx.key x = idx.key p ∧ IdxLe t idx p x) rows ∧
      (∀ fuel, rows.length ≤ fuel →
        t.scanIndexForEach env filt (fun s : KV × List T => (s.1, none)) idx (.point p) (deleteCb t env filt) reverse fuel (db, []) =
          some ⟨(db', dir reverse rows), none⟩) ∧
      Holds t db' m' ∧ SameOutside t db db' ∧ ∀ pk, m' pk = if pk ∈ rows.map t.pk then none else m pk := by
  -- invariant: the rows to come are stored
  let inv : List (Bytes × T) → KV × List T → Prop := fun rows s =>
    ∃ m', Holds t s.1 m' ∧ FilterCovers t filt m' ∧ (∀ r ∈ rows, m' (t.pk r.2) = some r.2) ∧
      (rows.map (fun r => t.pk r.2)).Nodup
  have hdel : ∀ (db : KV) (m : Rows T) (x : T), Holds t db m → FilterCovers t filt m → m (t.pk x) = some x →
      (t.delete env db filt none [x]).err = none ∧ Holds t (t.delete env db filt none [x]).db (m.erase (t.pk x)) ∧
      SameOutside t db (t.delete env db filt none [x]).db ∧ FilterCovers t filt (m.erase (t.pk x)) := by
    intro db m x hH hF hm
    have he : (t.delete env db filt none [x]).err = none :=
      finish_complete (deleteLoop_complete hd [x] _) hc
    obtain ⟨m', a, b, _, d⟩ := C17_partial wf ok hH hF (trs := [x]) (by
      intro y hy old hold idx' _ hfo
      simp only [List.mem_singleton] at hy
      subst hy
      rw [hm] at hold
      simp only [Option.some.injEq] at hold
      subst hold
      exact ⟨hfo, rfl⟩) he
    have hm' : m' = m.erase (t.pk x) := by
      funext q; rw [d]; simp [Rows.erase]
    subst hm'
    refine ⟨he, a, b, ?_⟩
    intro fl hfl pk y hy
    unfold Rows.erase at hy
    split at hy
    · simp at hy
    · exact hF fl hfl pk y hy
  have hrun : ∀ (s : KV × List T) k x m, Holds t s.1 m → FilterCovers t filt m → m (t.pk x) = some x →
      (deleteCb t env filt s k).run (.ok x) = (((t.delete env s.1 filt none [x]).db, s.2 ++ [x]), true, none) := by
    intro s k x m hH hF hm
    simp only [deleteCb, Cb.run, (hdel s.1 m x hH hF hm).1]
  have hnd : ∀ {k x} {rows : List (Bytes × T)}, (((k, x) :: rows).map (fun r => t.pk r.2)).Nodup →
      ∀ r ∈ rows, t.pk r.2 ≠ t.pk x := by
    intro k x rows h r hr e
    rw [List.map_cons, List.nodup_cons] at h
    exact h.1 (by rw [← e]; exact List.mem_map_of_mem (f := fun r : Bytes × T => t.pk r.2) hr)
  have hK : KeepsRows t filt (fun s : KV × List T => (s.1, none)) (deleteCb t env filt) inv := by
    constructor
    · rintro k x rows s s0 g ⟨m', h1, h2, h3, h4⟩ hg
      simp only [deleteCb, Cb.get.injEq] at hg
      rw [← hg.1]
      intro r hr
      have hm := h3 r hr
      obtain ⟨b, hb, hgb⟩ := h1.present _ r.2 hm
      exact ⟨b, hb, by simp only [Table.key]; rw [lookup_eq (V := s.1) rfl h1 h2]; exact hgb⟩
    · rintro k x rows s ⟨m', h1, h2, h3, h4⟩ _
      have hx := h3 (k, x) (by simp)
      rw [hrun s k x m' h1 h2 hx]
      obtain ⟨_, b, _, d⟩ := hdel s.1 m' x h1 h2 hx
      refine ⟨_, b, d, ?_, ?_⟩
      · intro r hr
        rw [Rows.erase, if_neg (hnd h4 r hr)]
        exact h3 r (by simp [hr])
      · rw [List.map_cons, List.nodup_cons] at h4; exact h4.2
  have hfet : FetchesAll (deleteCb t env filt) (fun _ => True) := by
    have h1 : ∀ s k, (deleteCb t env filt s k).oneGet := by
      intro s k
      refine ⟨_, _, rfl, ?_⟩
      intro r; cases r <;> exact ⟨_, _, _, rfl⟩
    exact ⟨fun s k => Or.inr (h1 s k), fun s k _ => h1 s k, fun _ _ _ _ _ => trivial⟩
  obtain ⟨rows, hrows, hscan⟩ := C62_partial wf rt ok hd (filt := filt) (view := fun s : KV × List T => (s.1, none)) hp hi (s := (db, []))
    (V := db) rfl hH hn hl hfet hK reverse
  have hpk : ∀ x ∈ rows, m (t.pk x) = some x := fun x hx => ((hrows.2 x).1 hx).1.1
  have hnodup : (rows.map t.pk).Nodup := by
    have h0 : rows.Nodup := hrows.1.imp (fun {x y} h e => by subst e; exact idxLt_irrefl wf hi x h)
    have : rows.Pairwise (fun x y => x ∈ rows ∧ y ∈ rows ∧ x ≠ y) := by
      unfold List.Nodup at h0
      rw [List.pairwise_iff_getElem] at h0 ⊢
      exact fun i j hi hj hij => ⟨List.getElem_mem _, List.getElem_mem _, h0 i j hi hj hij⟩
    unfold List.Nodup
    rw [List.pairwise_map]
    refine this.imp ?_
    rintro x y ⟨hx, hy, hne⟩ e
    have h1 := hpk x hx
    rw [e, hpk y hy] at h1
    simp at h1
    exact hne h1.symm
  have hdirnd : ((seen t idx (dir reverse rows)).map (fun r => t.pk r.2)).Nodup := by
    have : (seen t idx (dir reverse rows)).map (fun r => t.pk r.2) = dir reverse (rows.map t.pk) := by
      unfold seen dir; rw [List.map_map]; cases reverse <;> simp [Function.comp_def]
    rw [this]; unfold dir; cases reverse
    · exact hnodup
    · simp only [if_true]
      unfold List.Nodup at hnodup ⊢
      rw [List.pairwise_reverse]
      exact hnodup.imp (fun h => h.symm)
  have hinv : inv (seen t idx (dir reverse rows)) (db, []) := by
    refine ⟨m, hH, hF, ?_, hdirnd⟩
    intro r hr
    obtain ⟨x, hx, rfl⟩ := List.mem_map.1 hr
    exact hpk x ((mem_dir _ _ _).1 hx)
  have hfin : ∀ (l : List T) (db : KV) (m : Rows T) (tr : List T), Holds t db m → FilterCovers t filt m →
      (∀ x ∈ l, m (t.pk x) = some x) → (l.map t.pk).Nodup →
      ∃ db', runRows (deleteCb t env filt) (seen t idx l) (db, tr) = ⟨(db', tr ++ l), none⟩ ∧
        Holds t db' (fun pk => if pk ∈ l.map t.pk then none else m pk) ∧ SameOutside t db db' := by
    intro l
    induction l with
    | nil => intro db m tr h1 _ _ _; exact ⟨db, by simp [seen, runRows], by simpa using h1, fun _ _ => rfl⟩
    | cons x l ih =>
      intro db m tr h1 h2 h3 h4
      have hx := h3 x (by simp)
      obtain ⟨_, b, c, d⟩ := hdel db m x h1 h2 hx
      rw [List.map_cons, List.nodup_cons] at h4
      have hnx : ∀ y ∈ l, t.pk y ≠ t.pk x := fun y hy e => h4.1 (by rw [← e]; exact List.mem_map_of_mem hy)
      obtain ⟨db', e1, e2, e3⟩ := ih _ _ (tr ++ [x]) b d (fun y hy => by
        rw [Rows.erase, if_neg (hnx y hy)]; exact h3 y (by simp [hy])) h4.2
      refine ⟨db', ?_, ?_, fun k hk => by rw [e3 k hk, c k hk]⟩
      · rw [seen, List.map_cons, runRows_cons_go (hrun (db, tr) _ x m h1 h2 hx) (by simp)]
        rw [show l.map (fun x => (t.indexKey idx x, x)) = seen t idx l from rfl, e1]
        simp
      · have : (fun pk => if pk ∈ (x :: l).map t.pk then none else m pk) =
            (fun pk => if pk ∈ l.map t.pk then none else m.erase (t.pk x) pk) := by
          funext pk
          simp only [List.map_cons, List.mem_cons, Rows.erase]
          by_cases h1 : pk = t.pk x <;> by_cases h2 : pk ∈ l.map t.pk <;> simp [h1, h2]
        rw [this]; exact e2
  have hmapdir : ∀ pk, pk ∈ (dir reverse rows).map t.pk ↔ pk ∈ rows.map t.pk := by
    intro pk; simp only [List.mem_map, mem_dir]
  obtain ⟨db', e1, e2, e3⟩ := hfin (dir reverse rows) db m [] hH hF (fun x hx => hpk x ((mem_dir _ _ _).1 hx)) (by
    have : (seen t idx (dir reverse rows)).map (fun r => t.pk r.2) = (dir reverse rows).map t.pk := by
      unfold seen; rw [List.map_map]; rfl
    rw [← this]; exact hdirnd)
  refine ⟨rows, db', _, hrows, ?_, e2, e3, fun pk => by simp only [hmapdir]⟩
  intro fuel hfu
  rw [hscan hinv fuel hfu, e1]; rfl

/-- `C62_delete` at the group of the row (1,5) -/
example := C62_delete exTable_wf (fun x b hb => exTable_rt x b hb _) (stdEnv_ok exTable) (fun _ => rfl) rfl (filt := ()) (by decide) exIndex_is
  exDB_holds (covers_nofilter rfl _ _) (p := (0, 5)) (by simp [NoTrailingFF, exIndex]) (by simp [exIndex]) true

/-- `C62_partial` at a callback that collects the rows and changes nothing -/
example := C62_partial exTable_wf (fun x b hb => exTable_rt x b hb _) (stdEnv_ok exTable) (fun _ => rfl) (filt := ())
  (view := fun (_ : List Rec) => (exDB, none)) (by decide) exIndex_is (s := []) rfl exDB_holds (p := (0, 5))
  (by simp [NoTrailingFF, exIndex]) (by simp [exIndex]) scanIndexCb_fetches (keeps_const _) false

/-- test callback: on the first row deletes the row (2, 6) of `exTable` -/
def deleteNextCb (t : Table Rec Unit) (s : KV × List Rec) (_ : Bytes) : Cb (KV × List Rec) Rec :=
  .get s (fun
    | .error e => .ret s false (some e)
    | .ok x => .ret ((t.delete (stdEnv t) s.1 () none [(2, 6)]).db, s.2 ++ [x]) true none)

/-- `exTable` with ScanPrefetchSize 1 -/
def exTable1 : Table Rec Unit := { exTable with prefetch := 1 }

/-- C62 is false for rows not visited yet: if the callback deletes a later row that has not been prefetched, the scan fails. -/
theorem C62_refuted_error :
    (exTable1.scanIndexForEach (stdEnv exTable1) () (fun s => (s.1, none)) exIndex (.range (0, 0) (9, 9)) (deleteNextCb exTable1)
      false 9 (exDB, [])).map (fun o => (o.s.2, o.err)) = some ([(1, 5)], some .notFound) := by decide

/-- C62 is false for rows not visited yet: if the callback deletes a later row that has been prefetched, the callback still gets it. -/
theorem C62_refuted_stale :
    (exTable.scanIndexForEach (stdEnv exTable) () (fun s => (s.1, none)) exIndex (.range (0, 0) (9, 9)) (deleteNextCb exTable)
      false 9 (exDB, [])).map (fun o => (o.s.2, o.err)) = some ([(1, 5), (2, 6)], none) := by decide

example : NoTrailingFF (exIndex.key (0, 5)) ∧
    (exTable.scanIndexForEach (stdEnv exTable) () (fun s => (s.1, none)) exIndex (.point (0, 5)) (deleteCb exTable (stdEnv exTable) ())
      false 9 (exDB, [])).map (fun o => (o.s.2, o.err, o.s.1.get (exTable.key (1, 5)), o.s.1.get (exTable.key (2, 6)))) =
    some ([(1, 5)], none, none, some [2, 6]) := by
  refine ⟨by simp [NoTrailingFF, exIndex], by decide⟩

end Bond
