import Verif.InspectLemmas
import Verif.Props.Queries
/-
Properties of the inspect package: C84, C85.
-/
namespace Bond
open Spec
variable {T : Type}

/-! ## the parts of a request -/

theorem Info.OK.find {i : Info} {db : KV} {m : Rows i.T} (h : i.OK db m) {idx : Index i.T} (hi : idx ∈ i.indexes) {r : IReq}
    (hname : i.indexName idx = r.indexName) : i.findIndex r.index = some idx := by
  unfold Info.findIndex
  have e : (if r.index == "" then "primary" else r.index) = r.indexName := by simp [IReq.indexName]
  rw [e, ← hname]
  have hn := h.names
  revert hi hn
  generalize i.indexes = l
  intro hi hn
  induction l with
  | nil => cases hi
  | cons a l ih =>
    rw [List.map_cons, List.nodup_cons] at hn
    rw [List.find?_cons]
    rcases List.mem_cons.1 hi with rfl | hi'
    · rw [beq_self_eq_true]
    · have : i.indexName a ≠ i.indexName idx := fun e => hn.1 (by rw [e]; exact List.mem_map.2 ⟨_, hi', rfl⟩)
      rw [beq_eq_false_iff_ne.2 this]
      exact ih hi' hn.2

theorem Info.OK.name_primary {i : Info} {db : KV} {m : Rows i.T} (h : i.OK db m) {idx : Index i.T} (hi : idx ∈ i.indexes) :
    i.indexName idx = "primary" ↔ idx = i.table.primaryIndex := by
  refine ⟨fun e => ?_, fun e => by rw [e]; exact h.primary⟩
  have h1 := h.find hi (r := ⟨"", i.indexName idx, [], none, 0, none⟩) (by
    unfold IReq.indexName; rw [e]; rfl)
  have hp : i.table.primaryIndex ∈ i.indexes := (h.indexes _).2 (Or.inr rfl)
  have h2 := h.find hp (r := ⟨"", i.indexName idx, [], none, 0, none⟩) (by
    unfold IReq.indexName; rw [e]; exact h.primary)
  rw [h1] at h2
  exact Option.some.inj h2

/-- the point of a request: zero on the primary index, otherwise the record that the selector describes -/
def Spec.IsPoint (i : Info) (idx : Index i.T) (selector : GoMap) (p : i.T) : Prop :=
  (idx = i.table.primaryIndex → p = i.table.empty) ∧ (idx ≠ i.table.primaryIndex → IsRecord i.desc i.table.empty selector p)

theorem Info.OK.withIndex {i : Info} {db : KV} {m : Rows i.T} (h : i.OK db m) (oor : OutOfRange) {idx : Index i.T}
    (hi : idx ∈ i.indexes) {selector : GoMap} (hsel : idx ≠ i.table.primaryIndex → PlainRecord i.desc selector) :
    ∃ p, IsPoint i idx selector p ∧ i.withIndex oor idx selector = .ok { i.table.query with index := idx, sel := .point p } := by
  unfold Info.withIndex
  by_cases hp : idx = i.table.primaryIndex
  · rw [if_pos (by rw [beq_iff_eq]; exact (h.name_primary hi).2 hp)]
    refine ⟨i.table.empty, ⟨fun _ => rfl, fun hne => absurd hp hne⟩, ?_⟩
    rw [hp]
    rfl
  · rw [if_neg (by rw [beq_iff_eq]; exact fun e => hp ((h.name_primary hi).1 e))]
    obtain ⟨x, hx, hr⟩ := setFields_ok h.desc oor ((hsel hp).perm (h.range selector)) i.table.empty
    rw [hx]
    simp only
    rw [if_pos h.pointer]
    exact ⟨x, ⟨fun e => absurd e hp, fun _ => isRecord_perm (h.range selector) hr⟩, rfl⟩

theorem Info.OK.not_panics {i : Info} {db : KV} {m : Rows i.T} (h : i.OK db m) (oor : OutOfRange) {f : GoMap} (hf : PlainMap i.desc f)
    (left : Nat) (limited : Bool) (rows : List i.T) : i.panics oor f left limited rows = false := by
  induction rows generalizing left with
  | nil => rfl
  | cons x rest ih =>
    rw [Info.panics]
    obtain ⟨b, hb, _⟩ := rowMatches_iff h.desc oor x (hf.perm (h.rangeRow x f))
    rw [hb]
    cases b with
    | true =>
      simp only
      split
      · rfl
      · exact ih _
    | false => exact ih _

theorem Info.OK.accepts {i : Info} {db : KV} {m : Rows i.T} (h : i.OK db m) (oor : OutOfRange) (q : Query i.T) (hq : q.filter = none)
    {filter : Option GoMap} (hf : ∀ f, filter = some f → PlainMap i.desc f) (x : i.T) :
    accepts (i.withFilter oor q filter) x = true ↔ Wanted i.desc filter x := by
  unfold Info.withFilter Spec.accepts Wanted
  cases filter with
  | none => simp [hq]
  | some f =>
    obtain ⟨b, hb, hiff⟩ := rowMatches_iff h.desc oor x ((hf f rfl).perm (h.rangeRow x f))
    simp only [hb, Option.getD_some, hiff, matches_perm (h.rangeRow x f), Option.some.injEq, forall_eq']

theorem Info.OK.exec {i : Info} {db : KV} {m : Rows i.T} (h : i.OK db m) (oor : OutOfRange) {q : Query i.T}
    {filter : Option GoMap} (hf : ∀ f, filter = some f → PlainMap i.desc f) {limit : UInt64} {rows : List i.T}
    (hr : Returns i.table i.env i.srt i.filt db none { i.withFilter oor q filter with limit := limit } rows) :
    ∃ N, ∀ fuel, N ≤ fuel → i.exec oor db fuel q filter limit = .rows (rows.map i.desc.toMap) := by
  obtain ⟨N, hN⟩ := hr
  refine ⟨N, fun fuel hle => ?_⟩
  unfold Info.exec
  rw [hN fuel hle]
  simp only
  rw [if_neg]
  split
  · rw [h.not_panics oor (hf _ rfl)]
    exact Bool.false_ne_true
  · exact Bool.false_ne_true

theorem filter_isRows {F : Type} {t : Table T F} {idx : Index T} {m : Rows T} {P Q : T → Prop} {rows : List T} (h : IsRows t idx m P rows)
    (f : T → Bool) (hf : ∀ x, f x = true ↔ Q x) : IsRows t idx m (fun x => P x ∧ Q x) (rows.filter f) := by
  refine ⟨h.1.sublist List.filter_sublist, fun x => ?_⟩
  rw [List.mem_filter, h.2 x, hf x, and_assoc]

/-! ## concrete tables -/

/-- `type Rec struct { ID, Group uint8 }`, a test record -/
def exDesc : Desc Rec where
  fields := [⟨"ID", "ID", ⟨.uint .w8, 0⟩⟩, ⟨"Group", "Group", ⟨.uint .w8, 0⟩⟩]
  get x n := .int (if n == "ID" then x.1.toNat else if n == "Group" then x.2.toNat else 0)
  set x n v := match v with
    | .int k => if n == "ID" then (UInt8.ofNat k.toNat, x.2) else if n == "Group" then (x.1, UInt8.ofNat k.toNat) else x
    | _ => x
  pointer := true

/-- the test table as inspect sees it -/
def exInfo : Info where
  T := Rec
  F := Unit
  name := "recs"
  table := exTable
  indexName idx := if idx.id == 0 then "primary" else "group"
  indexes := [exTable.primaryIndex, exIndex]
  desc := exDesc
  env := stdEnv exTable
  srt := insSort
  filt := ()
  rangeRow _ l := l
  range l := l.reverse

theorem exDesc_ok : exDesc.OK where
  names := by decide
  keys := by decide
  fits := by
    intro x f hf
    obtain ⟨a, b⟩ := x
    have ha := a.toNat_lt
    have hb := b.toNat_lt
    simp only [exDesc, List.mem_cons, List.not_mem_nil, or_false] at hf
    rcases hf with rfl | rfl <;> simp [exDesc, Spec.fits, IntSize.holds, IntSize.bits] <;> omega
  get_set := by
    intro x f v hf hv
    simp only [exDesc, List.mem_cons, List.not_mem_nil, or_false] at hf
    have hlt : ∀ n : Int, 0 ≤ n → n < 256 → ((UInt8.ofNat n.toNat).toNat : Int) = n := by
      intro n h0 h1
      rw [UInt8.toNat_ofNat']
      omega
    rcases hf with rfl | rfl <;> cases v <;> simp [Spec.fits, IntSize.holds, IntSize.bits] at hv
    · exact congrArg Data.int (hlt _ (of_decide_eq_true hv).1 (of_decide_eq_true hv).2)
    · exact congrArg Data.int (hlt _ (of_decide_eq_true hv).1 (of_decide_eq_true hv).2)
  get_other := by
    intro x f v n hf hn
    simp only [exDesc, List.mem_cons, List.not_mem_nil, or_false] at hf
    rcases hf with rfl | rfl <;> cases v <;> simp [exDesc] at hn ⊢
    · rw [if_neg hn, if_neg hn]
    · split
      · rfl
      · rfl

theorem exDesc_ext : exDesc.Ext := by
  intro x y h
  have h1 := h ⟨"ID", "ID", ⟨.uint .w8, 0⟩⟩ (by simp [exDesc])
  have h2 := h ⟨"Group", "Group", ⟨.uint .w8, 0⟩⟩ (by simp [exDesc])
  obtain ⟨a, b⟩ := x
  obtain ⟨c, d⟩ := y
  simp [exDesc] at h1 h2
  rw [UInt8.toNat_inj.1 (Int.ofNat.inj h1), UInt8.toNat_inj.1 (Int.ofNat.inj h2)]

theorem exInfo_indexes (idx : Index Rec) : idx ∈ [exTable.primaryIndex, exIndex] ↔ IsIndex exTable idx := by
  unfold IsIndex
  rw [show exTable.indexes = [exIndex] from rfl, List.mem_cons, List.mem_singleton]
  exact or_comm

theorem exInfo_ok : exInfo.OK exDB exRows where
  setting := exSetting
  desc := exDesc_ok
  pointer := rfl
  indexes := fun idx => by
    exact (exInfo_indexes idx)
  names := by decide
  primary := rfl
  range := fun l => l.reverse_perm
  rangeRow := fun _ l => .refl l

/-! ## C84 Inspect queries return what they ask for -/

/-- C84: `Query` of the inspect package on a table of pointer records, with values given as the types of the fields allow
(`Plain`), returns in index order the rows of the index group of the selector's record, not below that record, that have the
values of the filter; at most Limit of them (0: all). Nothing depends on the order in which Go goes through the maps.
Missing for the full C84: values that only become values of the field by conversion (`C84_refuted_fraction`,
`C84_refuted_rune`, `C84_refuted_type`), nil (`C84_refuted_nil`), selectors on the primary index
(`C84_refuted_primary`), records that are no pointers (`C84_refuted_struct`), fields renamed by a tag (`C84_refuted_tag`);
index values that end with 0xFF (C26). -/
theorem C84_partial {i : Info} {db : KV} {m : Rows i.T} (h : i.OK db m) {infos : List Info} (oor : OutOfRange) (r : IReq)
    (htab : r.table ≠ "") (hfind : infos.find? (fun j => j.name == r.table) = some i) {idx : Index i.T} (hi : idx ∈ i.indexes)
    (hname : i.indexName idx = r.indexName) (hsel : idx ≠ i.table.primaryIndex → PlainRecord i.desc r.selector)
    (hfil : ∀ f, r.filter = some f → PlainMap i.desc f) (haft : r.after = none) (hL : r.limit.toNat < 2 ^ 63)
    (hkey : ∀ p, IsPoint i idx r.selector p → NoTrailingFF (idx.key p) ∧ (idx.key p).length < 2 ^ 32 - 1) :
    ∃ p rows, IsPoint i idx r.selector p ∧
      IsRows i.table idx m (fun x => (idx.key x = idx.key p ∧ IdxLe i.table idx p x) ∧ Wanted i.desc r.filter x) rows ∧
      Inspects infos oor db r ((page 0 r.limit.toNat rows).map i.desc.toMap) := by
  obtain ⟨p, hp, hq⟩ := h.withIndex oor hi hsel
  obtain ⟨hff, hlen⟩ := hkey p hp
  obtain ⟨rows, hrows, hret⟩ := C30_point h.setting i.srt
    { i.withFilter oor { i.table.query with index := idx, sel := .point p } r.filter with limit := r.limit }
    (p := p) (by unfold Info.withFilter; split <;> rfl) (by unfold Info.withFilter; split <;> rfl)
    (by unfold Info.withFilter; split <;> exact (h.indexes idx).1 hi) (by unfold Info.withFilter; split <;> exact hff)
    (by unfold Info.withFilter; split <;> exact hlen) (by unfold Info.withFilter; split <;> rfl)
    (by unfold Info.withFilter; split <;> rfl) (by unfold Info.withFilter; split <;> rfl)
    (by unfold Info.withFilter; split <;> exact (by decide : (0 : UInt64).toNat < 2 ^ 63)) hL
  have hoff : ({ i.withFilter oor { i.table.query with index := idx, sel := .point p } r.filter with limit := r.limit } :
      Query i.T).offset.toNat = 0 := by unfold Info.withFilter; split <;> rfl
  rw [hoff] at hret
  have hidx : ({ i.withFilter oor { i.table.query with index := idx, sel := .point p } r.filter with limit := r.limit } :
      Query i.T).index = idx := by unfold Info.withFilter; split <;> rfl
  rw [hidx] at hrows
  refine ⟨p, rows.filter (accepts (i.withFilter oor { i.table.query with index := idx, sel := .point p } r.filter)), hp,
    filter_isRows hrows _ (h.accepts oor _ rfl hfil), ?_⟩
  obtain ⟨N, hN⟩ := h.exec oor hfil hret
  refine ⟨N, fun fuel hle => ?_⟩
  unfold inspectQuery
  rw [if_neg (by rw [beq_iff_eq]; exact htab), hfind]
  simp only
  unfold Info.query
  rw [h.find hi hname]
  simp only
  rw [hq]
  simp only [haft, Info.withAfter]
  exact hN fuel hle

/-- a request in group 6 with filter and limit: the first row of the group that matches -/
def exReq : IReq :=
  { table := "recs", index := "group", selector := [("Group", some ⟨⟨.float, 0⟩, .flt 6 0⟩)]
    filter := some [("ID", some ⟨⟨.sint .word, 0⟩, .int 2⟩)], limit := 1 }

theorem exReq_plain : PlainRecord exDesc exReq.selector ∧ ∀ f, exReq.filter = some f → PlainMap exDesc f := by
  refine ⟨⟨by decide, ?_, ?_⟩, ?_⟩
  · intro k v h
    simp only [exReq, List.mem_singleton, Prod.mk.injEq] at h
    obtain ⟨rfl, rfl⟩ := h
    refine ⟨_, rfl, rfl, fun f hf he => ?_⟩
    simp only [exDesc, List.mem_cons, List.not_mem_nil, or_false] at hf
    rcases hf with rfl | rfl
    · exact absurd he (by decide)
    · exact ⟨rfl, by decide⟩
  · intro k v h
    simp only [exReq, List.mem_singleton, Prod.mk.injEq] at h
    obtain ⟨rfl, rfl⟩ := h
    exact ⟨⟨"Group", "Group", ⟨.uint .w8, 0⟩⟩, by simp [exDesc], rfl, _, .int 6, rfl, by decide, by simp [SameValue, number]⟩
  · intro f hf
    cases hf
    intro k v h
    simp only [List.mem_singleton, Prod.mk.injEq] at h
    obtain ⟨rfl, rfl⟩ := h
    refine ⟨_, rfl, by decide, fun f hf he => ?_⟩
    simp only [exDesc, List.mem_cons, List.not_mem_nil, or_false] at hf
    rcases hf with rfl | rfl
    · exact (by decide : IntSize.holds .w8 false 2 = true)
    · exact absurd he (by decide)

theorem exReq_key : ∀ p, IsPoint exInfo exIndex exReq.selector p → NoTrailingFF (exIndex.key p) ∧ (exIndex.key p).length < 2 ^ 32 - 1 := by
  intro p hp
  have h := (hp.2 (by intro e; exact absurd (congrArg Index.id e) (by decide))) ⟨"Group", "Group", ⟨.uint .w8, 0⟩⟩
    (by simp [exInfo, exDesc])
  have h1 := h.1 ⟨⟨.float, 0⟩, .flt 6 0⟩ (by simp [exReq])
  have h2 : p.2 = 6 := by
    have : (6 : Int) = (p.2.toNat : Int) := by simpa [SameValue, number, exInfo, exDesc] using h1
    exact UInt8.toNat_inj.1 (by simp; omega)
  have h3 : exIndex.key p = [6] := by show [p.2] = [6]; rw [h2]
  rw [h3]
  exact ⟨by simp [NoTrailingFF], by decide⟩

example : ∃ p rows, IsPoint exInfo exIndex exReq.selector p ∧
    IsRows exTable exIndex exRows (fun x => (exIndex.key x = exIndex.key p ∧ IdxLe exTable exIndex p x) ∧ Wanted exDesc exReq.filter x) rows ∧
    Inspects [exInfo] (fun _ _ => 0) exDB exReq ((page 0 1 rows).map exDesc.toMap) :=
  C84_partial exInfo_ok _ exReq (by decide) rfl (idx := exIndex) (List.mem_cons_of_mem _ (List.mem_singleton.2 rfl)) rfl (fun _ => exReq_plain.1) exReq_plain.2 rfl (by decide) exReq_key

/-- that request returns row 2 -/
example : inspectQuery [exInfo] (fun _ _ => 0) exDB 9 exReq = .rows [exDesc.toMap (2, 6)] := by decide

/-- the full C84 for one request and row: a row that a query with only a filter returns has the values of the filter -/
def Spec.FilterHolds (infos : List Info) (oor : OutOfRange) (db : KV) (d : Desc T) (name : String) (f : GoMap) (x : T) : Prop :=
  ∀ l fuel, inspectQuery infos oor db fuel { table := name, index := "", filter := some f } = .rows l → d.toMap x ∈ l → Matches d f x

/-- C84 is false for fractions: the filter ID = 1.5 accepts the row with ID 1. -/
theorem C84_refuted_fraction :
    ¬ FilterHolds [exInfo] (fun _ _ => 0) exDB exDesc "recs" [("ID", some ⟨⟨.float, 0⟩, .flt 3 1⟩)] (1, 5) := by
  intro h
  obtain ⟨f, hf, hk, tv, htv, hs⟩ := h [exDesc.toMap (1, 5)] 9 (by decide) (by simp) "ID" _ (List.mem_singleton.2 rfl)
  cases htv
  simp only [exDesc, List.mem_cons, List.not_mem_nil, or_false] at hf
  rcases hf with rfl | rfl
  · exact absurd hs (by simp [SameValue, number, exDesc])
  · exact absurd hk (by decide)

/-- `type Rec struct { ID uint8; Group string }`, with texts of one byte; `n`: which string type -/
def exDescS (n : Nat) : Desc Rec where
  fields := [⟨"ID", "ID", ⟨.uint .w8, 0⟩⟩, ⟨"Group", "Group", ⟨.string, n⟩⟩]
  get x n := if n == "ID" then .int x.1.toNat else .bytes [x.2]
  set x n v := match v with
    | .int k => (UInt8.ofNat k.toNat, x.2)
    | .bytes b => (x.1, b.headD 0)
    | _ => x
  pointer := true

/-- the test table with texts -/
def exInfoS (n : Nat) : Info := { exInfo with desc := exDescS n }

/-- one row, (1, "A") -/
def exDBA : KV := (exTable.insert (stdEnv exTable) KV.empty () none [(1, 65)]).db

/-- C84 is false for numbers as text: the filter Group = 65 accepts the row with Group "A". -/
theorem C84_refuted_rune :
    ¬ FilterHolds [exInfoS 0] (fun _ _ => 0) exDBA (exDescS 0) "recs" [("Group", some ⟨⟨.sint .word, 0⟩, .int 65⟩)] (1, 65) := by
  intro h
  obtain ⟨f, hf, hk, tv, htv, hs⟩ := h [(exDescS 0).toMap (1, 65)] 9 (by decide) (by simp) "Group" _ (List.mem_singleton.2 rfl)
  cases htv
  simp only [exDescS, List.mem_cons, List.not_mem_nil, or_false] at hf
  rcases hf with rfl | rfl
  · exact absurd hk (by decide)
  · exact absurd hs (by simp [SameValue, number, exDescS])

/-- C84 is false for fields of a type like `type Name string`: a filter with the text "A" does not accept the row with that
text, though the same filter does for a field of type string; and as a selector that text makes `Query` panic. -/
theorem C84_refuted_type :
    let f : GoMap := [("Group", some ⟨⟨.string, 0⟩, .bytes [65]⟩)]
    inspectQuery [exInfoS 1] (fun _ _ => 0) exDBA 9 { table := "recs", index := "", filter := some f } = .rows [] ∧
    inspectQuery [exInfoS 0] (fun _ _ => 0) exDBA 9 { table := "recs", index := "", filter := some f } = .rows [(exDescS 0).toMap (1, 65)] ∧
    inspectQuery [exInfoS 1] (fun _ _ => 0) exDBA 9 { table := "recs", index := "group", selector := f } = .panic ∧
    inspectQuery [exInfoS 0] (fun _ _ => 0) exDBA 9 { table := "recs", index := "group", selector := f } = .rows [(exDescS 0).toMap (1, 65)] ∧
    Matches (exDescS 1) f (1, 65) := by
  refine ⟨by decide, by decide, by decide, by decide, ?_⟩
  intro k v h
  cases List.mem_singleton.1 h
  exact ⟨⟨"Group", "Group", ⟨.string, 1⟩⟩, by simp [exDescS], rfl, _, rfl, by simp [SameValue, number, exDescS]⟩

/-- C84 is false for nil: a filter, selector or cursor with the value nil (null in JSON) makes `Query` panic. -/
theorem C84_refuted_nil :
    inspectQuery [exInfo] (fun _ _ => 0) exDB 9 { table := "recs", index := "", filter := some [("ID", none)] } = .panic ∧
    inspectQuery [exInfo] (fun _ _ => 0) exDB 9 { table := "recs", index := "group", selector := [("Group", none)] } = .panic ∧
    inspectQuery [exInfo] (fun _ _ => 0) exDB 9 { table := "recs", index := "", after := some [("ID", none)] } = .panic := by decide

/-- C84 is false for selectors on the primary index: the selector ID = 2 is ignored, row 1 is returned; so is one that names no
field. -/
theorem C84_refuted_primary :
    inspectQuery [exInfo] (fun _ _ => 0) exDB 9 { table := "recs", index := "", selector := [("ID", some ⟨⟨.uint .w8, 0⟩, .int 2⟩)] } =
      .rows [exDesc.toMap (1, 5), exDesc.toMap (2, 6)] ∧
    inspectQuery [exInfo] (fun _ _ => 0) exDB 9 { table := "recs", index := "", selector := [("Nothing", none)] } =
      .rows [exDesc.toMap (1, 5), exDesc.toMap (2, 6)] := by decide

/-- the test table with records that are structs, not pointers to structs -/
def exInfoV : Info := { exInfo with desc := { exDesc with pointer := false } }

/-- C84 is false for tables of structs: the primary index can be queried, every request with another index or with a cursor
panics. -/
theorem C84_refuted_struct :
    inspectQuery [exInfoV] (fun _ _ => 0) exDB 9 { table := "recs", index := "" } = .rows [exDesc.toMap (1, 5), exDesc.toMap (2, 6)] ∧
    inspectQuery [exInfoV] (fun _ _ => 0) exDB 9 { table := "recs", index := "group" } = .panic ∧
    inspectQuery [exInfoV] (fun _ _ => 0) exDB 9 { table := "recs", index := "", after := some (exDesc.toMap (1, 5)) } = .panic := by decide

/-- the test table with a field named by a tag: `Group uint8 structs:"g"` -/
def exInfoT : Info := { exInfo with desc := { exDesc with
  fields := [⟨"ID", "ID", ⟨.uint .w8, 0⟩⟩, ⟨"g", "Group", ⟨.uint .w8, 0⟩⟩] } }

/-- C84 is false for fields named by a tag: rows and filters have the name of the tag, a selector panics with it and does not know
the other name. -/
theorem C84_refuted_tag :
    inspectQuery [exInfoT] (fun _ _ => 0) exDB 9 { table := "recs", index := "", filter := some [("g", some ⟨⟨.uint .w8, 0⟩, .int 6⟩)] } =
      .rows [exInfoT.desc.toMap (2, 6)] ∧
    inspectQuery [exInfoT] (fun _ _ => 0) exDB 9 { table := "recs", index := "group", selector := [("g", some ⟨⟨.uint .w8, 0⟩, .int 6⟩)] } =
      .panic ∧
    inspectQuery [exInfoT] (fun _ _ => 0) exDB 9 { table := "recs", index := "group", selector := [("Group", some ⟨⟨.uint .w8, 0⟩, .int 6⟩)] } =
      .err .noField := by decide

/-- C84, errors: no table name, an unknown table, an unknown index. -/
theorem C84_errors (infos : List Info) (oor : OutOfRange) (db : KV) (fuel : Nat) (r : IReq) :
    (r.table = "" → inspectQuery infos oor db fuel r = .err .emptyTable) ∧
    (r.table ≠ "" → (∀ i ∈ infos, i.name ≠ r.table) → inspectQuery infos oor db fuel r = .err .noTable) ∧
    (∀ i, r.table ≠ "" → infos.find? (fun j => j.name == r.table) = some i → (∀ idx ∈ i.indexes, i.indexName idx ≠ r.indexName) →
      inspectQuery infos oor db fuel r = .err .noIndex) := by
  unfold inspectQuery
  refine ⟨fun h => by rw [if_pos (beq_iff_eq.2 h)], fun h hall => ?_, fun i h hf hall => ?_⟩
  · rw [if_neg (by rw [beq_iff_eq]; exact h)]
    have : infos.find? (fun i => i.name == r.table) = none := by
      rw [List.find?_eq_none]
      intro i hi
      rw [beq_iff_eq]
      exact hall i hi
    rw [this]
  · rw [if_neg (by rw [beq_iff_eq]; exact h), hf]
    simp only
    unfold Info.query
    have : i.findIndex r.index = none := by
      unfold Info.findIndex
      rw [List.find?_eq_none]
      intro idx hi
      have e : (if r.index == "" then "primary" else r.index) = r.indexName := by simp [IReq.indexName]
      rw [e, beq_iff_eq]
      exact hall idx hi
    rw [this]

example : inspectQuery [exInfo] (fun _ _ => 0) exDB 9 { table := "recs", index := "colour" } = .err .noIndex ∧
    inspectQuery [exInfo] (fun _ _ => 0) exDB 9 { table := "recs2", index := "" } = .err .noTable := by decide

/-- C84, errors: a selector for a secondary index, or a cursor, that names something which is no field. (A filter that does so accepts no
row, `C84_partial`.) -/
theorem C84_noField {i : Info} {db : KV} {m : Rows i.T} (h : i.OK db m) {infos : List Info} (oor : OutOfRange) (fuel : Nat) (r : IReq)
    (htab : r.table ≠ "") (hfind : infos.find? (fun j => j.name == r.table) = some i) {idx : Index i.T} (hi : idx ∈ i.indexes)
    (hname : i.indexName idx = r.indexName) {k : String} {v : GoAny} (hno : ∀ f ∈ i.desc.fields, f.key ≠ k)
    (hsel : (idx ≠ i.table.primaryIndex ∧ (k, v) ∈ r.selector ∧
        ∀ k v, (k, v) ∈ r.selector → (∀ f ∈ i.desc.fields, f.key ≠ k) ∨ PlainRecord i.desc [(k, v)]) ∨
      ((idx ≠ i.table.primaryIndex → PlainRecord i.desc r.selector) ∧ ∃ a, r.after = some a ∧ (k, v) ∈ a ∧
        ∀ k v, (k, v) ∈ a → (∀ f ∈ i.desc.fields, f.key ≠ k) ∨ PlainRecord i.desc [(k, v)])) :
    inspectQuery infos oor db fuel r = .err .noField := by
  unfold inspectQuery
  rw [if_neg (by rw [beq_iff_eq]; exact htab), hfind]
  simp only
  unfold Info.query
  rw [h.find hi hname]
  simp only
  rcases hsel with ⟨hp, hk, hall⟩ | ⟨hsel, a, ha, hk, hall⟩
  · have : i.withIndex oor idx r.selector = .noField := by
      unfold Info.withIndex
      rw [if_neg (by rw [beq_iff_eq]; exact fun e => hp ((h.name_primary hi).1 e)),
        setFields_noField h.desc oor (fun k v hkv => hall k v ((h.range _).mem_iff.1 hkv)) ((h.range _).mem_iff.2 hk) hno]
    rw [this]
  · obtain ⟨p, _, hq⟩ := h.withIndex oor hi hsel
    rw [hq]
    simp only [ha]
    unfold Info.withAfter
    simp only
    rw [setFields_noField h.desc oor (fun k v hkv => hall k v ((h.range _).mem_iff.1 hkv)) ((h.range _).mem_iff.2 hk) hno]

example : inspectQuery [exInfo] (fun _ _ => 0) exDB 9 { table := "recs", index := "group", selector := [("Colour", some ⟨⟨.bool, 0⟩, .bool true⟩)] } =
    .err .noField :=
  C84_noField exInfo_ok _ 9 _ (by decide) rfl (idx := exIndex) (List.mem_cons_of_mem _ (List.mem_singleton.2 rfl)) rfl (k := "Colour")
    (v := some ⟨⟨.bool, 0⟩, .bool true⟩) (by decide)
    (Or.inl ⟨by intro e; exact absurd (congrArg Index.id e) (by decide), List.mem_singleton.2 rfl, fun k v h => by
      cases List.mem_singleton.1 h
      exact Or.inl (by decide)⟩)

/-- C84: the indexes that `Indexes` lists for a table can be queried (if they have a name); the rows have the fields that `EntryFields` lists. -/
theorem C84_listed {infos : List Info} {table : String} (ht : table ≠ "") (oor : OutOfRange) (db : KV) (fuel : Nat) (r : IReq) (hr : r.table = table) :
    (∀ names, inspectIndexes infos table = some names → r.index ∈ names → r.index ≠ "" →
      inspectQuery infos oor db fuel r ≠ .err .noTable ∧ inspectQuery infos oor db fuel r ≠ .err .noIndex) ∧
    (∀ fields l, inspectFields infos table = some fields → inspectQuery infos oor db fuel r = .rows l →
      ∀ row ∈ l, row.map Prod.fst = fields.map Prod.fst) := by
  subst hr
  have hfl : (fun i : Info => r.table == i.name) = (fun i => i.name == r.table) := by
    funext i; exact Bool.eq_iff_iff.2 (by rw [beq_iff_eq, beq_iff_eq]; exact eq_comm)
  have hexec : ∀ (i : Info) q filter limit, (∀ e, i.exec oor db fuel q filter limit = .err e → ∃ e', e = .query e') ∧
      ∀ l, i.exec oor db fuel q filter limit = .rows l → ∃ rows : List i.T, l = rows.map i.desc.toMap := by
    intro i q filter limit
    unfold Info.exec
    simp only
    refine ⟨fun e h => ?_, fun l h => ?_⟩
    · repeat' split at h
      all_goals first
        | exact ⟨_, (IOut.err.inj h).symm⟩
        | exact IOut.noConfusion h
    · repeat' split at h
      all_goals first
        | exact ⟨_, (IOut.rows.inj h).symm⟩
        | exact IOut.noConfusion h
  constructor
  · intro names hn hmem h0
    unfold inspectIndexes at hn
    rw [hfl] at hn
    cases hf : infos.find? (fun i => i.name == r.table) with
    | none => rw [hf] at hn; cases hn
    | some i =>
      rw [hf] at hn
      cases hn
      obtain ⟨idx, hi, he⟩ := List.mem_map.1 hmem
      have : (i.findIndex r.index).isSome = true := by
        unfold Info.findIndex
        rw [List.find?_isSome]
        exact ⟨idx, hi, by rw [he]; simp [h0]⟩
      obtain ⟨j, hj⟩ := Option.isSome_iff_exists.1 this
      have key : ∀ e, inspectQuery infos oor db fuel r = .err e → e ≠ .noTable ∧ e ≠ .noIndex := by
        intro e
        unfold inspectQuery
        rw [if_neg (by rw [beq_iff_eq]; exact ht), hf]
        simp only
        unfold Info.query
        rw [hj]
        simp only
        split
        · intro h; cases h; exact ⟨by simp, by simp⟩
        · intro h; cases h; exact ⟨by simp, by simp⟩
        · intro h; cases h
        · split
          · intro h; cases h; exact ⟨by simp, by simp⟩
          · intro h; cases h; exact ⟨by simp, by simp⟩
          · intro h; cases h
          · intro h
            obtain ⟨e', rfl⟩ := (hexec i _ _ _).1 e h
            exact ⟨by simp, by simp⟩
      exact ⟨fun h => (key _ h).1 rfl, fun h => (key _ h).2 rfl⟩
  · intro fields l hfs hl row hrow
    unfold inspectFields at hfs
    rw [hfl] at hfs
    unfold inspectQuery at hl
    rw [if_neg (by rw [beq_iff_eq]; exact ht)] at hl
    cases hf : infos.find? (fun i => i.name == r.table) with
    | none => rw [hf] at hfs; cases hfs
    | some i =>
      rw [hf] at hfs hl
      cases hfs
      simp only at hl
      unfold Info.query at hl
      split at hl
      · cases hl
      · split at hl
        · cases hl
        · cases hl
        · cases hl
        · split at hl
          · cases hl
          · cases hl
          · cases hl
          · obtain ⟨rows, rfl⟩ := (hexec i _ _ _).2 _ hl
            obtain ⟨x, _, rfl⟩ := List.mem_map.1 hrow
            unfold Desc.toMap
            rw [List.map_map, List.map_map]
            rfl

example : inspectIndexes [exInfo] "recs" = some ["primary", "group"] ∧
    inspectFields [exInfo] "recs" = some [("ID", .uint .w8), ("Group", .uint .w8)] := by decide

/-! ## C85 Paging through inspect -/

theorem sameValue_trans {v a b : Data} (h1 : SameValue v a) (h2 : SameValue v b) : SameValue a b := by
  unfold SameValue at h1 h2 ⊢
  rcases hv : number v with _ | ⟨m, e⟩ <;> rcases ha : number a with _ | ⟨m1, e1⟩ <;> rcases hb : number b with _ | ⟨m2, e2⟩ <;>
    simp only [hv, ha, hb] at h1 h2 ⊢
  · exact h1.symm.trans h2
  · have : (m1 * 2 ^ e2) * 2 ^ e = (m2 * 2 ^ e1) * 2 ^ e := by
      calc (m1 * 2 ^ e2) * 2 ^ e = (m1 * 2 ^ e) * 2 ^ e2 := by ac_rfl
        _ = (m * 2 ^ e1) * 2 ^ e2 := by rw [← h1]
        _ = (m * 2 ^ e2) * 2 ^ e1 := by ac_rfl
        _ = (m2 * 2 ^ e) * 2 ^ e1 := by rw [← h2]
        _ = (m2 * 2 ^ e1) * 2 ^ e := by ac_rfl
    exact Int.eq_of_mul_eq_mul_right (Int.pow_ne_zero (by decide)) this

/-- A cursor gives the row back: every field of the row, with its value. -/
def Spec.IsCursor (d : Desc T) (a : GoMap) (x : T) : Prop :=
  PlainRecord d a ∧ ∀ f ∈ d.fields, ∃ tv, (f.key, some tv) ∈ a ∧ SameValue tv.data (d.get x f.name)

theorem cursor_row {i : Info} {db : KV} {m : Rows i.T} (h : i.OK db m) (ext : i.desc.Ext) (oor : OutOfRange) {a : GoMap} {x : i.T}
    (ha : IsCursor i.desc a x) (q : Query i.T) : i.withAfter oor q (some a) = .ok { q with after := some x } := by
  unfold Info.withAfter
  obtain ⟨y, hy, hr⟩ := setFields_ok h.desc oor (ha.1.perm (h.range a)) i.table.empty
  simp only
  rw [hy]
  simp only
  rw [if_pos h.pointer]
  have : y = x := ext y x (fun f hf => by
    obtain ⟨tv, hm, hs⟩ := ha.2 f hf
    have := (isRecord_perm (h.range a) hr f hf).1 tv hm
    exact (sameValue_iff (h.desc.fits y f hf) (h.desc.fits x f hf)).1 (sameValue_trans this hs))
  rw [this]

theorem Info.OK.pages {i : Info} {db : KV} {m : Rows i.T} (h : i.OK db m) (ext : i.desc.Ext) {infos : List Info} (oor : OutOfRange) (r : IReq)
    (htab : r.table ≠ "") (hfind : infos.find? (fun j => j.name == r.table) = some i) {idx : Index i.T} (hi : idx ∈ i.indexes)
    (hname : i.indexName idx = r.indexName) (hsel : idx ≠ i.table.primaryIndex → PlainRecord i.desc r.selector)
    (hfil : ∀ f, r.filter = some f → PlainMap i.desc f) (hn : 0 < r.limit.toNat) (hL : r.limit.toNat < 2 ^ 63)
    (hkey : ∀ p, IsPoint i idx r.selector p → NoTrailingFF (idx.key p) ∧ (idx.key p).length < 2 ^ 32 - 1) :
    ∃ p rows, IsPoint i idx r.selector p ∧
      IsRows i.table idx m (fun x => (idx.key x = idx.key p ∧ IdxLe i.table idx p x) ∧ Wanted i.desc r.filter x) rows ∧
      Inspects infos oor db { r with after := none } ((rows.take r.limit.toNat).map i.desc.toMap) ∧
      ∀ pre x suf, rows = pre ++ x :: suf → ∀ a, IsCursor i.desc a x →
        Inspects infos oor db { r with after := some a } ((suf.take r.limit.toNat).map i.desc.toMap) := by
  obtain ⟨p, hp, hq⟩ := h.withIndex oor hi hsel
  obtain ⟨hff, hlen⟩ := hkey p hp
  have hi' := (h.indexes idx).1 hi
  have key : ∃ q : Query i.T, q = { i.withFilter oor { i.table.query with index := idx, sel := .point p } r.filter with limit := r.limit } ∧
      q.index = idx ∧ q.sel = .point p ∧ q.intersects = [] ∧ q.less = none ∧ q.reverse = false ∧ q.offset = 0 ∧ q.limit = r.limit ∧
      q.after = none ∧ (∀ x, Spec.accepts q x = true ↔ Wanted i.desc r.filter x) ∧
      ∀ a, { i.withFilter oor { ({ i.table.query with index := idx, sel := .point p } : Query i.T) with after := a } r.filter with limit := r.limit }
        = { q with after := a } := by
    refine ⟨_, rfl, ?_⟩
    have hacc := h.accepts oor { i.table.query with index := idx, sel := .point p } rfl hfil
    refine ⟨?_, ?_, ?_, ?_, ?_, ?_, ?_, ?_, hacc, ?_⟩ <;> (try (unfold Info.withFilter; split <;> rfl))
    intro a
    unfold Info.withFilter; split <;> rfl
  obtain ⟨q, _, e1, e2, e3, e4, e5, e6, e7, e8, hacc, hafter⟩ := key
  have hs : q.sel.OK q.index := by rw [e1, e2]; exact ⟨by simp [Selector.elems], by simpa [Selector.elems] using hlen⟩
  obtain ⟨rows, h1, _, h0, hnext⟩ := query_pages h.setting i.srt q e3 (by rw [e1]; exact hi') hs e4 e5 e6 (by rw [e7]; exact hn)
    (by rw [e7]; exact hL) (lo := i.table.indexKey q.index p) (up := keySuccessor (keyPrefix i.table.id q.index.id (q.index.key p)))
    (by rw [e2]; rfl) (by
      intro a ha
      rw [e1] at ha ⊢
      have hk := ((boundP_point h.setting.wf hi' hff hlen a).1 ha).1
      refine ⟨.point a, by simp [Query.selectorWithAfter, e2], ⟨by simp [Selector.elems], by simpa [Selector.elems, hk] using hlen⟩, ?_⟩
      simp only [boundsOf, hk])
  rw [e1] at h1
  rw [e7] at h0 hnext
  have hrows : IsRows i.table idx m (fun x => idx.key x = idx.key p ∧ IdxLe i.table idx p x) rows :=
    ⟨h1.1, fun x => by rw [h1.2 x, boundP_point h.setting.wf hi' hff hlen x]⟩
  have run : ∀ (a : Option GoMap) (b : Option i.T) (l : List i.T),
      (∀ q, i.withAfter oor q a = .ok { q with after := b } ) → PageOf i.table i.env i.srt i.filt db none q b l →
      Inspects infos oor db { r with after := a } (l.map i.desc.toMap) := by
    intro a b l ha hl
    obtain ⟨N, hN⟩ := h.exec (q := { ({ i.table.query with index := idx, sel := .point p } : Query i.T) with after := b }) oor hfil
      (by rw [hafter b]; exact hl)
    refine ⟨N, fun fuel hle => ?_⟩
    unfold inspectQuery
    rw [if_neg (by rw [beq_iff_eq]; exact htab), hfind]
    simp only
    unfold Info.query
    rw [h.find (r := { r with after := a }) hi hname]
    simp only
    rw [hq]
    simp only [ha]
    exact hN fuel hle
  refine ⟨p, rows.filter (Spec.accepts q), hp, filter_isRows hrows _ hacc, ?_, ?_⟩
  · -- withAfter none leaves the query, whose cursor is none already
    obtain ⟨N, hN⟩ := h.exec (q := { i.table.query with index := idx, sel := .point p }) oor hfil (by
      have := hafter none
      rw [show ({ ({ i.table.query with index := idx, sel := .point p } : Query i.T) with after := none }) =
        ({ i.table.query with index := idx, sel := .point p } : Query i.T) from rfl] at this
      rw [this]; exact h0)
    refine ⟨N, fun fuel hle => ?_⟩
    unfold inspectQuery
    rw [if_neg (by rw [beq_iff_eq]; exact htab), hfind]
    simp only
    unfold Info.query
    rw [h.find (r := { r with after := none }) hi hname]
    simp only
    rw [hq]
    exact hN fuel hle
  · intro pre x suf hsplit a ha
    exact run (some a) (some x) _ (cursor_row h ext oor ha) (hnext pre x suf hsplit)

theorem toMap_cursor {d : Desc T} (hd : d.OK) (x : T) : IsCursor d (d.toMap x) x := by
  refine ⟨⟨?_, ?_, ?_⟩, fun f hf => ⟨⟨f.type, d.get x f.name⟩, List.mem_map.2 ⟨f, hf, rfl⟩, (sameValue_iff (hd.fits x f hf) (hd.fits x f hf)).2 rfl⟩⟩
  · have : (d.toMap x).map Prod.fst = d.fields.map GoField.name := by
      unfold Desc.toMap
      rw [List.map_map]
      exact List.map_congr_left (fun f hf => hd.keys f hf)
    rw [this]; exact hd.names
  · intro k v hkv
    obtain ⟨f, hf, e⟩ := List.mem_map.1 hkv
    cases e
    refine ⟨_, rfl, hd.fits x f hf, fun g hg he => ?_⟩
    have := key_unique hd hg hf he
    subst this
    unfold Plain
    split
    · rfl
    · rename_i hs
      exact absurd (by cases g.type.kind <;> simp [GoKind.same]) hs
  · intro k v hkv
    obtain ⟨f, hf, e⟩ := List.mem_map.1 hkv
    cases e
    exact ⟨f, hf, rfl, _, _, rfl, hd.fits x f hf, (sameValue_iff (hd.fits x f hf) (hd.fits x f hf)).2 rfl⟩

/-- C85, in the process of the database: going on after the last row of each page, as `Query` returned it, gives every row of the
request exactly once and in order, and ends.
Missing for the full C85: as for C84; a record whose fields do not determine it (fields not exported). -/
theorem C85_local_partial {i : Info} {db : KV} {m : Rows i.T} (h : i.OK db m) (ext : i.desc.Ext) {infos : List Info} (oor : OutOfRange) (r : IReq)
    (htab : r.table ≠ "") (hfind : infos.find? (fun j => j.name == r.table) = some i) {idx : Index i.T} (hi : idx ∈ i.indexes)
    (hname : i.indexName idx = r.indexName) (hsel : idx ≠ i.table.primaryIndex → PlainRecord i.desc r.selector)
    (hfil : ∀ f, r.filter = some f → PlainMap i.desc f) (hn : 0 < r.limit.toNat) (hL : r.limit.toNat < 2 ^ 63)
    (hkey : ∀ p, IsPoint i idx r.selector p → NoTrailingFF (idx.key p) ∧ (idx.key p).length < 2 ^ 32 - 1) :
    ∃ p rows, IsPoint i idx r.selector p ∧
      IsRows i.table idx m (fun x => (idx.key x = idx.key p ∧ IdxLe i.table idx p x) ∧ Wanted i.desc r.filter x) rows ∧
      (∃ pages, Pages (fun a => Inspects infos oor db { r with after := a }) none pages) ∧
      ∀ pages, Pages (fun a => Inspects infos oor db { r with after := a }) none pages →
        pages.flatten = rows.map i.desc.toMap ∧ ∀ p ∈ pages, p.length ≤ r.limit.toNat := by
  obtain ⟨p, rows, hp, hrows, h0, h1⟩ := h.pages ext oor r htab hfind hi hname hsel hfil hn hL hkey
  have h0' : Inspects infos oor db { r with after := none } ((rows.map i.desc.toMap).take r.limit.toNat) := by rw [← List.map_take]; exact h0
  have h1' : ∀ pre a suf, rows.map i.desc.toMap = pre ++ a :: suf →
      Inspects infos oor db { r with after := some a } (suf.take r.limit.toNat) := by
    intro pre a suf hs
    obtain ⟨l1, l2, hl, _, e2⟩ := List.map_eq_append_iff.1 hs
    obtain ⟨x, l3, hl2, e3, e4⟩ := List.map_eq_cons_iff.1 e2
    subst e3 e4
    rw [← List.map_take]
    exact h1 l1 x l3 (by rw [hl, hl2]) _ (toMap_cursor h.desc x)
  refine ⟨p, rows, hp, hrows, pages_exist (exec := fun a => Inspects infos oor db { r with after := a }) hn h0' h1', fun pages hpg => ?_⟩
  refine pages_eq (exec := fun a => Inspects infos oor db { r with after := a }) (fun a p p' ⟨N, hN⟩ ⟨N', hN'⟩ => ?_) hn h0' h1' hpg
  have e := hN (max N N') (Nat.le_max_left _ _)
  rw [hN' (max N N') (Nat.le_max_right _ _)] at e
  exact (IOut.rows.inj e).symm

example : ∃ p rows, IsPoint exInfo exIndex exReq.selector p ∧
    IsRows exTable exIndex exRows (fun x => (exIndex.key x = exIndex.key p ∧ IdxLe exTable exIndex p x) ∧ Wanted exDesc exReq.filter x) rows ∧
    (∃ pages, Pages (fun a => Inspects [exInfo] (fun _ _ => 0) exDB { exReq with after := a }) none pages) ∧
    ∀ pages, Pages (fun a => Inspects [exInfo] (fun _ _ => 0) exDB { exReq with after := a }) none pages →
      pages.flatten = rows.map exDesc.toMap ∧ ∀ p ∈ pages, p.length ≤ 1 :=
  C85_local_partial (i := exInfo) exInfo_ok exDesc_ext _ exReq (by decide) rfl (idx := exIndex)
    (List.mem_cons_of_mem _ (List.mem_singleton.2 rfl)) rfl (fun _ => exReq_plain.1) exReq_plain.2 (by decide) (by decide) exReq_key

/-! ### remote -/

theorem json_cursor {text : Bytes → Bytes} {d : Desc T} (hd : d.OK) {x : T} (hx : JsonExact text d x) :
    IsCursor d (jsonMap text (jsonMap text (d.toMap x))) x := by
  have hv : ∀ f ∈ d.fields, ∃ tv : TVal, jsonAny text (jsonAny text (some ⟨f.type, d.get x f.name⟩)) = some tv ∧
      fits tv.data tv.type.kind = true ∧ Plain tv f.type ∧ SameValue tv.data (d.get x f.name) := by
    intro f hf
    have h1 := hx f hf
    have h2 := hd.fits x f hf
    revert h1 h2
    generalize d.get x f.name = v
    generalize f.type = ty
    obtain ⟨kind, nm⟩ := ty
    intro h1 h2
    cases v with
    | int n =>
      simp only at h1
      refine ⟨⟨⟨.float, 0⟩, .flt n 0⟩, by simp only [jsonAny, roundF_small h1], rfl, ?_, by simp [SameValue, number]⟩
      cases kind <;> simp only [fits, Bool.false_eq_true] at h2 <;> simp [Plain, GoKind.same, h2]
    | flt m e =>
      simp only at h1
      subst h1
      cases kind <;> simp only [fits, Bool.false_eq_true] at h2
      exact ⟨⟨⟨.float, 0⟩, .flt m e⟩, by simp only [jsonAny], h2, by simp [Plain, GoKind.same], by simp [SameValue, number]⟩
    | bytes b =>
      obtain ⟨h3, h4⟩ := h1
      cases h3
      exact ⟨⟨⟨.string, 0⟩, .bytes b⟩, by simp [jsonAny, h4], rfl, by simp [Plain, GoKind.same], by simp [SameValue, number]⟩
    | bool b =>
      simp only at h1
      subst h1
      cases kind <;> simp only [fits, Bool.false_eq_true] at h2
      exact ⟨⟨⟨.bool, 0⟩, .bool b⟩, by simp only [jsonAny], rfl, by simp [Plain, GoKind.same], by simp [SameValue, number]⟩
    | nilBytes => exact h1.elim
    | other _ => exact h1.elim
  have hmem : ∀ k v, (k, v) ∈ jsonMap text (jsonMap text (d.toMap x)) → ∃ f ∈ d.fields, f.key = k ∧
      v = jsonAny text (jsonAny text (some ⟨f.type, d.get x f.name⟩)) := by
    intro k v h
    unfold jsonMap Desc.toMap at h
    simp only [List.map_map, List.mem_map, Function.comp] at h
    obtain ⟨f, hf, e⟩ := h
    cases e
    exact ⟨f, hf, rfl, rfl⟩
  refine ⟨⟨?_, ?_, ?_⟩, ?_⟩
  · have : (jsonMap text (jsonMap text (d.toMap x))).map Prod.fst = d.fields.map GoField.name := by
      unfold jsonMap Desc.toMap
      simp only [List.map_map]
      exact List.map_congr_left (fun f hf => hd.keys f hf)
    rw [this]; exact hd.names
  · intro k v h
    obtain ⟨f, hf, rfl, rfl⟩ := hmem k v h
    obtain ⟨tv, e, h1, h2, _⟩ := hv f hf
    exact ⟨tv, e, h1, fun g hg he => by rw [key_unique hd hg hf he]; exact h2⟩
  · intro k v h
    obtain ⟨f, hf, rfl, rfl⟩ := hmem k v h
    obtain ⟨tv, e, h1, h2, h3⟩ := hv f hf
    exact ⟨f, hf, rfl, tv, _, e, hd.fits x f hf, h3⟩
  · intro f hf
    obtain ⟨tv, e, h1, h2, h3⟩ := hv f hf
    refine ⟨tv, ?_, h3⟩
    rw [← e]
    unfold jsonMap Desc.toMap
    simp only [List.map_map, List.mem_map, Function.comp]
    exact ⟨f, hf, rfl⟩

/-- C85 for the remote client, for requests whose selector and filter are what JSON makes of them, on tables all of whose rows survive
JSON: the same as `C85_local_partial`, with rows as JSON gives them.
Missing for the full C85: integers beyond 2^53 (`C85_refuted_large`), []byte (`C85_refuted_bytes`, `C85_refuted_nil`), named types
(`C84_refuted_type`), and what is missing for C84. -/
theorem C85_remote_partial {i : Info} {db : KV} {m : Rows i.T} (h : i.OK db m) (ext : i.desc.Ext) {infos : List Info} (oor : OutOfRange)
    (text : Bytes → Bytes) (r : IReq) (hjs : jsonMap text r.selector = r.selector) (hjf : r.filter.map (jsonMap text) = r.filter)
    (hrow : ∀ k x, m k = some x → JsonExact text i.desc x)
    (htab : r.table ≠ "") (hfind : infos.find? (fun j => j.name == r.table) = some i) {idx : Index i.T} (hi : idx ∈ i.indexes)
    (hname : i.indexName idx = r.indexName) (hsel : idx ≠ i.table.primaryIndex → PlainRecord i.desc r.selector)
    (hfil : ∀ f, r.filter = some f → PlainMap i.desc f) (hn : 0 < r.limit.toNat) (hL : r.limit.toNat < 2 ^ 63)
    (hkey : ∀ p, IsPoint i idx r.selector p → NoTrailingFF (idx.key p) ∧ (idx.key p).length < 2 ^ 32 - 1) :
    ∃ p rows, IsPoint i idx r.selector p ∧
      IsRows i.table idx m (fun x => (idx.key x = idx.key p ∧ IdxLe i.table idx p x) ∧ Wanted i.desc r.filter x) rows ∧
      (∃ pages, Pages (fun a => RemoteInspects text infos oor db { r with after := a }) none pages) ∧
      ∀ pages, Pages (fun a => RemoteInspects text infos oor db { r with after := a }) none pages →
        pages.flatten = rows.map (fun x => jsonMap text (i.desc.toMap x)) ∧ ∀ p ∈ pages, p.length ≤ r.limit.toNat := by
  obtain ⟨p, rows, hp, hrows, h0, h1⟩ := h.pages ext oor r htab hfind hi hname hsel hfil hn hL hkey
  have remote : ∀ a l, Inspects infos oor db { r with after := a.map (jsonMap text) } l →
      RemoteInspects text infos oor db { r with after := a } (l.map (jsonMap text)) := by
    intro a l ⟨N, hN⟩
    refine ⟨N, fun fuel hle => ?_⟩
    unfold remoteQuery
    simp only [hjs, hjf]
    rw [hN fuel hle]
  have h0' : RemoteInspects text infos oor db { r with after := none } ((rows.map (fun x => jsonMap text (i.desc.toMap x))).take r.limit.toNat) := by
    have := remote none _ h0
    rw [List.map_map, List.map_take] at this
    exact this
  have h1' : ∀ pre a suf, rows.map (fun x => jsonMap text (i.desc.toMap x)) = pre ++ a :: suf →
      RemoteInspects text infos oor db { r with after := some a } (suf.take r.limit.toNat) := by
    intro pre a suf hs
    obtain ⟨l1, l2, hl, _, e2⟩ := List.map_eq_append_iff.1 hs
    obtain ⟨x, l3, hl2, e3, e4⟩ := List.map_eq_cons_iff.1 e2
    subst e3 e4
    obtain ⟨hx, _⟩ := (hrows.2 x).1 (by rw [hl, hl2]; simp)
    have := remote (some (jsonMap text (i.desc.toMap x))) _ (h1 l1 x l3 (by rw [hl, hl2]) _ (json_cursor h.desc (hrow _ x hx.1)))
    rw [List.map_map, List.map_take] at this
    exact this
  refine ⟨p, rows, hp, hrows, pages_exist (exec := fun a => RemoteInspects text infos oor db { r with after := a }) hn h0' h1', fun pages hpg => ?_⟩
  refine pages_eq (exec := fun a => RemoteInspects text infos oor db { r with after := a }) (fun a p p' ⟨N, hN⟩ ⟨N', hN'⟩ => ?_) hn h0' h1' hpg
  have e := hN (max N N') (Nat.le_max_left _ _)
  rw [hN' (max N N') (Nat.le_max_right _ _)] at e
  exact (IOut.rows.inj e).symm

/-- a request for all rows, page by page -/
def exReqAll : IReq := { table := "recs", index := "", limit := 1 }

theorem exReqAll_key : ∀ p, IsPoint exInfo exTable.primaryIndex exReqAll.selector p →
    NoTrailingFF (exTable.primaryIndex.key p) ∧ (exTable.primaryIndex.key p).length < 2 ^ 32 - 1 :=
  fun _ _ => ⟨by simp [NoTrailingFF, Table.primaryIndex], by simp [Table.primaryIndex]⟩

example : ∃ p rows, IsPoint exInfo exTable.primaryIndex exReqAll.selector p ∧
    IsRows exTable exTable.primaryIndex exRows (fun x => (exTable.primaryIndex.key x = exTable.primaryIndex.key p ∧
      IdxLe exTable exTable.primaryIndex p x) ∧ Wanted exDesc exReqAll.filter x) rows ∧
    (∃ pages, Pages (fun a => RemoteInspects id [exInfo] (fun _ _ => 0) exDB { exReqAll with after := a }) none pages) ∧
    ∀ pages, Pages (fun a => RemoteInspects id [exInfo] (fun _ _ => 0) exDB { exReqAll with after := a }) none pages →
      pages.flatten = rows.map (fun x => jsonMap id (exDesc.toMap x)) ∧ ∀ p ∈ pages, p.length ≤ 1 :=
  C85_remote_partial (i := exInfo) exInfo_ok exDesc_ext _ id exReqAll rfl rfl (fun _ x _ f _ => by
    obtain ⟨a, b⟩ := x
    have ha := a.toNat_lt
    have hb := b.toNat_lt
    show (Int.natAbs _) ≤ _
    dsimp only
    split
    · omega
    · split
      · omega
      · decide) (by decide) rfl (idx := exTable.primaryIndex) (List.mem_cons_self ..) rfl (fun h => absurd rfl h)
    (fun _ h => by cases h) (by decide) (by decide) exReqAll_key

/-- the second page, from the last row of the first -/
example : remoteQuery id [exInfo] (fun _ _ => 0) exDB 9 exReqAll = .rows [jsonMap id (exDesc.toMap (1, 5))] ∧
    remoteQuery id [exInfo] (fun _ _ => 0) exDB 9 { exReqAll with after := some (jsonMap id (exDesc.toMap (1, 5))) } =
      .rows [jsonMap id (exDesc.toMap (2, 6))] := by decide

/-- a table of numbers of 64 bits that are their own key -/
def idTable : Table UInt64 Unit where
  id := 7
  pk x := beBytes 8 x.toNat
  indexes := []
  ser x := some (beBytes 8 x.toNat)
  deser _ b := some (UInt64.ofNat (b.foldl (fun n c => n * 256 + c.toNat) 0))
  nil := 0
  empty := 0
  filter := none
  prefetch := 100

/-- that table as inspect sees it -/
def idInfo : Info where
  T := UInt64
  F := Unit
  name := "big"
  table := idTable
  indexName _ := "primary"
  indexes := [idTable.primaryIndex]
  desc := { fields := [⟨"ID", "ID", ⟨.uint .w64, 0⟩⟩], get := fun x _ => .int x.toNat, pointer := true
            set := fun x _ v => match v with | .int k => UInt64.ofNat k.toNat | _ => x }
  env := stdEnv idTable
  srt := insSort
  filt := ()
  rangeRow _ l := l
  range l := l

/-- C85 is false for large integers: with the ids 2^53+1 and 2^53+2 the page after the first is the first page again, for ever; with the
ids 2^53+3 and 2^53+4 it is empty and the second row is never seen. -/
theorem C85_refuted_large :
    let again := (idTable.insert (stdEnv idTable) KV.empty () none [9007199254740993, 9007199254740994]).db
    let lost := (idTable.insert (stdEnv idTable) KV.empty () none [9007199254740995, 9007199254740996]).db
    let first (db : KV) := remoteQuery id [idInfo] (fun _ _ => 0) db 9 { table := "big", index := "", limit := 1 }
    let next (db : KV) (a : GoMap) := remoteQuery id [idInfo] (fun _ _ => 0) db 9 { table := "big", index := "", limit := 1, after := some a }
    (∃ a, first again = .rows [a] ∧ next again a = .rows [a]) ∧
    (∃ a, first lost = .rows [a] ∧ next lost a = .rows [] ∧ inspectQuery [idInfo] (fun _ _ => 0) lost 9 { table := "big", index := "" } =
      .rows [idInfo.desc.toMap (9007199254740995 : UInt64), idInfo.desc.toMap (9007199254740996 : UInt64)]) := by
  refine ⟨⟨[("ID", some ⟨⟨.float, 0⟩, .flt 9007199254740992 0⟩)], ?_, ?_⟩,
    ⟨[("ID", some ⟨⟨.float, 0⟩, .flt 9007199254740996 0⟩)], ?_, ?_, ?_⟩⟩ <;> decide +kernel

/-- an index of records with an id and bytes, by the bytes -/
def blobIndex : Index (UInt8 × Bytes) := { id := 1, key := fun x => x.2, ord := fun _ => [], filter := fun _ => true }

/-- a table of such records -/
def blobTable : Table (UInt8 × Bytes) Unit where
  id := 7
  pk x := [x.1]
  indexes := [blobIndex]
  ser x := some (x.1 :: x.2)
  deser _ b := match b with | a :: r => some (a, r) | _ => none
  nil := (0, [])
  empty := (0, [])
  filter := none
  prefetch := 100

/-- `type Blob struct { ID uint8; Data []byte }`; no bytes are nil -/
def blobInfo : Info where
  T := UInt8 × Bytes
  F := Unit
  name := "blobs"
  table := blobTable
  indexName idx := if idx.id == 0 then "primary" else "data"
  indexes := [blobTable.primaryIndex, blobIndex]
  desc := { fields := [⟨"ID", "ID", ⟨.uint .w8, 0⟩⟩, ⟨"Data", "Data", ⟨.bytes, 0⟩⟩]
            get := fun x n => if n == "ID" then .int x.1.toNat else if x.2 = [] then .nilBytes else .bytes x.2
            set := fun x n v => match n == "ID", v with
              | true, .int k => (UInt8.ofNat k.toNat, x.2)
              | false, .bytes b => (x.1, b)
              | false, .nilBytes => (x.1, [])
              | _, _ => x
            pointer := true }
  env := stdEnv blobTable
  srt := insSort
  filt := ()
  rangeRow _ l := l
  range l := l

/-- C85 is false for []byte: the rows 1 and 2 both have the bytes "A"; the page after row 1, as it was returned, is empty. In the
process of the database it is row 2. -/
theorem C85_refuted_bytes :
    let db := (blobTable.insert (stdEnv blobTable) KV.empty () none [(1, [65]), (2, [65])]).db
    let r : IReq := { table := "blobs", index := "data", selector := [("Data", some ⟨⟨.string, 0⟩, .bytes [65]⟩)], limit := 1 }
    (∃ a, remoteQuery id [blobInfo] (fun _ _ => 0) db 9 r = .rows [a] ∧
      remoteQuery id [blobInfo] (fun _ _ => 0) db 9 { r with after := some a } = .rows []) ∧
    (∃ a b, inspectQuery [blobInfo] (fun _ _ => 0) db 9 r = .rows [a] ∧
      inspectQuery [blobInfo] (fun _ _ => 0) db 9 { r with after := some a } = .rows [b]) := by
  refine ⟨⟨[("ID", some ⟨⟨.float, 0⟩, .flt 1 0⟩), ("Data", some ⟨⟨.string, 0⟩, .bytes [81, 81, 61, 61]⟩)], ?_, ?_⟩,
    ⟨[("ID", some ⟨⟨.uint .w8, 0⟩, .int 1⟩), ("Data", some ⟨⟨.bytes, 0⟩, .bytes [65]⟩)],
     [("ID", some ⟨⟨.uint .w8, 0⟩, .int 2⟩), ("Data", some ⟨⟨.bytes, 0⟩, .bytes [65]⟩)], ?_, ?_⟩⟩ <;> decide +kernel

/-- C85 is false for nil []byte: the row as it was returned makes the next request panic. -/
theorem C85_refuted_nil :
    let db := (blobTable.insert (stdEnv blobTable) KV.empty () none [(1, []), (2, [])]).db
    let r : IReq := { table := "blobs", index := "", limit := 1 }
    ∃ a, remoteQuery id [blobInfo] (fun _ _ => 0) db 9 r = .rows [a] ∧
      remoteQuery id [blobInfo] (fun _ _ => 0) db 9 { r with after := some a } = .panic := by
  refine ⟨[("ID", some ⟨⟨.float, 0⟩, .flt 1 0⟩), ("Data", none)], ?_, ?_⟩ <;> decide +kernel

end Bond
