import Verif.Spec.Values
import Verif.Props.Inspect
/-
C84: filters with fractions and with nil.
-/
namespace Bond
open Spec
variable {T : Type}

/-- `n` is the integer part of m / 2^e -/
def Spec.IntegerPart (m : Int) (e : Nat) (n : Int) : Prop :=
  n.natAbs * 2 ^ e ≤ m.natAbs ∧ m.natAbs < (n.natAbs + 1) * 2 ^ e ∧ (0 ≤ m → 0 ≤ n) ∧ (m ≤ 0 → n ≤ 0)

theorem truncF_integerPart (m : Int) (e : Nat) : IntegerPart m e (truncF m e) := by
  unfold IntegerPart truncF
  have hp : 0 < 2 ^ e := Nat.two_pow_pos e
  have hn : (m.tdiv (2 ^ e)).natAbs = m.natAbs / 2 ^ e := by
    rw [Int.natAbs_tdiv, Int.natAbs_pow]; rfl
  rw [hn]
  refine ⟨Nat.div_mul_le_self _ _, Nat.lt_mul_of_div_lt (Nat.lt_succ_self _) hp, fun h => ?_, fun h => ?_⟩
  · exact Int.tdiv_nonneg h (by exact_mod_cast Nat.zero_le _)
  · obtain ⟨k, hk⟩ := Int.eq_ofNat_of_zero_le (a := -m) (by omega)
    have : m = -(k : Int) := by omega
    rw [this, Int.neg_tdiv]
    have := Int.tdiv_nonneg (a := (k : Int)) (b := 2 ^ e) (by omega) (by exact_mod_cast Nat.zero_le _)
    omega

theorem integerPart_unique {m : Int} {e : Nat} {a b : Int} (ha : IntegerPart m e a) (hb : IntegerPart m e b) : a = b := by
  obtain ⟨a1, a2, a3, a4⟩ := ha
  obtain ⟨b1, b2, b3, b4⟩ := hb
  have hp : 0 < 2 ^ e := Nat.two_pow_pos e
  have h1 : a.natAbs < b.natAbs + 1 := Nat.lt_of_mul_lt_mul_right (Nat.lt_of_le_of_lt a1 b2)
  have h2 : b.natAbs < a.natAbs + 1 := Nat.lt_of_mul_lt_mul_right (Nat.lt_of_le_of_lt b1 a2)
  rcases Int.le_total 0 m with h | h
  · have := a3 h; have := b3 h; omega
  · have := a4 h; have := b4 h; omega

/-- C84, fractions (what `C84_refuted_fraction` is an example of): a filter with a floating point number for an integer field, if
its integer part is a value of the field, accepts exactly the rows whose field is that integer part. -/
theorem C84_fraction {d : Desc T} (hd : d.OK) (oor : OutOfRange) (x : T) {f : GoField} (hf : f ∈ d.fields) {s : IntSize} {signed : Bool}
    (hk : f.type.kind = if signed then .sint s else .uint s) (m : Int) (e n : Nat) {p : Int} (hp : IntegerPart m e p)
    (hh : s.holds signed p = true) :
    d.rowMatches oor x [(f.key, some ⟨⟨.float, n⟩, .flt m e⟩)] = some (decide (d.get x f.name = .int p)) := by
  have hpt : truncF m e = p := integerPart_unique (truncF_integerPart m e) hp
  unfold Desc.rowMatches
  rw [find_key hd hf]
  simp only
  have hc : convert oor ⟨⟨.float, n⟩, .flt m e⟩ f.type = some ⟨f.type, .int p⟩ := by
    unfold convert
    rw [hk]
    cases signed
    · simp only [Bool.false_eq_true, if_false, hpt, hh, if_true]
    · simp only [if_true, hpt, hh]
  have hs : GoKind.same .float f.type.kind = false := by rw [hk]; cases signed <;> rfl
  rw [hs, hc]
  simp only [Bool.false_eq_true, if_false, Desc.rowMatches]
  have : Data.eq (.int p) (d.get x f.name) = decide (d.get x f.name = .int p) := by
    have h0 : Data.eq (.int p) (d.get x f.name) = ((.int p : Data) == d.get x f.name) := rfl
    rw [h0]
    by_cases h : d.get x f.name = .int p
    · rw [h]; simp
    · rw [decide_eq_false h, beq_eq_false_iff_ne]
      exact fun h' => h h'.symm
  rw [this]
  by_cases h : d.get x f.name = .int p <;> simp [h]

/-- -3.5 has the integer part -3 -/
example : IntegerPart (-7) 1 (-3) ∧ IntSize.w8.holds true (-3) = true := by
  refine ⟨⟨by decide, by decide, by decide, by decide⟩, by decide⟩

theorem rowMatches_nil {d : Desc T} (hd : d.OK) (oor : OutOfRange) (x : T) {f : GoField} (hf : f ∈ d.fields) :
    ∀ l : GoMap, (f.key, none) ∈ l → d.rowMatches oor x l ≠ some true := by
  intro l
  induction l with
  | nil => intro h; cases h
  | cons a l ih =>
    intro h
    obtain ⟨k, v⟩ := a
    rcases List.mem_cons.1 h with h1 | h1
    · cases h1
      unfold Desc.rowMatches
      rw [find_key hd hf]
      simp
    · have := ih h1
      unfold Desc.rowMatches
      cases d.fields.find? (fun f => f.key == k) with
      | none => simp
      | some g =>
        simp only
        cases v with
        | none => simp
        | some fv =>
          simp only
          split
          · split
            · exact this
            · simp
          · split
            · simp
            · split
              · exact this
              · simp

/-- a row with all the other values of the filter comes to the nil -/
theorem rowMatches_nil_panics {d : Desc T} (hd : d.OK) (oor : OutOfRange) (x : T) {f : GoField} (hf : f ∈ d.fields) :
    ∀ l : GoMap, (f.key, none) ∈ l → PlainMap d (l.filter (fun e => e.2.isSome)) → Matches d (l.filter (fun e => e.2.isSome)) x →
    (∀ k, (k, none) ∈ l → ∃ g ∈ d.fields, g.key = k) → d.rowMatches oor x l = none := by
  intro l
  induction l with
  | nil => intro h; cases h
  | cons a l ih =>
    intro h hp hm hn
    obtain ⟨k, v⟩ := a
    cases v with
    | none =>
      obtain ⟨g, hg, rfl⟩ := hn k (by simp)
      unfold Desc.rowMatches
      rw [find_key hd hg]
    | some fv =>
      have h1 : (f.key, none) ∈ l := by
        rcases List.mem_cons.1 h with h | h
        · cases h
        · exact h
      have hp1 : PlainMap d [(k, some fv)] := fun k' v' hx => hp k' v' (by
        rw [List.mem_singleton.1 hx]; simp)
      have hm1 : Matches d [(k, some fv)] x := fun k' v' hx => hm k' v' (by
        rw [List.mem_singleton.1 hx]; simp)
      obtain ⟨b, hb, hiff⟩ := rowMatches_iff hd oor x hp1
      rw [hiff.2 hm1] at hb
      have hrest := ih h1 (fun k' v' hx => hp k' v' (by simp only [List.filter_cons, Option.isSome_some, if_true]; exact List.mem_cons_of_mem _ hx))
        (fun k' v' hx => hm k' v' (by simp only [List.filter_cons, Option.isSome_some, if_true]; exact List.mem_cons_of_mem _ hx))
        (fun k hk => hn k (List.mem_cons_of_mem _ hk))
      unfold Desc.rowMatches at hb ⊢
      cases hfd : d.fields.find? (fun f => f.key == k) with
      | none => rw [hfd] at hb; simp at hb
      | some g =>
        rw [hfd] at hb
        simp only [Desc.rowMatches] at hb ⊢
        rw [hrest]
        split
        · rename_i hs
          rw [if_pos hs] at hb
          split
          · rfl
          · rename_i h2; rw [if_neg h2] at hb; simp at hb
        · rename_i hs
          rw [if_neg hs] at hb
          cases hc : convert oor fv g.type with
          | none => rw [hc] at hb; simp at hb
          | some w =>
            rw [hc] at hb
            simp only at hb ⊢
            split
            · rfl
            · rename_i h2; rw [if_neg h2] at hb; simp at hb

theorem panics_nil {i : Info} {oor : OutOfRange} {g : GoMap} (hno : ∀ x, i.desc.rowMatches oor x (i.rangeRow x g) ≠ some true)
    (left : Nat) (limited : Bool) (rows : List i.T) :
    i.panics oor g left limited rows = rows.any (fun x => (i.desc.rowMatches oor x (i.rangeRow x g)).isNone) := by
  induction rows with
  | nil => rfl
  | cons x rows ih =>
    rw [Info.panics, List.any_cons]
    cases hx : i.desc.rowMatches oor x (i.rangeRow x g) with
    | none => rfl
    | some b =>
      cases b with
      | true => exact absurd hx (hno x)
      | false => simp [ih]

/-- C84, nil (what `C84_refuted_nil` is an example of): a query whose filter has nil for a field never returns a row. It panics if
a row of the index group, not below the selector's record, has all the other values of the filter, whatever the limit and the
order in which Go goes through the map; if there is no row at all it returns nothing. -/
theorem C84_nil {i : Info} {db : KV} {m : Rows i.T} (h : i.OK db m) {infos : List Info} (oor : OutOfRange) (r : IReq)
    (htab : r.table ≠ "") (hfind : infos.find? (fun j => j.name == r.table) = some i) {idx : Index i.T} (hi : idx ∈ i.indexes)
    (hname : i.indexName idx = r.indexName) (hsel : idx ≠ i.table.primaryIndex → PlainRecord i.desc r.selector)
    {g : GoMap} (hg : r.filter = some g) {f : GoField} (hf : f ∈ i.desc.fields) (hnil : (f.key, none) ∈ g)
    (haft : r.after = none) (hL : r.limit.toNat < 2 ^ 63)
    (hkey : ∀ p, IsPoint i idx r.selector p → NoTrailingFF (idx.key p) ∧ (idx.key p).length < 2 ^ 32 - 1) :
    ∃ p rows, IsPoint i idx r.selector p ∧ IsRows i.table idx m (fun x => idx.key x = idx.key p ∧ IdxLe i.table idx p x) rows ∧
      ∃ N, ∀ fuel, N ≤ fuel →
        (inspectQuery infos oor db fuel r = .panic ∨ inspectQuery infos oor db fuel r = .rows []) ∧
        (rows = [] → inspectQuery infos oor db fuel r = .rows []) ∧
        (PlainMap i.desc (g.filter (fun e => e.2.isSome)) → (∀ k, (k, none) ∈ g → ∃ f ∈ i.desc.fields, f.key = k) →
          (∃ x ∈ rows, Matches i.desc (g.filter (fun e => e.2.isSome)) x) → inspectQuery infos oor db fuel r = .panic) := by
  obtain ⟨p, hp, hq⟩ := h.withIndex oor hi hsel
  obtain ⟨hff, hlen⟩ := hkey p hp
  have h0 : (0 : UInt64).toNat < 2 ^ 63 := by decide
  let q0 : Query i.T := { i.table.query with index := idx, sel := .point p }
  obtain ⟨rows, hrows, hret⟩ := C30_point h.setting i.srt q0 (p := p) rfl rfl ((h.indexes idx).1 hi) hff hlen rfl rfl rfl h0 h0
  have hacc0 : rows.filter (accepts q0) = rows := List.filter_eq_self.2 (fun _ _ => rfl)
  have hpage : page q0.offset.toNat q0.limit.toNat rows = rows := by simp [page, q0, Table.query]
  rw [hacc0, hpage] at hret
  obtain ⟨rows', hrows', hret'⟩ := C30_point h.setting i.srt { i.withFilter oor q0 (some g) with limit := r.limit } (p := p) rfl rfl
    ((h.indexes idx).1 hi) hff hlen rfl rfl rfl h0 hL
  have hno : ∀ x, i.desc.rowMatches oor x (i.rangeRow x g) ≠ some true := fun x =>
    rowMatches_nil h.desc oor x hf _ ((h.rangeRow x g).mem_iff.2 hnil)
  have hacc : rows'.filter (accepts { i.withFilter oor q0 (some g) with limit := r.limit }) = [] := by
    rw [List.filter_eq_nil_iff]
    intro x _
    have := hno x
    simp only [accepts, Info.withFilter]
    cases hx : i.desc.rowMatches oor x (i.rangeRow x g) with
    | none => simp
    | some b => cases b <;> simp_all
  rw [hacc] at hret'
  have hpg : ∀ a b, page a b ([] : List i.T) = [] := by intro a b; unfold page; split <;> simp
  rw [hpg] at hret'
  refine ⟨p, rows, hp, hrows, ?_⟩
  obtain ⟨N, hN⟩ := hret
  obtain ⟨N', hN'⟩ := hret'
  refine ⟨max N N', fun fuel hle => ?_⟩
  have e1 := hN fuel (by omega)
  have e2 := hN' fuel (by omega)
  have hout : inspectQuery infos oor db fuel r =
      if rows.any (fun x => (i.desc.rowMatches oor x (i.rangeRow x g)).isNone) then .panic else .rows [] := by
    unfold inspectQuery
    rw [if_neg (by rw [beq_iff_eq]; exact htab), hfind]
    simp only
    unfold Info.query
    rw [h.find hi hname]
    simp only
    rw [hq]
    simp only [haft, Info.withAfter, hg]
    unfold Info.exec
    rw [e1, e2]
    simp only
    rw [panics_nil hno]
    rfl
  rw [hout]
  refine ⟨by split <;> simp, fun h0 => by simp [h0], fun hpl hn hx => ?_⟩
  obtain ⟨x, hx, hmx⟩ := hx
  rw [if_pos]
  rw [List.any_eq_true]
  refine ⟨x, hx, ?_⟩
  have hperm := (h.rangeRow x g).filter (fun e => e.2.isSome)
  rw [rowMatches_nil_panics h.desc oor x hf _ ((h.rangeRow x g).mem_iff.2 hnil) (hpl.perm hperm) ((matches_perm hperm x).2 hmx)
    (fun k hk => hn k ((h.rangeRow x g).mem_iff.1 hk))]
  rfl

/-- the hypotheses of `C84_nil` on the filter: ID nil, Group 6; row (2, 6) has the other value -/
example : let g : GoMap := [("ID", none), ("Group", some ⟨⟨.float, 0⟩, .flt 6 0⟩)]
    PlainMap exDesc (g.filter (fun e => e.2.isSome)) ∧ Matches exDesc (g.filter (fun e => e.2.isSome)) (2, 6) ∧
    inspectQuery [exInfo] (fun _ _ => 0) exDB 9 { table := "recs", index := "", filter := some g, limit := 1 } = .panic := by
  refine ⟨?_, ?_, by decide⟩
  · intro k v h
    simp only [List.filter, Option.isSome, List.mem_singleton] at h
    cases h
    refine ⟨_, rfl, rfl, fun f hf hk => ?_⟩
    simp only [exDesc, List.mem_cons, List.not_mem_nil, or_false] at hf
    rcases hf with rfl | rfl
    · exact absurd hk (by decide)
    · exact ⟨rfl, rfl⟩
  · intro k v h
    simp only [List.filter, Option.isSome, List.mem_singleton] at h
    cases h
    exact ⟨⟨"Group", "Group", ⟨.uint .w8, 0⟩⟩, by simp [exDesc], rfl, _, rfl, by simp [SameValue, number, exDesc]⟩

/-- C84, integers (what Go does with an integer that the type of the field does not have): the types have exactly the numbers that the
conversion leaves as they are; the converted value is one of the type and differs by a multiple of 2 to the number of bits. -/
theorem C84_integers (s : IntSize) (signed : Bool) (n : Int) :
    (s.holds signed n = true ↔ s.wrap signed n = n) ∧ s.holds signed (s.wrap signed n) = true ∧
    (s.wrap signed n - n) % 2 ^ s.bits = 0 := by
  have h2 : s.holds signed (s.wrap signed n) = true := by
    unfold IntSize.wrap IntSize.holds
    cases signed <;> cases s <;>
      simp only [IntSize.bits, if_true, if_false, Bool.false_eq_true, Nat.reduceSub, Int.reducePow, Int.reduceNeg, true_and,
        false_and, decide_eq_true_eq] <;> (try split) <;> omega
  refine ⟨⟨wrap_holds, fun h => h ▸ h2⟩, h2, ?_⟩
  unfold IntSize.wrap
  cases signed <;> cases s <;>
    simp only [IntSize.bits, if_true, if_false, Bool.false_eq_true, Nat.reduceSub, Int.reducePow, Int.reduceNeg, true_and,
      false_and] <;> (try split) <;> omega

/-- an int8 has -128 and not 128, which is converted to -128 -/
example : IntSize.w8.holds true (-128) = true ∧ IntSize.w8.holds true 128 = false ∧ IntSize.w8.wrap true 128 = -128 ∧
    IntSize.w8.holds false 255 = true ∧ IntSize.w16.wrap false (-1) = 65535 := by decide

/-- C84, slices: for a field with a slice type a value of a slice type of another kind ([]byte or not) is no error. As a filter it accepts no
row; as a selector or cursor it makes `Query` panic. -/
theorem C84_slices {d : Desc T} (hd : d.OK) (oor : OutOfRange) (x : T) {f : GoField} (hf : f ∈ d.fields) {v : TVal}
    (hk : (f.type.kind = .bytes ∧ v.type.kind = .list) ∨ (f.type.kind = .list ∧ v.type.kind = .bytes)) (rest : GoMap) :
    d.rowMatches oor x ((f.key, some v) :: rest) = some false ∧ d.setFields oor ((f.key, some v) :: rest) x = .panic := by
  have hs : v.type.kind.same f.type.kind = true := by rcases hk with ⟨a, b⟩ | ⟨a, b⟩ <;> rw [a, b] <;> rfl
  have hne : v.type ≠ f.type := by intro e; rw [e] at hk; rcases hk with ⟨a, b⟩ | ⟨a, b⟩ <;> rw [a] at b <;> cases b
  have ha : assignable v.type f.type = false := by
    unfold assignable
    rw [beq_eq_false_iff_ne.2 hne]
    rcases hk with ⟨a, b⟩ | ⟨a, b⟩ <;> rw [a, b] <;> rfl
  constructor
  · rw [Desc.rowMatches, find_key hd hf]
    simp only
    rw [if_pos hs, if_neg (fun h => hne h.1)]
  · unfold Desc.setFields
    rw [if_pos (List.any_eq_true.2 ⟨f, hf, by simp⟩)]
    simp only [find_name hd hf]
    rw [if_pos hs, ha]
    rfl

/-- C84, named byte types: a value of one type with the underlying type []byte can be given for a field of another one as a selector or cursor
if one of the two is []byte itself, and makes `Query` panic if neither is; as a filter it accepts no row. -/
theorem C84_bytes {d : Desc T} (hd : d.OK) (oor : OutOfRange) (x : T) {f : GoField} (hf : f ∈ d.fields) {n m : Nat}
    (hk : f.type = ⟨.bytes, n⟩) (hn : m ≠ n) (b : Bytes) :
    d.rowMatches oor x [(f.key, some ⟨⟨.bytes, m⟩, .bytes b⟩)] = some false ∧
    d.setFields oor [(f.key, some ⟨⟨.bytes, m⟩, .bytes b⟩)] x = if m = 0 ∨ n = 0 then .ok (d.set x f.name (.bytes b)) else .panic := by
  have hne : (⟨.bytes, m⟩ : GoType) ≠ f.type := by rw [hk]; intro e; injection e with _ e; exact hn e
  constructor
  · rw [Desc.rowMatches, find_key hd hf]
    simp only
    rw [hk, if_pos (show GoKind.same .bytes .bytes = true from rfl), if_neg]
    intro h; rw [hk] at hne; exact hne h.1
  · unfold Desc.setFields
    rw [if_pos (List.any_eq_true.2 ⟨f, hf, by simp⟩)]
    simp only [find_name hd hf]
    rw [hk, if_pos (show GoKind.same .bytes .bytes = true from rfl)]
    have e : assignable ⟨.bytes, m⟩ ⟨.bytes, n⟩ = decide (m = 0 ∨ n = 0) := by
      unfold assignable
      rw [beq_eq_false_iff_ne.2 (fun e => hn (by injection e))]
      by_cases h1 : m = 0 <;> by_cases h2 : n = 0 <;> simp [h1, h2]
    rw [e]
    simp only [decide_eq_true_eq]
    split
    · rfl
    · rfl

/-- a record with a field of a named byte type and one of a list type, and the two cases on it -/
example : let d : Desc Data := { fields := [⟨"D", "D", ⟨.bytes, 3⟩⟩], get := fun x _ => match x with | .bytes b => .bytes b | _ => .nilBytes,
                                 set := fun _ _ v => v, pointer := true }
    d.setFields (fun _ _ => 0) [("D", some ⟨⟨.bytes, 0⟩, .bytes [1]⟩)] .nilBytes = .ok (.bytes [1]) ∧
    d.setFields (fun _ _ => 0) [("D", some ⟨⟨.list, 0⟩, .other 0⟩)] .nilBytes = .panic ∧
    d.setFields (fun _ _ => 0) [("D", some ⟨⟨.bytes, 2⟩, .bytes [1]⟩)] .nilBytes = .panic := by decide

/-- C84_bytes for a field of type []byte and a value of a named type -/
example : let d : Desc Data := { fields := [⟨"D", "D", ⟨.bytes, 0⟩⟩], get := fun x _ => match x with | .bytes b => .bytes b | _ => .nilBytes,
                                 set := fun _ _ v => v, pointer := true }
    d.setFields (fun _ _ => 0) [("D", some ⟨⟨.bytes, 2⟩, .bytes [1]⟩)] .nilBytes = .ok (.bytes [1]) := by decide

/-- C84, what is listed: `Tables` has the names of the tables in the order in which they were given, `Indexes` those of the indexes of
the first table of that name, in the order of their numbers, and `EntryFields` the fields as declared. -/
theorem C84_lists (infos : List Info) (k : Nat) :
    (inspectTables infos).length = infos.length ∧ (inspectTables infos)[k]? = infos[k]?.map (·.name) ∧
    ∀ i, infos[k]? = some i → (∀ (j : Nat) (i' : Info), j < k → infos[j]? = some i' → i'.name ≠ i.name) →
      inspectIndexes infos i.name = some (i.indexes.map i.indexName) ∧
      inspectFields infos i.name = some (i.desc.fields.map (fun f => (f.key, f.type.kind))) := by
  refine ⟨by simp [inspectTables], by simp [inspectTables], fun i hi hno => ?_⟩
  have hfind : infos.find? (fun i' => i.name == i'.name) = some i := by
    induction infos generalizing k with
    | nil => simp at hi
    | cons a infos ih =>
      cases k with
      | zero => simp at hi; subst hi; simp
      | succ k =>
        have h0 : (i.name == a.name) = false := beq_eq_false_iff_ne.2 (Ne.symm (hno 0 a (Nat.succ_pos _) rfl))
        rw [List.find?_cons, h0]
        exact ih k (by simpa using hi) (fun j i' hj hji => hno (j + 1) i' (Nat.succ_lt_succ hj) (by simpa using hji))
  unfold inspectIndexes inspectFields
  rw [hfind]
  exact ⟨rfl, rfl⟩

/-- C84, integer types: a number can be given for a field exactly if it is between the least and the greatest of its type. -/
theorem C84_ranges (s : IntSize) (signed : Bool) (n : Int) :
    s.holds signed n = true ↔ (intRange s signed).1 ≤ n ∧ n ≤ (intRange s signed).2 := by
  unfold IntSize.holds
  cases s <;> cases signed <;> simp only [IntSize.bits, if_true, if_false, Bool.false_eq_true, Nat.reduceSub,
    Int.reducePow, Int.reduceNeg] <;> unfold intRange <;> simp only <;>
    exact ⟨fun h => by have := of_decide_eq_true h; omega, fun h => decide_eq_true (by omega)⟩

/-- an int holds what fits 64 bits -/
example : IntSize.word.holds true 9223372036854775807 = true ∧ IntSize.word.holds true 9223372036854775808 = false ∧
    IntSize.w32.holds false 4294967295 = true := by decide

/-- C84, numbers for texts: an integer converted to a string is the UTF-8 encoding of the character with that number, and that of
U+FFFD if there is none. -/
theorem C84_runes (n : Int) :
    (∀ c : Char, n = c.toNat → runeBytes n = String.utf8EncodeChar c) ∧
    ((∀ c : Char, n ≠ c.toNat) → runeBytes n = String.utf8EncodeChar '�') := by
  have hb : String.utf8EncodeChar '�' = [0xEF, 0xBF, 0xBD] := by decide
  constructor
  · rintro c rfl
    have hv := c.valid
    simp only [UInt32.isValidChar, Nat.isValidChar] at hv
    have : c.toNat = c.val.toNat := rfl
    unfold runeBytes String.utf8EncodeChar
    simp only [this] at *
    generalize c.val.toNat = k at *
    simp only [Int.toNat_natCast, if_neg (show ¬ ((k : Int) < 0) by omega)]
    by_cases h1 : k < 0x80
    · simp only [if_pos h1, if_pos (show k ≤ 127 by omega)]
    simp only [if_neg h1, if_neg (show ¬ k ≤ 127 by omega)]
    by_cases h2 : k < 0x800
    · simp only [if_pos h2, if_pos (show k ≤ 2047 by omega), Nat.add_comm]
      congr 2; omega
    simp only [if_neg h2, if_neg (show ¬ k ≤ 2047 by omega), if_neg (show ¬ (0xD800 ≤ k ∧ k < 0xE000) by omega)]
    by_cases h3 : k < 0x10000
    · simp only [if_pos h3, if_pos (show k ≤ 65535 by omega), Nat.add_comm]
      congr 2; omega
    simp only [if_neg h3, if_neg (show ¬ k ≤ 65535 by omega), if_pos (show k < 0x110000 by omega), Nat.add_comm]
    congr 2; omega
  · intro h
    rw [hb]
    unfold runeBytes
    have hv : 0 ≤ n → ¬ n.toNat.isValidChar := by
      intro h0 hc
      refine h (Char.ofNat n.toNat) ?_
      rw [show (Char.ofNat n.toNat).toNat = n.toNat by simp [Char.ofNat, hc, Char.ofNatAux, Char.toNat]]
      omega
    simp only [Nat.isValidChar] at hv ⊢
    split
    · rfl
    have := hv (by omega)
    rw [if_neg (by omega), if_neg (by omega)]
    split
    · rfl
    rw [if_neg (by omega), if_neg (by omega)]

/-- é, a character of the last plane, and a surrogate, which is no character -/
example : runeBytes 233 = [0xC3, 0xA9] ∧ runeBytes 0x10FFFF = [0xF4, 0x8F, 0xBF, 0xBF] ∧ runeBytes 0xD800 = [0xEF, 0xBF, 0xBD] := by decide

theorem b64_idx (n : Nat) (h : n < 64) : b64Alphabet.idxOf? (b64Char n) = some n := by
  have : ∀ n : Fin 64, b64Alphabet.idxOf? (b64Char n.val) = some n.val := by decide
  exact this ⟨n, h⟩

theorem b64_ne (n : Nat) (h : n < 64) : b64Char n ≠ 61 := by
  have : ∀ n : Fin 64, b64Char n.val ≠ 61 := by decide
  exact this ⟨n, h⟩

theorem ofNat_eq {a : UInt8} (n : Nat) (h : n = a.toNat) : UInt8.ofNat n = a := by subst h; simp

/-- C85, []byte: the text that a remote client gets for a []byte field is its base64 encoding; decoding it gives the bytes back. -/
theorem C85_base64 (b : Bytes) : unBase64 (base64 b) = some b := by
  fun_induction base64 b with
  | case1 a b c rest n ih =>
    have ha := a.toNat_lt; have hb := b.toNat_lt; have hc := c.toNat_lt
    rw [unBase64]
    · simp only [b64_idx _ (show n / 262144 < 64 by omega), b64_idx _ (show n / 4096 % 64 < 64 by omega),
        b64_idx _ (show n / 64 % 64 < 64 by omega), b64_idx _ (show n % 64 < 64 by omega), ih, Option.bind_eq_bind, Option.bind_some]
      rw [ofNat_eq _ (show n / 262144 * 4 + n / 4096 % 64 / 16 = a.toNat by omega),
        ofNat_eq _ (show n / 4096 % 64 % 16 * 16 + n / 64 % 64 / 4 = b.toNat by omega),
        ofNat_eq _ (show n / 64 % 64 % 4 * 64 + n % 64 = c.toNat by omega)]
    · intro _ h; exact absurd h (b64_ne _ (by omega))
    · intro h; exact absurd h (b64_ne _ (by omega))
  | case2 a b n =>
    have ha := a.toNat_lt; have hb := b.toNat_lt
    rw [unBase64]
    · simp only [b64_idx _ (show n / 4096 < 64 by omega), b64_idx _ (show n / 64 % 64 < 64 by omega),
        b64_idx _ (show n % 64 < 64 by omega), Option.bind_eq_bind, Option.bind_some]
      rw [ofNat_eq _ (show n / 4096 * 4 + n / 64 % 64 / 16 = a.toNat by omega),
        ofNat_eq _ (show n / 64 % 64 % 16 * 16 + n % 64 / 4 = b.toNat by omega)]
    · intro h; exact absurd h (b64_ne _ (by omega))
  | case3 a n =>
    have ha := a.toNat_lt
    rw [unBase64]
    simp only [b64_idx _ (show n / 64 < 64 by omega), b64_idx _ (show n % 64 < 64 by omega), Option.bind_eq_bind, Option.bind_some]
    rw [ofNat_eq _ (show n / 64 * 4 + n % 64 / 16 = a.toNat by omega)]
  | case4 => rfl

/-- "Man", "Ma" and "M" are TWFu, TWE= and TQ== -/
example : base64 [77, 97, 110] = [84, 87, 70, 117] ∧ base64 [77, 97] = [84, 87, 69, 61] ∧ base64 [77] = [84, 81, 61, 61] := by decide

/-- the data that values of a kind have, by the ranges of the Go specification -/
def Spec.DataOf : GoKind → Data → Prop
  | .sint .w8, .int n => -128 ≤ n ∧ n ≤ 127
  | .sint .w16, .int n => -32768 ≤ n ∧ n ≤ 32767
  | .sint .w32, .int n => -2147483648 ≤ n ∧ n ≤ 2147483647
  | .sint .w64, .int n | .sint .word, .int n => -9223372036854775808 ≤ n ∧ n ≤ 9223372036854775807
  | .uint .w8, .int n => 0 ≤ n ∧ n ≤ 255
  | .uint .w16, .int n => 0 ≤ n ∧ n ≤ 65535
  | .uint .w32, .int n => 0 ≤ n ∧ n ≤ 4294967295
  | .uint .w64, .int n | .uint .word, .int n => 0 ≤ n ∧ n ≤ 18446744073709551615
  | .float, .flt _ _ => True
  | .string, .bytes _ | .bytes, .bytes _ => True
  | _, _ => False

/-- C84, types: whatever a request contains, a value that is converted for a field is a value of the type of the field, also where Go does
not say which (numbers with a fraction or beyond the range). -/
theorem C84_typed (oor : OutOfRange) (v w : TVal) (t : GoType) (h : convert oor v t = some w) : w.type = t ∧ Spec.DataOf t.kind w.data := by
  have hw : ∀ (s : IntSize) (signed : Bool) (n : Int), s.holds signed (if s.holds signed n then n else s.wrap signed (oor n t.kind)) = true := by
    intro s signed n
    split
    · assumption
    · exact (C84_integers s signed _).2.1
  have hof : ∀ (s : IntSize) (signed : Bool) (n : Int), s.holds signed n = true → Spec.DataOf (if signed then .sint s else .uint s) (.int n) := by
    intro s signed n hh
    unfold IntSize.holds at hh
    cases signed <;> cases s <;>
      simp only [IntSize.bits, if_true, if_false, Bool.false_eq_true, Nat.reduceSub, Int.reducePow, Int.reduceNeg] at hh <;>
      simp only [Spec.DataOf, if_true, if_false, Bool.false_eq_true] <;> exact ⟨(of_decide_eq_true hh).1, by have := (of_decide_eq_true hh).2; omega⟩
  unfold convert at h
  split at h
  · rename_i hk; cases h; refine ⟨rfl, ?_⟩; rw [hk]; exact hof _ true _ (C84_integers _ true _).2.1
  · rename_i hk; cases h; refine ⟨rfl, ?_⟩; rw [hk]; exact hof _ false _ (C84_integers _ false _).2.1
  · rename_i hk; cases h; refine ⟨rfl, ?_⟩; rw [hk]; trivial
  · rename_i hk; cases h; refine ⟨rfl, ?_⟩; rw [hk]; trivial
  · rename_i m e s _ hk; cases h; refine ⟨rfl, ?_⟩; have := hof _ true _ (hw s true (truncF m e)); rw [hk] at this ⊢; exact this
  · rename_i m e s _ hk; cases h; refine ⟨rfl, ?_⟩; have := hof _ false _ (hw s false (truncF m e)); rw [hk] at this ⊢; exact this
  · rename_i hk; cases h; refine ⟨rfl, ?_⟩; rw [hk]; trivial
  · rename_i hk; cases h; refine ⟨rfl, ?_⟩; rw [hk]; trivial
  · rename_i hk; cases h; refine ⟨rfl, ?_⟩; rw [hk]; trivial
  · cases h

/-- `C84_typed` at 1000 for an int8: whatever Go makes of it, -24 or another number of the type -/
example : convert (fun _ _ => 1000) ⟨⟨.float, 0⟩, .flt 1000 0⟩ ⟨.sint .w8, 0⟩ = some ⟨⟨.sint .w8, 0⟩, .int (-24)⟩ := by decide

end Bond
