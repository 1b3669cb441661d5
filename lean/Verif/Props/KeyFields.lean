import Verif.FieldLemmas
/- Property theorems C01-C06 (keys.go, index.go). -/
namespace Bond
open Spec

/-- "the two keys compare exactly as `lt`/`eq` says, equal keys mean equal values,
and what follows (`s`, `t`) only decides ties" -/
def OrderedBy (kx ky : Bytes) (lt eq : Prop) : Prop :=
  ∀ s t : Bytes, (blt (kx ++ s) (ky ++ t) = true ↔ lt ∨ (eq ∧ blt s t = true)) ∧ (kx ++ s = ky ++ s → eq)

private theorem orderedBy_of (b : KeyBuilder) (f g : Field) (hk : f.kind = g.kind)
    (hfix : f.kind.fixed = true) {bf bg : KeyBuilder} (hf : b.addField f = some bf) (hg : b.addField g = some bg) :
    OrderedBy bf.bytes bg.bytes (f.lt g) (f = g) := by
  rw [addField_eq] at hf hg
  cases hp : payload f with
  | none => simp [hp] at hf
  | some p =>
  cases hq : payload g with
  | none => simp [hq] at hg
  | some q =>
  simp [hp] at hf; simp [hq] at hg
  subst hf; subst hg
  intro s t
  have hlen := payload_length hk hfix hp hq
  simp only [KeyBuilder.bytes, List.append_assoc, List.cons_append, blt_append_left, cons_blt_same]
  rw [blt_append_same_len hlen]
  rw [payload_lt hk hp hq]
  have e : p = q ↔ f = g := by
    constructor
    · intro h; subst h; exact payload_inj hk hp hq
    · intro h; subst h; rw [hp] at hq; simpa using hq
  rw [e]
  refine ⟨Iff.rfl, ?_⟩
  intro h
  simp only [List.append_cancel_left_eq, List.cons.injEq, true_and] at h
  exact e.1 ((List.append_inj h hlen).1)

/-- C01, signed 64 bit. -/
theorem C01_int64 (b : KeyBuilder) (x y : BitVec 64) :
    OrderedBy (b.addInt64Field x).bytes (b.addInt64Field y).bytes (x.toInt < y.toInt) (x = y) := by
  have := orderedBy_of b (.i64 x) (.i64 y) rfl rfl rfl rfl
  simpa [Field.lt] using this

/-- C01, signed 32 bit. -/
theorem C01_int32 (b : KeyBuilder) (x y : BitVec 32) :
    OrderedBy (b.addInt32Field x).bytes (b.addInt32Field y).bytes (x.toInt < y.toInt) (x = y) := by
  have := orderedBy_of b (.i32 x) (.i32 y) rfl rfl rfl rfl
  simpa [Field.lt] using this

/-- C01, signed 16 bit. -/
theorem C01_int16 (b : KeyBuilder) (x y : BitVec 16) :
    OrderedBy (b.addInt16Field x).bytes (b.addInt16Field y).bytes (x.toInt < y.toInt) (x = y) := by
  have := orderedBy_of b (.i16 x) (.i16 y) rfl rfl rfl rfl
  simpa [Field.lt] using this

/-- C01, unsigned 64 bit. -/
theorem C01_uint64 (b : KeyBuilder) (x y : BitVec 64) :
    OrderedBy (b.addUint64Field x).bytes (b.addUint64Field y).bytes (x.toNat < y.toNat) (x = y) := by
  have := orderedBy_of b (.u64 x) (.u64 y) rfl rfl rfl rfl
  simpa [Field.lt] using this

/-- C01, unsigned 32 bit. -/
theorem C01_uint32 (b : KeyBuilder) (x y : BitVec 32) :
    OrderedBy (b.addUint32Field x).bytes (b.addUint32Field y).bytes (x.toNat < y.toNat) (x = y) := by
  have := orderedBy_of b (.u32 x) (.u32 y) rfl rfl rfl rfl
  simpa [Field.lt] using this

/-- C01, unsigned 16 bit. -/
theorem C01_uint16 (b : KeyBuilder) (x y : BitVec 16) :
    OrderedBy (b.addUint16Field x).bytes (b.addUint16Field y).bytes (x.toNat < y.toNat) (x = y) := by
  have := orderedBy_of b (.u16 x) (.u16 y) rfl rfl rfl rfl
  simpa [Field.lt] using this

/-- C01, byte. -/
theorem C01_byte (b : KeyBuilder) (x y : UInt8) :
    OrderedBy (b.addByteField x).bytes (b.addByteField y).bytes (x.toNat < y.toNat) (x = y) := by
  have := orderedBy_of b (.byte x) (.byte y) rfl rfl rfl rfl
  simpa [Field.lt, UInt8.lt_iff_toNat_lt] using this

/- non-vacuity: the smallest int64 sorts before -1, which sorts before 0 -/
example : blt ((KeyBuilder.new []).addInt64Field (BitVec.ofInt 64 (-9223372036854775808))).bytes
    ((KeyBuilder.new []).addInt64Field (-1)).bytes = true := by decide
example : blt ((KeyBuilder.new []).addInt64Field (-1)).bytes
    ((KeyBuilder.new []).addInt64Field 0).bytes = true := by decide

/-- C02: order of big-integer fields. -/
theorem C02_order (b bx by' : KeyBuilder) (x y : Int) (bits : Nat)
    (hx : b.addBigIntField x bits = some bx) (hy : b.addBigIntField y bits = some by') :
    OrderedBy bx.bytes by'.bytes (x < y) (x = y) := by
  have := orderedBy_of b (.big x bits) (.big y bits) rfl rfl hx hy
  simpa [Field.lt] using this

/-- the theorem at two numbers of 128 bits -/
example : ∃ bx by', (KeyBuilder.mk [] 0).addBigIntField (-3) 128 = some bx ∧ (KeyBuilder.mk [] 0).addBigIntField 5 128 = some by' ∧
    OrderedBy bx.bytes by'.bytes ((-3 : Int) < 5) ((-3 : Int) = 5) := by
  refine ⟨_, _, rfl, rfl, C02_order ⟨[], 0⟩ _ _ _ _ 128 rfl rfl⟩

/-- C02: the call panics exactly for the integers that do not fit in `bits/8` bytes. -/
theorem C02_panics (b : KeyBuilder) (x : Int) (bits : Nat) :
    b.addBigIntField x bits = none ↔ ¬ (-(256 ^ (bits / 8) : Nat) < x ∧ x < (256 ^ (bits / 8) : Nat)) := by
  rw [addBigInt_eq]
  simp only [payload]
  generalize 256 ^ (bits / 8) = m
  split <;> simp <;> omega

example : ∃ k, (KeyBuilder.new []).addBigIntField (-65535) 16 = some k := ⟨⟨[1, 0, 0, 0], 1⟩, by decide⟩
example : (KeyBuilder.new []).addBigIntField 65536 16 = none := by decide

/-- C03: keys of equally typed field tuples, all fields but possibly the last of fixed width,
compare as the tuples. -/
theorem C03 (b bf bg : KeyBuilder) (fs gs : List Field)
    (hk : fs.map Field.kind = gs.map Field.kind)
    (hv : ∀ f ∈ fs.dropLast, f.kind.fixed = true)
    (hf : b.addFields fs = some bf) (hg : b.addFields gs = some bg) :
    blt bf.bytes bg.bytes = true ↔ tupleLt fs gs := by
  have h1 := addFields_bytes b fs
  have h2 := addFields_bytes b gs
  rw [hf] at h1; rw [hg] at h2
  cases hp : encFields b.fid fs with
  | none => simp [hp] at h1
  | some p =>
  cases hq : encFields b.fid gs with
  | none => simp [hq] at h2
  | some q =>
  simp [hp] at h1; simp [hq] at h2
  rw [h1, h2, blt_append_left]
  exact encFields_lt hk (by simpa using hv) hp hq

example : ∃ bf bg, (KeyBuilder.new [7]).addFields [.i64 (-3), .u16 9, .str [97, 98]] = some bf ∧
    (KeyBuilder.new [7]).addFields [.i64 (-3), .u16 9, .str [98]] = some bg ∧
    blt bf.bytes bg.bytes = true := ⟨_, _, rfl, rfl, by decide⟩

/-- C04 (part): with at most one string/bytes field (anywhere in the tuple) the key determines the tuple.
Missing: tuples with two or more variable-length fields, for which the claim is false (`C04_refuted`). -/
theorem C04_partial (b bf bg : KeyBuilder) (fs gs : List Field)
    (hk : fs.map Field.kind = gs.map Field.kind)
    (hv : (fs.filter (fun f => !f.kind.fixed)).length ≤ 1)
    (hf : b.addFields fs = some bf) (hg : b.addFields gs = some bg) (he : bf.bytes = bg.bytes) : fs = gs := by
  have h1 := addFields_bytes b fs
  have h2 := addFields_bytes b gs
  rw [hf] at h1; rw [hg] at h2
  cases hp : encFields b.fid fs with
  | none => simp [hp] at h1
  | some p =>
  cases hq : encFields b.fid gs with
  | none => simp [hq] at h2
  | some q =>
  simp [hp] at h1; simp [hq] at h2
  have : p = q := by
    rw [h1, h2] at he; simpa using he
  subst this
  exact encFields_inj hk hv hp hq

/-- C04: the hypothesis of `C04_partial` is met by a tuple with a string in the middle -/
example : ((([Field.i64 1, .str [1, 2], .u32 5]).filter (fun f => !f.kind.fixed)).length ≤ 1) ∧
    ∃ k, (KeyBuilder.new []).addFields [Field.i64 1, .str [1, 2], .u32 5] = some k := ⟨by decide, _, rfl⟩

/-- C04 is false of the code: two string fields can produce one key for two different tuples. -/
theorem C04_refuted : ∃ (fs gs : List Field) (bf bg : KeyBuilder),
    fs.map Field.kind = gs.map Field.kind ∧ fs ≠ gs ∧
    (KeyBuilder.new []).addFields fs = some bf ∧ (KeyBuilder.new []).addFields gs = some bg ∧
    bf.bytes = bg.bytes :=
  ⟨[.str [97, 2, 98], .str [99]], [.str [97], .str [98, 2, 99]], ⟨[1, 97, 2, 98, 2, 99], 2⟩,
   ⟨[1, 97, 2, 98, 2, 99], 2⟩, by decide, by decide, by decide, by decide, rfl⟩

private theorem neg_toInt {w : Nat} (x : BitVec w) (h : (x == BitVec.intMin w) = false) :
    (-x).toInt = - x.toInt := BitVec.toInt_neg_of_ne_intMin (by simpa using h)

private theorem map_not_blt {a b : Bytes} (h : a.length = b.length) :
    blt (a.map (fun x => ~~~x)) (b.map (fun x => ~~~x)) = blt b a := by
  have e : (fun x : UInt8 => ~~~x) = fun x => 0xFF - x := by
    funext x
    apply UInt8.toBitVec_inj.1
    rw [UInt8.toBitVec_not, UInt8.toBitVec_sub]
    have : UInt8.toBitVec 0xFF = BitVec.allOnes 8 := rfl
    rw [this, BitVec.allOnes_sub_eq_not]
  rw [e]; exact map_compl_blt h

/-- the field that DESC effectively writes (index.go:29-110) -/
def flipField : Field → Field
  | .i64 v => .i64 (-v) | .i32 v => .i32 (-v) | .i16 v => .i16 (-v)
  | .u64 v => .u64 (~~~v) | .u32 v => .u32 (~~~v) | .u16 v => .u16 (~~~v)
  | .byte v => .byte (~~~v) | .bytes s => .bytes (s.map (fun x => ~~~x)) | .str s => .str s
  | .big v b => .big (-v) b

theorem orderField_eq (o : IndexOrder) (f : Field) (ty : OrderType) {o' : IndexOrder}
    (h : o.orderField ty f = some o') :
    o.keyBuilder.addField (if ty = DESC then flipField f else f) = some o'.keyBuilder := by
  cases ty <;> cases f <;>
    simp [IndexOrder.orderField, IndexOrder.orderInt64, IndexOrder.orderInt32, IndexOrder.orderInt16,
      IndexOrder.orderUint64, IndexOrder.orderUint32, IndexOrder.orderUint16, IndexOrder.orderByte,
      IndexOrder.orderBytes, IndexOrder.orderBigInt, DESC] at h <;>
    first
    | (subst h; simp [flipField, KeyBuilder.addField, DESC]; done)
    | (obtain ⟨a, ha, rfl⟩ := h; simpa [KeyBuilder.addField, flipField, DESC] using ha)

theorem flip_kind (f : Field) : (flipField f).kind = f.kind := by cases f <;> rfl

theorem flip_lt {f g : Field} (hk : f.kind = g.kind) (hs : f.kind ≠ .str) (h1 : f.minInt = false)
    (h2 : g.minInt = false) (h3 : ¬ f.lenDiffer g) : (flipField f).lt (flipField g) ↔ g.lt f := by
  cases f <;> cases g <;> simp [Field.kind] at hk hs <;> simp only [flipField, Field.lt]
  case i64 x y => rw [neg_toInt x h1, neg_toInt y h2]; omega
  case i32 x y => rw [neg_toInt x h1, neg_toInt y h2]; omega
  case i16 x y => rw [neg_toInt x h1, neg_toInt y h2]; omega
  case u64 x y => rw [BitVec.toNat_not, BitVec.toNat_not]; omega
  case u32 x y => rw [BitVec.toNat_not, BitVec.toNat_not]; omega
  case u16 x y => rw [BitVec.toNat_not, BitVec.toNat_not]; omega
  case byte x y =>
    rw [UInt8.lt_iff_toNat_lt, UInt8.lt_iff_toNat_lt, ← UInt8.toNat_toBitVec, ← UInt8.toNat_toBitVec,
      UInt8.toBitVec_not, UInt8.toBitVec_not, BitVec.toNat_not, BitVec.toNat_not,
      UInt8.toNat_toBitVec, UInt8.toNat_toBitVec]
    have := x.toNat_lt; have := y.toNat_lt; omega
  case bytes x y =>
    simp only [Field.lenDiffer, ne_eq, Decidable.not_not] at h3
    rw [map_not_blt h3]
  case big x b y b' => omega

private theorem lenDiffer_flip (f g : Field) : (flipField f).lenDiffer (flipField g) ↔ f.lenDiffer g := by
  cases f <;> cases g <;> simp only [flipField, Field.lenDiffer, List.length_map]

private theorem lenDiffer_symm (f g : Field) : f.lenDiffer g → g.lenDiffer f := by
  cases f <;> cases g <;> simp only [Field.lenDiffer] <;> intro h
  all_goals first | exact h.elim | exact fun e => h e.symm

private theorem lt_irrefl' (f : Field) : ¬ f.lt f := by
  cases f <;> simp [Field.lt, blt_irrefl]

theorem flip_inj {f g : Field} (hk : f.kind = g.kind) (hs : f.kind ≠ .str) (h1 : f.minInt = false)
    (h2 : g.minInt = false) (h3 : ¬ f.lenDiffer g) (h : flipField f = flipField g) : f = g := by
  rcases field_tri hk with h' | h' | h'
  · have := (flip_lt hk.symm (hk ▸ hs) h2 h1 (fun e => h3 (lenDiffer_symm _ _ e))).2 h'
    rw [h] at this; exact (lt_irrefl' _ this).elim
  · exact h'
  · have := (flip_lt hk hs h1 h2 h3).2 h'
    rw [h] at this; exact (lt_irrefl' _ this).elim

private theorem payload_length' {a b : Field} {p q : Bytes} (hab : a.kind = b.kind) (has : a.kind ≠ .str)
    (hd : ¬ a.lenDiffer b) (hp : payload a = some p) (hq : payload b = some q) : p.length = q.length := by
  by_cases hfix : a.kind.fixed = true
  · exact payload_length hab hfix hp hq
  · cases a <;> simp [Field.kind, Kind.fixed] at hfix
    · exact absurd rfl has
    · cases b <;> simp [Field.kind] at hab
      simp [payload] at hp hq; subst hp; subst hq
      simpa [Field.lenDiffer] using hd

private theorem orderedBy_of' (k : KeyBuilder) {ka kb : KeyBuilder} (a b : Field) (hab : a.kind = b.kind)
    (has : a.kind ≠ .str) (hd : ¬ a.lenDiffer b)
    (ha : k.addField a = some ka) (hb : k.addField b = some kb) :
    OrderedBy ka.bytes kb.bytes (a.lt b) (a = b) := by
  rw [addField_eq] at ha hb
  cases hp : payload a with
  | none => simp [hp] at ha
  | some p =>
  cases hq : payload b with
  | none => simp [hq] at hb
  | some q =>
  simp [hp] at ha; simp [hq] at hb
  have hl := payload_length' hab has hd hp hq
  intro s t
  simp only [KeyBuilder.bytes, ← ha, ← hb, List.append_assoc, List.cons_append,
    blt_append_left, cons_blt_same]
  rw [blt_append_same_len hl]
  rw [payload_lt hab hp hq]
  have e : p = q ↔ a = b := by
    constructor
    · intro h; subst h; exact payload_inj hab hp hq
    · intro h; subst h; rw [hp] at hq; simpa using hq
  rw [e]
  refine ⟨Iff.rfl, ?_⟩
  intro h
  simp only [List.append_cancel_left_eq, List.cons.injEq, true_and] at h
  exact e.1 ((List.append_inj h hl).1)

/-- C05 (part): DESC sorts in exactly the reverse value order, ASC in value order.
Missing: signed fields holding the smallest integer of their width, and byte strings of different
length; both cases are false (`C05_refuted_minInt`, `C05_refuted_bytes`). -/
theorem C05_partial (o of' og : IndexOrder) (f g : Field) (ty : OrderType) (hk : f.kind = g.kind)
    (h1 : ty = DESC → f.minInt = false ∧ g.minInt = false) (h3 : ¬ f.lenDiffer g)
    (hf : o.orderField ty f = some of') (hg : o.orderField ty g = some og) :
    OrderedBy of'.bytes og.bytes (if ty = DESC then g.lt f else f.lt g) (f = g) := by
  have hs : f.kind ≠ .str := by
    intro h; cases f <;> simp [Field.kind] at h; simp [IndexOrder.orderField] at hf
  have hf' := orderField_eq o f ty hf
  have hg' := orderField_eq o g ty hg
  by_cases hty : ty = DESC
  · simp only [hty, if_true] at hf' hg' ⊢
    obtain ⟨m1, m2⟩ := h1 hty
    have := orderedBy_of' _ (flipField f) (flipField g) (by rw [flip_kind, flip_kind, hk]) (by rwa [flip_kind])
      (by rwa [lenDiffer_flip]) hf' hg'
    rw [show (flipField f).lt (flipField g) = g.lt f from propext (flip_lt hk hs m1 m2 h3),
      show (flipField f = flipField g) = (f = g) from propext ⟨flip_inj hk hs m1 m2 h3, fun h => by rw [h]⟩] at this
    exact this
  · simp only [hty, if_false] at hf' hg' ⊢
    exact orderedBy_of' _ f g hk hs h3 hf' hg'

example : ∃ o1 o2, (IndexOrder.mk (KeyBuilder.new [])).orderField DESC (.i64 5) = some o1 ∧
    (IndexOrder.mk (KeyBuilder.new [])).orderField DESC (.i64 (-5)) = some o2 ∧
    blt o1.bytes o2.bytes = true := ⟨_, _, rfl, rfl, by decide⟩

private theorem min_of_minInt {w : Nat} (hw : 0 < w) (x y : BitVec w) (hx : (x == BitVec.intMin w) = true) (hy : (y == BitVec.intMin w) = false) :
    (-x).toInt < (-y).toInt := by
  have hx : x = BitVec.intMin w := by simpa using hx
  have hy' : y ≠ BitVec.intMin w := by simpa using hy
  subst hx
  rw [BitVec.neg_intMin]
  have h1 : (BitVec.intMin w).toInt ≤ (-y).toInt := BitVec.toInt_intMin_le _
  have h2 : (BitVec.intMin w).toInt ≠ (-y).toInt := by
    intro e
    have := BitVec.eq_of_toInt_eq e
    apply hy'
    rw [← BitVec.neg_neg (x := y), ← this, BitVec.neg_intMin]
  omega

private theorem descLt_bv {w : Nat} (hw : 0 < w) (x y : BitVec w) : (-x).toInt < (-y).toInt ↔
    (y == BitVec.intMin w) = false ∧ ((x == BitVec.intMin w) = true ∨ y.toInt < x.toInt) := by
  cases hy : (y == BitVec.intMin w) with
  | true =>
    cases hx : (x == BitVec.intMin w) with
    | true =>
      have e1 : x = BitVec.intMin w := by simpa using hx
      have e2 : y = BitVec.intMin w := by simpa using hy
      subst e1; subst e2; simp
    | false => have := min_of_minInt hw y x hy hx; constructor <;> intro h <;> first | omega | exact absurd h.1 (by simp)
  | false =>
    cases hx : (x == BitVec.intMin w) with
    | true => simp [min_of_minInt hw x y hx hy]
    | false => rw [neg_toInt x hx, neg_toInt y hy]; simp

theorem flip_lt_exact {f g : Field} (hk : f.kind = g.kind) (hfix : f.kind.fixed = true) : (flipField f).lt (flipField g) ↔ f.descLt g := by
  have gen : f.minInt = false → g.minInt = false → ((flipField f).lt (flipField g) ↔ f.descLt g) := by
    intro h1 h2
    rw [flip_lt hk (by intro h; rw [h] at hfix; simp [Kind.fixed] at hfix) h1 h2 (by cases f <;> cases g <;> simp [Field.lenDiffer, Field.kind, Kind.fixed] at hfix ⊢)]
    simp [Field.descLt, h1, h2]
  cases f <;> cases g <;> simp [Field.kind] at hk
  case i64 x y => exact descLt_bv (by decide) x y
  case i32 x y => exact descLt_bv (by decide) x y
  case i16 x y => exact descLt_bv (by decide) x y
  all_goals exact gen rfl rfl

theorem flip_inj_fixed {f g : Field} (hk : f.kind = g.kind) (hfix : f.kind.fixed = true) (h : flipField f = flipField g) : f = g := by
  cases f <;> cases g <;> simp [Field.kind, Kind.fixed] at hk hfix <;> simp only [flipField, Field.i64.injEq, Field.i32.injEq, Field.i16.injEq, Field.u64.injEq,
    Field.u32.injEq, Field.u16.injEq, Field.byte.injEq, Field.big.injEq] at h ⊢
  case i64 x y => exact BitVec.neg_inj.1 h
  case i32 x y => exact BitVec.neg_inj.1 h
  case i16 x y => exact BitVec.neg_inj.1 h
  case u64 x y => exact BitVec.not_inj.1 h
  case u32 x y => exact BitVec.not_inj.1 h
  case u16 x y => exact BitVec.not_inj.1 h
  case byte x y => exact UInt8.not_inj.1 h
  case big x b y b' => omega

/-- C05, for all values of all field types of fixed width: DESC sorts the smallest integer of a signed type first, and otherwise in exactly
the reverse order. -/
theorem C05_exact (o of' og : IndexOrder) (f g : Field) (hk : f.kind = g.kind) (hfix : f.kind.fixed = true)
    (hf : o.orderField DESC f = some of') (hg : o.orderField DESC g = some og) :
    OrderedBy of'.bytes og.bytes (f.descLt g) (f = g) := by
  have hs : f.kind ≠ .str := by intro h; rw [h] at hfix; simp [Kind.fixed] at hfix
  have hd : ¬ f.lenDiffer g := by cases f <;> cases g <;> simp [Field.lenDiffer, Field.kind, Kind.fixed] at hfix ⊢
  have hf' := orderField_eq o f DESC hf
  have hg' := orderField_eq o g DESC hg
  simp only [if_true] at hf' hg'
  have := orderedBy_of' _ (flipField f) (flipField g) (by rw [flip_kind, flip_kind, hk]) (by rwa [flip_kind]) (by rwa [lenDiffer_flip]) hf' hg'
  rw [show (flipField f).lt (flipField g) = f.descLt g from propext (flip_lt_exact hk hfix),
    show (flipField f = flipField g) = (f = g) from propext ⟨flip_inj_fixed hk hfix, fun h => by rw [h]⟩] at this
  exact this

/-- the smallest 16-bit integer is sorted before 3, which is sorted before -3 -/
example : ∃ o1 o2 o3, (IndexOrder.mk (KeyBuilder.new [])).orderField DESC (.i16 (BitVec.intMin 16)) = some o1 ∧
    (IndexOrder.mk (KeyBuilder.new [])).orderField DESC (.i16 3) = some o2 ∧ (IndexOrder.mk (KeyBuilder.new [])).orderField DESC (.i16 (-3)) = some o3 ∧
    blt o1.bytes o2.bytes = true ∧ blt o2.bytes o3.bytes = true ∧ (Field.i16 (BitVec.intMin 16)).descLt (.i16 3) :=
  ⟨_, _, _, rfl, rfl, rfl, by decide, by decide, rfl, Or.inl rfl⟩

/-- C05 is false at the smallest int64: declared DESC it sorts before 0 (it should come last). -/
theorem C05_refuted_minInt :
    blt ((IndexOrder.mk (KeyBuilder.new [])).orderInt64 (BitVec.intMin 64) DESC).bytes
        ((IndexOrder.mk (KeyBuilder.new [])).orderInt64 0 DESC).bytes = true ∧
    (BitVec.intMin 64).toInt < (0 : BitVec 64).toInt := by decide

/-- C05 is false for byte strings where one is a prefix of the other: "a" sorts before "ab" in both directions. -/
theorem C05_refuted_bytes :
    blt ((IndexOrder.mk (KeyBuilder.new [])).orderBytes [97] DESC).1.bytes
        ((IndexOrder.mk (KeyBuilder.new [])).orderBytes [97, 98] DESC).1.bytes = true ∧
    blt ([97] : Bytes) [97, 98] = true := by decide

/-- C06 (part): ordering by a byte string ascending leaves the caller's slice unchanged.
Missing: DESC, for which the claim is false (`C06_refuted`). -/
theorem C06_partial (o : IndexOrder) (b : Bytes) : (o.orderBytes b ASC).2 = b := by
  simp [IndexOrder.orderBytes, ASC, DESC]

/-- C06 is false: for every non-empty byte string DESC changes the record, and evaluating the order a
second time on the record gives another key. -/
theorem C06_refuted (o : IndexOrder) (b : Bytes) (hb : b ≠ []) :
    (o.orderBytes b DESC).2 ≠ b ∧
    (o.orderBytes (o.orderBytes b DESC).2 DESC).1.bytes ≠ (o.orderBytes b DESC).1.bytes := by
  have hne : ∀ x : UInt8, ~~~x ≠ x := by
    intro x h
    have := congrArg UInt8.toBitVec h
    rw [UInt8.toBitVec_not] at this
    have h2 : ∀ v : BitVec 8, ~~~v ≠ v := by decide
    exact h2 _ this
  have h2 : b.map (fun x => ~~~x) ≠ b := by
    cases b with
    | nil => exact absurd rfl hb
    | cons x xs => intro h; simp only [List.map_cons, List.cons.injEq] at h; exact hne x h.1
  refine ⟨by simpa [IndexOrder.orderBytes] using h2, ?_⟩
  simp only [IndexOrder.orderBytes, if_true, IndexOrder.bytes, KeyBuilder.bytes, KeyBuilder.addBytesField, KeyBuilder.putFieldID]
  intro h
  simp only [List.append_cancel_left_eq] at h
  cases b with
  | nil => exact absurd rfl hb
  | cons x xs => simp only [List.map_cons, List.cons.injEq] at h; exact hne (~~~x) h.1

/-- An index order function that orders by the byte strings of a record, one after the other, each with its direction
(index.go:92-101): the key so far, and the byte strings as they are afterwards. -/
def orderByAll (o : IndexOrder) : List (Bytes × OrderType) → IndexOrder × List (Bytes × OrderType)
  | [] => (o, [])
  | (b, ty) :: fs =>
    let (o', b') := o.orderBytes b ty
    let (o'', fs') := orderByAll o' fs
    (o'', (b', ty) :: fs')

/-- the record after `n` evaluations of the order function (index.go:92-101) -/
def afterEvals (o : IndexOrder) (fs : List (Bytes × OrderType)) : Nat → List (Bytes × OrderType)
  | 0 => fs
  | n + 1 => (orderByAll o (afterEvals o fs n)).2

/-- the record with the byte strings that are ordered descending complemented -/
def Spec.flipped (fs : List (Bytes × OrderType)) : List (Bytes × OrderType) :=
  fs.map (fun f => (if f.2 = DESC then f.1.map (fun x => ~~~x) else f.1, f.2))

theorem map_not_twice (b : Bytes) : (b.map (fun x => ~~~x)).map (fun x : UInt8 => ~~~x) = b := by
  induction b with
  | nil => rfl
  | cons x xs ih => rw [List.map_cons, List.map_cons, ih, UInt8.not_not]

theorem flipped_twice (fs : List (Bytes × OrderType)) : Spec.flipped (Spec.flipped fs) = fs := by
  unfold Spec.flipped
  rw [List.map_map]
  conv => rhs; rw [← List.map_id fs]
  apply List.map_congr_left
  rintro ⟨b, ty⟩ _
  by_cases h : ty = DESC
  · simp only [Function.comp, h, if_true, map_not_twice]; rfl
  · simp only [Function.comp, h, if_false]; rfl

theorem orderByAll_record (o : IndexOrder) (fs : List (Bytes × OrderType)) : (orderByAll o fs).2 = Spec.flipped fs := by
  induction fs generalizing o with
  | nil => rfl
  | cons f fs ih =>
    obtain ⟨b, ty⟩ := f
    simp only [orderByAll, ih]
    simp [Spec.flipped, IndexOrder.orderBytes]

/-- the keys of two records whose byte strings have the same lengths and directions -/
theorem orderByAll_inj {o o' : IndexOrder} {fs gs : List (Bytes × OrderType)}
    (hl : fs.map (fun f => (f.1.length, f.2)) = gs.map (fun f => (f.1.length, f.2)))
    (hb : o.bytes.length = o'.bytes.length) (hid : o.keyBuilder.fid = o'.keyBuilder.fid) :
    (orderByAll o fs).1.bytes = (orderByAll o' gs).1.bytes → o.bytes = o'.bytes ∧ fs = gs := by
  induction fs generalizing gs o o' with
  | nil =>
    cases gs with
    | nil => intro h; exact ⟨h, rfl⟩
    | cons g gs => simp at hl
  | cons f fs ih =>
    cases gs with
    | nil => simp at hl
    | cons g gs =>
      obtain ⟨b, ty⟩ := f
      obtain ⟨c, ty'⟩ := g
      simp only [List.map_cons, List.cons.injEq, Prod.mk.injEq] at hl
      obtain ⟨⟨hbc, rfl⟩, hl⟩ := hl
      intro h
      simp only [orderByAll] at h
      have hflen : (if ty = DESC then b.map (fun x => ~~~x) else b).length = (if ty = DESC then c.map (fun x => ~~~x) else c).length := by
        split <;> simp [hbc]
      obtain ⟨h1, h2⟩ := ih hl (by
          simp only [IndexOrder.orderBytes, IndexOrder.bytes, KeyBuilder.bytes, KeyBuilder.addBytesField, KeyBuilder.putFieldID, List.length_append] at hb ⊢
          rw [hflen, hb]; rfl)
        (by simp [IndexOrder.orderBytes, KeyBuilder.addBytesField, KeyBuilder.putFieldID, hid]) h
      simp only [IndexOrder.orderBytes, IndexOrder.bytes, KeyBuilder.bytes, KeyBuilder.addBytesField, KeyBuilder.putFieldID] at h1 hb
      obtain ⟨h3, h4⟩ := List.append_inj h1 (by simp [hb])
      obtain ⟨h5, _⟩ := List.append_inj h3 hb
      refine ⟨h5, ?_⟩
      rw [h2]
      congr 2
      by_cases hty : ty = DESC
      · rw [if_pos hty, if_pos hty] at h4
        have := congrArg (List.map (fun x : UInt8 => ~~~x)) h4
        rwa [map_not_twice, map_not_twice] at this
      · rw [if_neg hty, if_neg hty] at h4
        exact h4

theorem flipped_eq_iff (fs : List (Bytes × OrderType)) : Spec.flipped fs = fs ↔ ∀ f ∈ fs, f.2 = DESC → f.1 = [] := by
  have hne : ∀ x : UInt8, ~~~x ≠ x := by
    intro x h
    have := congrArg UInt8.toBitVec h
    rw [UInt8.toBitVec_not] at this
    have h2 : ∀ v : BitVec 8, ~~~v ≠ v := by decide
    exact h2 _ this
  induction fs with
  | nil => simp [Spec.flipped]
  | cons f fs ih =>
    obtain ⟨b, ty⟩ := f
    unfold Spec.flipped at ih ⊢
    simp only [List.map_cons, List.cons.injEq, List.forall_mem_cons, ih]
    constructor
    · rintro ⟨h1, h2⟩
      refine ⟨fun hty => ?_, h2⟩
      rw [if_pos hty] at h1
      have h1 := (Prod.mk.injEq _ _ _ _ ▸ h1).1
      cases b with
      | nil => rfl
      | cons x xs => simp only [List.map_cons, List.cons.injEq] at h1; exact (hne x h1.1).elim
    · rintro ⟨h1, h2⟩
      refine ⟨?_, h2⟩
      by_cases hty : ty = DESC
      · rw [if_pos hty, h1 hty]; rfl
      · rw [if_neg hty]

/-- C06, exactly: every evaluation complements the byte strings that are ordered descending, so the record is as it was after each second
one, and the (n+1)-th evaluation gives the key of the first if and only if n is even or all those byte strings are empty. -/
theorem C06_exact (o : IndexOrder) (fs : List (Bytes × OrderType)) (n : Nat) :
    afterEvals o fs n = (if n % 2 = 0 then fs else Spec.flipped fs) ∧
    ((orderByAll o (afterEvals o fs n)).1.bytes = (orderByAll o fs).1.bytes ↔ n % 2 = 0 ∨ ∀ f ∈ fs, f.2 = DESC → f.1 = []) := by
  have h1 : ∀ n, afterEvals o fs n = if n % 2 = 0 then fs else Spec.flipped fs := by
    intro n
    induction n with
    | zero => rfl
    | succ n ih =>
      rw [afterEvals, orderByAll_record, ih]
      by_cases hn : n % 2 = 0
      · rw [if_pos hn, if_neg (by omega)]
      · rw [if_neg hn, if_pos (by omega), flipped_twice]
  refine ⟨h1 n, ?_⟩
  rw [h1 n]
  by_cases hn : n % 2 = 0
  · rw [if_pos hn]; exact ⟨fun _ => Or.inl hn, fun _ => rfl⟩
  · rw [if_neg hn, ← flipped_eq_iff]
    constructor
    · intro h
      refine Or.inr (orderByAll_inj ?_ rfl rfl h).2
      unfold Spec.flipped
      rw [List.map_map]
      apply List.map_congr_left
      rintro ⟨b, ty⟩ _
      by_cases hty : ty = DESC <;> simp [Function.comp, hty]
    · rintro (h | h)
      · exact (hn h).elim
      · rw [h]

/-- `C06_exact` at a record with two byte strings, the second of them ordered descending: the second evaluation gives another key -/
example : afterEvals (IndexOrder.mk (KeyBuilder.new [])) [([97], ASC), ([98, 0], DESC)] 1 = [([97], ASC), ([157, 255], DESC)] ∧
    (orderByAll (IndexOrder.mk (KeyBuilder.new [])) (afterEvals (IndexOrder.mk (KeyBuilder.new [])) [([97], ASC), ([98, 0], DESC)] 1)).1.bytes ≠
      (orderByAll (IndexOrder.mk (KeyBuilder.new [])) [([97], ASC), ([98, 0], DESC)]).1.bytes ∧
    afterEvals (IndexOrder.mk (KeyBuilder.new [])) [([97], ASC), ([98, 0], DESC)] 2 = [([97], ASC), ([98, 0], DESC)] := by
  decide

end Bond
