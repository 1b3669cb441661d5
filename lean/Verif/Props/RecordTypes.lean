import Verif.RecordTypes
import Verif.Props.Writes
/-
Property C90: record types and serializers that work through methods of the record.
-/
namespace Bond
open Spec
variable {M F : Type}

/-! ## C90 A serializer works for tables of structs and for tables of pointers

Full statement: with the msgp_gen or the protobuf serializer, a table of messages and a table of pointers to messages store
every message that can be encoded, and read back an equal one. True for msgp_gen; false for protobuf: with pointers
nothing can be written. -/

/-- the record that holds message `m` in a table whose records have `d` stars -/
def Spec.recordOf (m : M) : (d : Nat) → Ptr M d
  | 0 => m
  | d + 1 => (some (Spec.recordOf m d) : Option (Ptr M d))

/-- the generated methods read back into a new object what they wrote -/
def Spec.GenRight (c : Codec M) : Prop :=
  c.encodable = true ∧ c.decodable = true ∧ ∀ m b, c.enc m = some b → c.dec c.zero b = (m, false)

/-- what msgp_gen writes for a message -/
theorem genSer_recordOf {c : Codec M} (he : c.encodable = true) {d : Nat} (hd : d ≤ 1) (m : M) :
    c.genSer d (Spec.recordOf m d) = c.enc m := by
  have hcall : (c.callEncode 1 (some m : Option M)).bytes = c.enc m := by
    show SRes.bytes (match c.enc m with | some b => .ok b | none => .err) = c.enc m
    cases c.enc m <;> rfl
  match d, hd with
  | 0, _ =>
    show SRes.bytes (if c.encodable = true then c.callEncode 1 (some m : Option M) else _) = _
    rw [if_pos he, hcall]
  | 1, _ =>
    show SRes.bytes (if c.encodable = true then c.callEncode 1 (some m : Option M) else SRes.err) = _
    rw [if_pos he, hcall]

/-- C90 for msgp_gen: a message is written as its encoding, from a table of structs and from a table of pointers, and
read back from it, whatever the variable held before. -/
theorem C90_gen {c : Codec M} (hc : Spec.GenRight c) {d : Nat} (hd : d ≤ 1) {m : M} {b : Bytes} (hb : c.enc m = some b) :
    c.genSer d (Spec.recordOf m d) = some b ∧ ∀ old, c.genDeser d old b = some (Spec.recordOf m d) := by
  obtain ⟨he, hdec, hr⟩ := hc
  have hr' := hr m b hb
  refine ⟨by rw [genSer_recordOf he hd, hb], fun old => ?_⟩
  match d, hd with
  | 0, _ =>
    simp [Codec.genDeser, Codec.genDeserialize, Codec.makeValue, hdec, Codec.decodeRoot, hr', SRes.record, Spec.recordOf]
  | 1, _ =>
    simp [Codec.genDeser, Codec.genDeserialize, Codec.makeValue, hdec, Codec.decodeRoot, hr', SRes.record, Spec.recordOf]

/-- a nil record is not written -/
theorem gen_nil (c : Codec M) : c.genSer 1 (none : Option M) = none := by
  unfold Codec.genSer Codec.genSerialize
  cases h : c.encodable <;> simp [Codec.isEncodable, h, Codec.callEncode, SRes.bytes]

/-- C90 for msgp_gen, bytes that are no encoding: reading them is an error, for both kinds of tables. -/
theorem C90_gen_bad {c : Codec M} (hd : c.decodable = true) {d : Nat} (hd1 : d ≤ 1) {b : Bytes} (hb : (c.dec c.zero b).2 = true) (old : Ptr M d) :
    c.genDeser d old b = none := by
  have hb' : c.dec c.zero b = ((c.dec c.zero b).1, true) := by rw [← hb]
  match d, hd1 with
  | 0, _ =>
    simp only [Codec.genDeser, Codec.genDeserialize, Codec.makeValue, hd, Codec.decodeRoot, if_true]
    rw [hb']; rfl
  | 1, _ =>
    simp only [Codec.genDeser, Codec.genDeserialize, Codec.makeValue, hd, Codec.decodeRoot, if_true]
    rw [hb']; rfl

/-- C90 for msgp_gen, as what the properties about tables ask of a serializer: a table of structs or pointers reads back
what it wrote, also into an object used before. -/
theorem C90_gen_table {c : Codec M} (hc : Spec.GenRight c) {d : Nat} (hd : d ≤ 1) (t : Table (Ptr M d) F)
    (hs : t.ser = c.genSer d) (hds : t.deser = c.genDeser d) : t.RoundTrip := by
  intro x b hx o
  rw [hs] at hx
  rw [hds]
  have key : ∀ m b', c.genSer d (Spec.recordOf m d) = some b' → c.enc m = some b' := by
    intro m b' h
    rwa [genSer_recordOf hc.1 hd] at h
  match d, hd, x with
  | 0, hd, (m : M) => exact (C90_gen (d := 0) hc hd (key m b hx)).2 o
  | 1, hd, (some m : Option M) => exact (C90_gen (d := 1) hc hd (key m b hx)).2 o
  | 1, hd, (none : Option M) => rw [gen_nil c] at hx; cases hx

/-- the protobuf serializer can write and read messages, each with the generated or the standard method, and reads back
into a new object what it wrote -/
def Spec.ProtoRight (c : Codec M) (cfg : ProtoCfg) : Prop :=
  (c.hasMarshalVT = true ∨ cfg.encoder = true ∧ c.isV1 = true) ∧
  (c.hasUnmarshalVT = true ∨ cfg.decoder = true ∧ c.isV1 = true) ∧
  ∀ m b, (c.marshalVT m = some b ∨ c.marshal m = some b) → c.unmarshalVT c.zero b = (m, false) ∧ c.unmarshal c.zero b = (m, false)

/-- what the protobuf serializer writes for a message of a table of structs -/
theorem protoSer_zero (c : Codec M) (cfg : ProtoCfg) (m : M) : c.protoSer cfg 0 m =
    if c.hasMarshalVT = true then c.marshalVT m else if (cfg.encoder && c.isV1) = true then c.marshal m else none := by
  show SRes.bytes (if c.hasMarshalVT = true then (match c.marshalVT m with | some b => .ok b | none => .err)
    else if (cfg.encoder && c.isV1) = true then (match c.marshal m with | some b => .ok b | none => .err) else .err) = _
  split
  · cases c.marshalVT m <;> rfl
  · split
    · cases c.marshal m <;> rfl
    · rfl

/-- C90 for protobuf and a table of structs: rows are read back into a new object.
Missing for the full C90: tables of pointers, see `C90_refuted_pointer`; a serializer with an Encoder and no Decoder, see
`C90_refuted_mixed`. `UnmarshalVT` adds to what the object holds, which makes C60 false for it. -/
theorem C90_proto_partial {c : Codec M} {cfg : ProtoCfg} (hc : Spec.ProtoRight c cfg) (t : Table (Ptr M 0) F)
    (hs : t.ser = c.protoSer cfg 0) (hds : t.deser = c.protoDeser cfg 0) (hz : t.nil = c.zero) :
    t.RoundTripFresh ∧ ∀ m : M, (c.marshalVT m).isSome → (c.marshal m).isSome → (t.ser m).isSome := by
  obtain ⟨h1, h2, h3⟩ := hc
  constructor
  · intro (m : M) b hb
    rw [hs] at hb
    rw [hds, hz]
    have hm : c.marshalVT m = some b ∨ c.marshal m = some b := by
      rw [protoSer_zero c cfg (m : M)] at hb
      split at hb
      · exact Or.inl hb
      · split at hb
        · exact Or.inr hb
        · cases hb
    obtain ⟨u1, u2⟩ := h3 m b hm
    unfold Codec.protoDeser Codec.protoDeserialize
    rcases h2 with h2 | ⟨h2, h2'⟩
    · simp only [h2, if_true, u1]; rfl
    · simp only [h2, h2', Bool.and_self, if_true, u1, u2, ite_self]; rfl
  · intro m hv hm
    rw [hs]
    obtain ⟨bv, hv⟩ := Option.isSome_iff_exists.1 hv
    obtain ⟨bm, hm⟩ := Option.isSome_iff_exists.1 hm
    rw [protoSer_zero c cfg m]
    rcases h1 with h1 | ⟨h1, h1'⟩
    · simp [h1, hv]
    · cases hvt : c.hasMarshalVT <;> simp [h1, h1', hv, hm]

/-- C90 is false for protobuf and a table of pointers, for every message type and every configuration: no record can be
encoded, nothing can be decoded, and an Insert of any rows fails. -/
theorem C90_refuted_pointer (c : Codec M) (cfg : ProtoCfg) (d : Nat) (t : Table (Ptr M (d + 1)) F)
    (hs : t.ser = c.protoSer cfg (d + 1)) (hds : t.deser = c.protoDeser cfg (d + 1)) :
    (∀ r, t.ser r = none) ∧ (∀ o b, t.deser o b = none) ∧
    ∀ (_ : t.WF) (env : Env (Ptr M (d + 1))) (_ : env.OK t) (_ : t.FilterSound) (db : KV) (f : F) (m : Rows (Ptr M (d + 1)))
      (_ : Holds t db m) (_ : FilterCovers t f m) (trs : List (Ptr M (d + 1))) (_ : trs ≠ []) (_ : (trs.map t.pk).Nodup),
      (t.insert env db f none trs).err ≠ none ∧ (t.insert env db f none trs).db = db := by
  have hnone : ∀ r, t.ser r = none := fun r => by rw [hs]; rfl
  refine ⟨hnone, fun o b => by rw [hds]; rfl, ?_⟩
  intro wf env ok fs db f m hH hF trs hne hnd
  have he : (t.insert env db f none trs).err ≠ none := by
    intro he
    obtain ⟨m', hH', hall, _⟩ := C11_effect wf ok fs hH hF hnd he
    obtain ⟨x, hx⟩ := List.exists_mem_of_ne_nil trs hne
    obtain ⟨b, hb, _⟩ := hH'.present _ _ (hall x hx)
    rw [hnone] at hb; cases hb
  exact ⟨he, ((C13 t env db f (.insert trs)).1 he).1⟩

/-- C90 is false for msgp_gen and records with two stars or more: nothing can be encoded. -/
theorem C90_refuted_stars (c : Codec M) (d : Nat) (r : Ptr M (d + 2)) : c.genSer (d + 2) r = none := by
  unfold Codec.genSer Codec.genSerialize
  simp [Codec.isEncodable, SRes.bytes]

/-- a message type with two bytes, and all methods -/
def exMsgCodec : Codec (UInt8 × UInt8) where
  zero := (0, 0)
  encodable := true
  decodable := true
  byValue := false
  enc := fun m => some [m.1, m.2]
  dec := fun _ b => match b with | [a, g] => ((a, g), false) | _ => ((0, 0), true)
  hasMarshalVT := false
  hasUnmarshalVT := false
  isV1 := true
  marshalVT := fun m => some [m.1, m.2]
  unmarshalVT := fun _ b => match b with | [a, g] => ((a, g), false) | _ => ((0, 0), true)
  marshalNil := some []
  marshal := fun m => some [m.1, m.2]
  unmarshal := fun _ b => match b with | [a, g] => ((a, g), false) | _ => ((0, 0), true)

/-- C90 is false for a protobuf serializer with an Encoder and no Decoder: a table of structs stores rows that nothing can
read. -/
theorem C90_refuted_mixed :
    exMsgCodec.protoSer ⟨true, false⟩ 0 (1, 5) = some [1, 5] ∧ exMsgCodec.protoDeser ⟨true, false⟩ 0 (0, 0) [1, 5] = none := ⟨rfl, rfl⟩

/-- the hypotheses of `C90_gen` and `C90_proto_partial` hold for it -/
example : Spec.GenRight exMsgCodec ∧ Spec.ProtoRight exMsgCodec ⟨true, true⟩ := by
  refine ⟨⟨rfl, rfl, ?_⟩, Or.inr ⟨rfl, rfl⟩, Or.inr ⟨rfl, rfl⟩, ?_⟩
  · rintro ⟨a, g⟩ b h; simp only [exMsgCodec, Option.some.injEq] at h; subst h; rfl
  · rintro ⟨a, g⟩ b h
    simp only [exMsgCodec, Option.some.injEq, or_self] at h
    subst h; exact ⟨rfl, rfl⟩

/-- the hypotheses of `C90_gen_bad` -/
example : exMsgCodec.decodable = true ∧ (exMsgCodec.dec exMsgCodec.zero [1]).2 = true := ⟨rfl, rfl⟩

/-- a table of pointers and a table of structs with the msgp_gen serializer -/
example : exMsgCodec.genSer 1 (some (1, 5) : Option _) = some [1, 5] ∧ exMsgCodec.genDeser 1 (none : Option _) [1, 5] = some (some (1, 5) : Option _) ∧
    exMsgCodec.genSer 0 (1, 5) = some [1, 5] ∧ exMsgCodec.genDeser 0 (9, 9) [1, 5] = some ((1, 5) : UInt8 × UInt8) := ⟨rfl, rfl, rfl, rfl⟩

end Bond
