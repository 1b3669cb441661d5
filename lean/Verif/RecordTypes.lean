import Verif.Table
/-
Model of how the serializers of serializers/ that work through methods of the record treat record types: msgp_gen.go
(through utils/reflect.go) and protobuf.go. A table of records `T` hands `*T` to its serializer
(table.go:412, 541, 739, table_unsafe.go:73, 165), so a table of structs hands `*Msg` and a table of pointers hands `**Msg`.
Pointers are values here (`none` is nil): who else holds the pointer is not modelled.
-/
namespace Bond
variable {M : Type}

/-- The Go type with `d` stars in front of the message type `M` (reflect.Type of serializers/msgp_gen.go:19 and
utils/reflect.go:19-32): values of it, `none` being a nil pointer. -/
def Ptr (M : Type) : Nat → Type
  | 0 => M
  | d + 1 => Option (Ptr M d)

/-- How a call of a serializer ends (msgp_gen.go:16-38, 68-79; protobuf.go:38-70): with a result, with an error, or in a
panic. -/
inductive SRes (α : Type)
  | ok (a : α)
  | err
  | panic

/-- the methods that the code generators write for a message type (`msgp.Encodable`, `msgp.Decodable` of
msgp_gen.go:17, 71; `MarshalVT`, `UnmarshalVT` of protobuf.go:16-22; `ProtobufMessageV1` of protobuf.go:32-36), and the
`Encoder` and `Decoder` of protobuf.go:24-30. `byValue`: EncodeMsg has a value receiver (msgp generates one for small
structs). A method with a pointer receiver belongs to `*Msg`, one with a value receiver to `Msg` and `*Msg`; neither
belongs to `**Msg`. Decoding answers the object as it is afterwards, also when it fails. -/
structure Codec (M : Type) where
  zero : M
  encodable : Bool
  decodable : Bool
  byValue : Bool
  enc : M → Option Bytes
  dec : M → Bytes → M × Bool
  hasMarshalVT : Bool
  hasUnmarshalVT : Bool
  isV1 : Bool
  marshalVT : M → Option Bytes
  unmarshalVT : M → Bytes → M × Bool
  marshalNil : Option Bytes
  marshal : M → Option Bytes
  unmarshal : M → Bytes → M × Bool

/-- `i.(msgp.Encodable)`, serializers/msgp_gen.go:17, 21: does a value with `d` stars have EncodeMsg -/
def Codec.isEncodable (c : Codec M) : Nat → Bool
  | 0 => c.encodable && c.byValue
  | 1 => c.encodable
  | _ => false

/-- `msgp.Encode(&buf, e)`, serializers/msgp_gen.go:32: EncodeMsg of a nil pointer panics -/
def Codec.callEncode (c : Codec M) : (d : Nat) → Ptr M d → SRes Bytes
  | 0, m => match c.enc m with
    | some b => .ok b
    | none => .err
  | 1, (p : Option M) => match p with
    | some m => match c.enc m with
      | some b => .ok b
      | none => .err
    | none => .panic
  | _, _ => .err

/-- serializers/msgp_gen.go:16-38 `Serialize` of a value with `d` stars: what is not encodable is unwrapped once. `Elem()` of a
nil pointer has no `Interface()`. -/
def Codec.genSerialize (c : Codec M) : (d : Nat) → Ptr M d → SRes Bytes
  | 0, m => if c.isEncodable 0 then c.callEncode 0 m else .err
  | d + 1, (p : Option (Ptr M d)) =>
    if c.isEncodable (d + 1) then c.callEncode (d + 1) p
    else
      match p with
      | none => .panic
      | some q => if c.isEncodable d then c.callEncode d q else .err

/-- utils/reflect.go:19-32 `MakeValue` of the type with `d` stars: the value, which has `d` stars for `d ≥ 1`, with the
innermost object zero. `none`: with three stars or more the value made for the type two levels down has one star less
than is needed, and `Set` panics. (For a type without stars it makes a pointer; no table hands one over.) -/
def Codec.makeValue (c : Codec M) : (d : Nat) → Option (Ptr M d)
  | 1 => some (some c.zero : Option M)
  | 2 => some (some (some c.zero) : Option (Option M))
  | _ => none

/-- serializers/msgp_gen.go:70-76: decode into the object at the root of the new value (utils/reflect.go:34-43
`FindRootInterface`: follow pointers to the last one); the new value and whether decoding failed -/
def Codec.decodeRoot (c : Codec M) (b : Bytes) : (d : Nat) → Ptr M d → Ptr M d × Bool
  | 0, m => c.dec m b
  | d + 1, (p : Option (Ptr M d)) =>
    match p with
    | none => ((none : Option (Ptr M d)), true)
    | some q => ((some (c.decodeRoot b d q).1 : Option (Ptr M d)), (c.decodeRoot b d q).2)

/-- serializers/msgp_gen.go:68-79 `Deserialize` into `&old` where `old` has `d` stars: the value of the variable
afterwards and the error. The new value is set also when decoding failed. -/
def Codec.genDeserialize (c : Codec M) (d : Nat) (b : Bytes) (old : Ptr M d) : SRes (Ptr M d × Bool) :=
  match c.makeValue (d + 1) with
  | none => .panic
  | some (newEntry : Option (Ptr M d)) =>
    if c.decodable then
      match c.decodeRoot b (d + 1) newEntry with
      | ((none : Option (Ptr M d)), _) => .panic
      | (some v, failed) => .ok (v, failed)
    else .ok (old, true)

/-- serializers/protobuf.go:11-14 `ProtobufSerializer`: are the Encoder and the Decoder set -/
structure ProtoCfg where
  encoder : Bool
  decoder : Bool

/-- serializers/protobuf.go:38-53 `Serialize` of a value with `d` stars; the methods have pointer receivers and take a nil
receiver for an empty message -/
def Codec.protoSerialize (c : Codec M) (cfg : ProtoCfg) : (d : Nat) → Ptr M d → SRes Bytes
  | 1, (p : Option M) =>
    if c.hasMarshalVT then
      match p.elim c.marshalNil c.marshalVT with
      | some b => .ok b
      | none => .err
    else if cfg.encoder && c.isV1 then
      match p.elim c.marshalNil c.marshal with
      | some b => .ok b
      | none => .err
    else .err
  | _, _ => .err

/-- serializers/protobuf.go:55-70 `Deserialize` into `&old` where `old` has `d` stars: the variable afterwards and the error -/
def Codec.protoDeserialize (c : Codec M) (cfg : ProtoCfg) : (d : Nat) → Bytes → Ptr M d → SRes (Ptr M d × Bool)
  | 0, b, m =>
    if c.hasUnmarshalVT then .ok (c.unmarshalVT m b)
    else if cfg.decoder && c.isV1 then .ok (c.unmarshal m b)
    else .ok (m, true)
  | _ + 1, _, old => .ok (old, true)

/-- table.go:412, 541, 739 `serialize(&tr)`: the bytes, or no bytes after an error or a panic -/
def SRes.bytes : SRes Bytes → Option Bytes
  | .ok b => some b
  | _ => none

/-- table.go:533, 718, 878, 910, 1048 `Deserialize(value, &tr)`: the record, or none after an error or a panic -/
def SRes.record {d : Nat} : SRes (Ptr M d × Bool) → Option (Ptr M d)
  | .ok (v, false) => some v
  | _ => none

/-- the serializer of a table whose records have `d` stars, serializers/msgp_gen.go:16-38 on `&tr` -/
def Codec.genSer (c : Codec M) (d : Nat) (r : Ptr M d) : Option Bytes := (c.genSerialize (d + 1) (some r)).bytes
/-- the same, reading: serializers/msgp_gen.go:68-79 on `&tr` -/
def Codec.genDeser (c : Codec M) (d : Nat) (old : Ptr M d) (b : Bytes) : Option (Ptr M d) := (c.genDeserialize d b old).record
/-- the serializer of a table whose records have `d` stars, serializers/protobuf.go:38-53 on `&tr` -/
def Codec.protoSer (c : Codec M) (cfg : ProtoCfg) (d : Nat) (r : Ptr M d) : Option Bytes := (c.protoSerialize cfg (d + 1) (some r)).bytes
/-- the same, reading: serializers/protobuf.go:55-70 on `&tr` -/
def Codec.protoDeser (c : Codec M) (cfg : ProtoCfg) (d : Nat) (old : Ptr M d) (b : Bytes) : Option (Ptr M d) :=
  (c.protoDeserialize cfg d b old).record

end Bond
