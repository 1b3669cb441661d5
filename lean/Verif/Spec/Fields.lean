import Verif.KeyBuilder
/-
Specification side of C01-C06: what a key field means to the user.
Nothing here mentions an encoding.
-/
namespace Bond.Spec

/-- One field of a key, as the user passes it to a `KeyBuilder` method. -/
inductive Field
  | i64 (v : BitVec 64) | i32 (v : BitVec 32) | i16 (v : BitVec 16)
  | u64 (v : BitVec 64) | u32 (v : BitVec 32) | u16 (v : BitVec 16)
  | byte (v : UInt8)
  | str (s : Bytes) | bytes (s : Bytes)
  | big (v : Int) (bits : Nat)
deriving DecidableEq, Repr

/-- The static type of a field. -/
inductive Kind
  | i64 | i32 | i16 | u64 | u32 | u16 | byte | str | bytes | big (bits : Nat)
deriving DecidableEq, Repr

/-- the static type of a field value (keys.go:20-134, one method per type) -/
def Field.kind : Field → Kind
  | .i64 _ => .i64 | .i32 _ => .i32 | .i16 _ => .i16
  | .u64 _ => .u64 | .u32 _ => .u32 | .u16 _ => .u16
  | .byte _ => .byte | .str _ => .str | .bytes _ => .bytes
  | .big _ b => .big b

/-- fixed-width kinds: everything but strings and byte strings -/
def Kind.fixed : Kind → Bool
  | .str => false | .bytes => false | _ => true

/-- "smaller value": numeric for numbers, bytewise for (byte) strings -/
def Field.lt : Field → Field → Prop
  | .i64 a, .i64 b => a.toInt < b.toInt
  | .i32 a, .i32 b => a.toInt < b.toInt
  | .i16 a, .i16 b => a.toInt < b.toInt
  | .u64 a, .u64 b => a.toNat < b.toNat
  | .u32 a, .u32 b => a.toNat < b.toNat
  | .u16 a, .u16 b => a.toNat < b.toNat
  | .byte a, .byte b => a < b
  | .str a, .str b => blt a b = true
  | .bytes a, .bytes b => blt a b = true
  | .big a _, .big b _ => a < b
  | _, _ => False

/-- lexicographic order of tuples of fields -/
def tupleLt : List Field → List Field → Prop
  | f :: fs, g :: gs => f.lt g ∨ (f = g ∧ tupleLt fs gs)
  | _, _ => False

end Bond.Spec

namespace Bond
open Spec

/-- the smallest integer of a signed field -/
def Spec.Field.minInt : Field → Bool
  | .i64 v => v == BitVec.intMin 64
  | .i32 v => v == BitVec.intMin 32
  | .i16 v => v == BitVec.intMin 16
  | _ => false

/-- the order of a DESC field of fixed width: the smallest integer of the width first, then the values in descending order -/
def Spec.Field.descLt (f g : Field) : Prop := g.minInt = false ∧ (f.minInt = true ∨ g.lt f)

/-- `f` and `g` are byte strings of different lengths -/
def Spec.Field.lenDiffer : Field → Field → Prop
  | .bytes a, .bytes b => a.length ≠ b.length
  | _, _ => False

/-- A user's key function calls one builder method per field
(keys.go:20-134; `none` is a panic). -/
def KeyBuilder.addField (b : KeyBuilder) : Field → Option KeyBuilder
  | .i64 v => some (b.addInt64Field v)
  | .i32 v => some (b.addInt32Field v)
  | .i16 v => some (b.addInt16Field v)
  | .u64 v => some (b.addUint64Field v)
  | .u32 v => some (b.addUint32Field v)
  | .u16 v => some (b.addUint16Field v)
  | .byte v => some (b.addByteField v)
  | .str s => some (b.addStringField s)
  | .bytes s => some (b.addBytesField s)
  | .big v bits => b.addBigIntField v bits

/-- chain of builder calls, one per field -/
def KeyBuilder.addFields (b : KeyBuilder) : List Field → Option KeyBuilder
  | [] => some b
  | f :: fs => (b.addField f).bind (fun b' => b'.addFields fs)

/-- `IndexOrder` call for one field (index.go:29-110); bytes are passed by value here,
the in-place effect of `OrderBytes` is the subject of C06. -/
def IndexOrder.orderField (o : IndexOrder) (ty : OrderType) : Field → Option IndexOrder
  | .i64 v => some (o.orderInt64 v ty)
  | .i32 v => some (o.orderInt32 v ty)
  | .i16 v => some (o.orderInt16 v ty)
  | .u64 v => some (o.orderUint64 v ty)
  | .u32 v => some (o.orderUint32 v ty)
  | .u16 v => some (o.orderUint16 v ty)
  | .byte v => some (o.orderByte v ty)
  | .bytes s => some (o.orderBytes s ty).1
  | .str _ => none
  | .big v bits => o.orderBigInt v bits ty

end Bond
