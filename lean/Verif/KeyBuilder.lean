import Verif.Bytes
/-
Model of `KeyBuilder` (keys.go:11-145) and `IndexOrder` (index.go:18-109).
Slices are values here: `append` returns the concatenation (see DESIGN.md).
Fixed-width Go integers are `BitVec`s, so that wrap-around is the one of Go.
-/
namespace Bond

/-- keys.go:11-14 -/
structure KeyBuilder where
  buff : Bytes
  fid : UInt8
deriving DecidableEq, Repr

namespace KeyBuilder

/-- keys.go:16-18 `NewKeyBuilder` -/
def new (buff : Bytes) : KeyBuilder := { buff := buff, fid := 0 }

/-- keys.go:136-141 `putFieldID`; the field counter is a `byte` and wraps at 256. -/
def putFieldID (b : KeyBuilder) : KeyBuilder :=
  { buff := b.buff ++ [b.fid + 1], fid := b.fid + 1 }

/-- keys.go:143-145 -/
def bytes (b : KeyBuilder) : Bytes := b.buff

/-- keys.go:20-35 `AddInt64Field` -/
def addInt64Field (b : KeyBuilder) (i : BitVec 64) : KeyBuilder :=
  let bt := b.putFieldID
  if BitVec.slt 0 i then { bt with buff := bt.buff ++ [0x02] ++ beBytes 8 i.toNat }
  else if i = 0 then { bt with buff := bt.buff ++ [0x01] ++ beBytes 8 i.toNat }
  else { bt with buff := bt.buff ++ [0x00] ++ beBytes 8 (~~~(-i)).toNat }

/-- keys.go:37-52 `AddInt32Field` -/
def addInt32Field (b : KeyBuilder) (i : BitVec 32) : KeyBuilder :=
  let bt := b.putFieldID
  if BitVec.slt 0 i then { bt with buff := bt.buff ++ [0x02] ++ beBytes 4 i.toNat }
  else if i = 0 then { bt with buff := bt.buff ++ [0x01] ++ beBytes 4 i.toNat }
  else { bt with buff := bt.buff ++ [0x00] ++ beBytes 4 (~~~(-i)).toNat }

/-- keys.go:54-69 `AddInt16Field` -/
def addInt16Field (b : KeyBuilder) (i : BitVec 16) : KeyBuilder :=
  let bt := b.putFieldID
  if BitVec.slt 0 i then { bt with buff := bt.buff ++ [0x02] ++ beBytes 2 i.toNat }
  else if i = 0 then { bt with buff := bt.buff ++ [0x01] ++ beBytes 2 i.toNat }
  else { bt with buff := bt.buff ++ [0x00] ++ beBytes 2 (~~~(-i)).toNat }

/-- keys.go:71-76 `AddUint64Field` -/
def addUint64Field (b : KeyBuilder) (i : BitVec 64) : KeyBuilder :=
  let bt := b.putFieldID
  { bt with buff := bt.buff ++ beBytes 8 i.toNat }

/-- keys.go:78-83 `AddUint32Field` -/
def addUint32Field (b : KeyBuilder) (i : BitVec 32) : KeyBuilder :=
  let bt := b.putFieldID
  { bt with buff := bt.buff ++ beBytes 4 i.toNat }

/-- keys.go:85-90 `AddUint16Field` -/
def addUint16Field (b : KeyBuilder) (i : BitVec 16) : KeyBuilder :=
  let bt := b.putFieldID
  { bt with buff := bt.buff ++ beBytes 2 i.toNat }

/-- keys.go:92-96 `AddByteField` -/
def addByteField (b : KeyBuilder) (x : UInt8) : KeyBuilder :=
  let bt := b.putFieldID
  { bt with buff := bt.buff ++ [x] }

/-- keys.go:98-102 `AddStringField`; a Go string is its bytes. -/
def addStringField (b : KeyBuilder) (s : Bytes) : KeyBuilder :=
  let bt := b.putFieldID
  { bt with buff := bt.buff ++ s }

/-- keys.go:104-108 `AddBytesField` -/
def addBytesField (b : KeyBuilder) (bs : Bytes) : KeyBuilder :=
  let bt := b.putFieldID
  { bt with buff := bt.buff ++ bs }

/-- `big.Int.FillBytes` (Go math/big): big-endian absolute value, panics (`none`) when it does not fit (keys.go:124). -/
def fillBytes (abs : Nat) (len : Nat) : Option Bytes :=
  if abs < 256 ^ len then some (beBytes len abs) else none

/-- keys.go:110-134 `AddBigIntField`; `none` is the panic of `FillBytes`.
Simplification: `bits` is a natural number (a negative `bits` panics in Go as well). -/
def addBigIntField (b : KeyBuilder) (bi : Int) (bits : Nat) : Option KeyBuilder :=
  let bt := b.putFieldID
  let sign : Int := bi.sign + 1
  let buff := bt.buff ++ [UInt8.ofNat sign.toNat]
  let abs := (if sign = 0 then 0 - bi else bi).natAbs
  let bytesLen := bits / 8
  match fillBytes abs bytesLen with
  | none => none
  | some filled =>
    if sign = 0 then some { bt with buff := buff ++ filled.map (fun x => 0xFF - x) }
    else some { bt with buff := buff ++ filled }

end KeyBuilder

/-- index.go:25-27 `IndexOrder` (wraps a KeyBuilder). -/
structure IndexOrder where
  keyBuilder : KeyBuilder
deriving DecidableEq, Repr

/-- index.go:18-23 `IndexOrderType`; `true` is DESC. -/
abbrev OrderType := Bool
/-- index.go:21 -/
def ASC : OrderType := false
/-- index.go:22 -/
def DESC : OrderType := true

namespace IndexOrder

/-- index.go:112-114 `Bytes` -/
def bytes (o : IndexOrder) : Bytes := o.keyBuilder.bytes

/-- index.go:29-36 `OrderInt64` -/
def orderInt64 (o : IndexOrder) (i : BitVec 64) (ty : OrderType) : IndexOrder :=
  ⟨o.keyBuilder.addInt64Field (if ty = DESC then -i else i)⟩
/-- index.go:38-45 `OrderInt32` -/
def orderInt32 (o : IndexOrder) (i : BitVec 32) (ty : OrderType) : IndexOrder :=
  ⟨o.keyBuilder.addInt32Field (if ty = DESC then -i else i)⟩
/-- index.go:47-54 `OrderInt16` -/
def orderInt16 (o : IndexOrder) (i : BitVec 16) (ty : OrderType) : IndexOrder :=
  ⟨o.keyBuilder.addInt16Field (if ty = DESC then -i else i)⟩
/-- index.go:56-63 `OrderUint64` -/
def orderUint64 (o : IndexOrder) (i : BitVec 64) (ty : OrderType) : IndexOrder :=
  ⟨o.keyBuilder.addUint64Field (if ty = DESC then ~~~i else i)⟩
/-- index.go:65-72 `OrderUint32` -/
def orderUint32 (o : IndexOrder) (i : BitVec 32) (ty : OrderType) : IndexOrder :=
  ⟨o.keyBuilder.addUint32Field (if ty = DESC then ~~~i else i)⟩
/-- index.go:74-81 `OrderUint16` -/
def orderUint16 (o : IndexOrder) (i : BitVec 16) (ty : OrderType) : IndexOrder :=
  ⟨o.keyBuilder.addUint16Field (if ty = DESC then ~~~i else i)⟩
/-- index.go:83-90 `OrderByte` -/
def orderByte (o : IndexOrder) (x : UInt8) (ty : OrderType) : IndexOrder :=
  ⟨o.keyBuilder.addByteField (if ty = DESC then ~~~x else x)⟩

/-- index.go:92-101 `OrderBytes`.  The Go code complements the caller's slice *in place*;
the second component is the content of the caller's slice after the call. -/
def orderBytes (o : IndexOrder) (b : Bytes) (ty : OrderType) : IndexOrder × Bytes :=
  let b' := if ty = DESC then b.map (fun x => ~~~x) else b
  (⟨o.keyBuilder.addBytesField b'⟩, b')

/-- index.go:103-110 `OrderBigInt`; `none` is the panic of `FillBytes`. -/
def orderBigInt (o : IndexOrder) (b : Int) (bits : Nat) (ty : OrderType) : Option IndexOrder :=
  (o.keyBuilder.addBigIntField (if ty = DESC then -b else b) bits).map (⟨·⟩)

end IndexOrder
end Bond
