import Verif.Memory
import Verif.Spec.Fields
/-
`KeyBuilder` (keys.go:11-145) on memory: a builder is a Go struct passed by value, but its buffer is a slice, and `append` writes into
the array behind it as long as there is room.
-/
namespace Bond
open Spec

/-- keys.go:11-14 `KeyBuilder` with its buffer in memory -/
structure KBM where
  buff : Sl
  fid : UInt8
deriving DecidableEq, Repr

namespace KBM

/-- an `append` to the buffer of a builder (keys.go:24, 26, 28, 94, 100, 106, 114) -/
def app (grow : Nat → Nat → Nat) (r : Mem × KBM) (xs : Bytes) : Mem × KBM :=
  let a := r.1.append grow r.2.buff xs
  (a.1, { r.2 with buff := a.2 })

/-- keys.go:136-141 `putFieldID` -/
def putFieldID (grow : Nat → Nat → Nat) (m : Mem) (b : KBM) : Mem × KBM :=
  let a := m.append grow b.buff [b.fid + 1]
  (a.1, { buff := a.2, fid := b.fid + 1 })

/-- keys.go:32-33, 49-50, 66-67, 73-74, 80-81, 87-88: `n` zero bytes are appended and then overwritten with the number -/
def putBE (grow : Nat → Nat → Nat) (n v : Nat) (r : Mem × KBM) : Mem × KBM :=
  let r := app grow r (List.replicate n 0)
  (r.1.write r.2.buff.arr (r.2.buff.off + (r.2.buff.len - n)) (beBytes n v), r.2)

/-- keys.go:20-69 `AddInt64Field`, `AddInt32Field`, `AddInt16Field`, which differ in the width only -/
def addIntField {w : Nat} (n : Nat) (grow : Nat → Nat → Nat) (m : Mem) (b : KBM) (i : BitVec w) : Mem × KBM :=
  let r := b.putFieldID grow m
  if BitVec.slt 0 i then putBE grow n i.toNat (app grow r [0x02])
  else if i = 0 then putBE grow n i.toNat (app grow r [0x01])
  else putBE grow n (~~~(-i)).toNat (app grow r [0x00])

/-- keys.go:71-90 `AddUint64Field`, `AddUint32Field`, `AddUint16Field` -/
def addUintField {w : Nat} (n : Nat) (grow : Nat → Nat → Nat) (m : Mem) (b : KBM) (i : BitVec w) : Mem × KBM :=
  putBE grow n i.toNat (b.putFieldID grow m)

/-- keys.go:92-108 `AddByteField`, `AddStringField`, `AddBytesField`; the bytes given are not in this memory -/
def addBytesField (grow : Nat → Nat → Nat) (m : Mem) (b : KBM) (bs : Bytes) : Mem × KBM :=
  app grow (b.putFieldID grow m) bs

/-- keys.go:127-130: the last `n` bytes are complemented in place, from the last one to the first -/
def complement (m : Mem) (s : Sl) (n : Nat) : Mem :=
  (List.range n).foldl (fun m i => m.write s.arr (s.off + s.len - i - 1) [0xFF - m.byte s.arr (s.off + s.len - i - 1)]) m

/-- keys.go:110-134 `AddBigIntField`; no builder is the panic of `FillBytes`, which leaves the appended bytes behind (zeroes here, they
may be anything) -/
def addBigIntField (grow : Nat → Nat → Nat) (m : Mem) (b : KBM) (bi : Int) (bits : Nat) : Mem × Option KBM :=
  let r := b.putFieldID grow m
  let sign : Int := bi.sign + 1
  let r := app grow r [UInt8.ofNat sign.toNat]
  let abs := (if sign = 0 then 0 - bi else bi).natAbs
  let bytesLen := bits / 8
  let a := r.1.appendAll grow r.2.buff (List.replicate bytesLen [0])
  match KeyBuilder.fillBytes abs bytesLen with
  | none => (a.1, none)
  | some filled =>
    let m := a.1.write a.2.arr (a.2.off + (a.2.len - bytesLen)) filled
    if sign = 0 then (complement m a.2 bytesLen, some { buff := a.2, fid := r.2.fid })
    else (m, some { buff := a.2, fid := r.2.fid })

/-- the methods of the builder (keys.go:20-134) -/
def addField (grow : Nat → Nat → Nat) (m : Mem) (b : KBM) : Field → Mem × Option KBM
  | .i64 v => (b.addIntField 8 grow m v).map id some
  | .i32 v => (b.addIntField 4 grow m v).map id some
  | .i16 v => (b.addIntField 2 grow m v).map id some
  | .u64 v => (b.addUintField 8 grow m v).map id some
  | .u32 v => (b.addUintField 4 grow m v).map id some
  | .u16 v => (b.addUintField 2 grow m v).map id some
  | .byte v => (b.addBytesField grow m [v]).map id some
  | .str s => (b.addBytesField grow m s).map id some
  | .bytes s => (b.addBytesField grow m s).map id some
  | .big v bits => b.addBigIntField grow m v bits

end KBM

/-- What a program does with builders, which it keeps in variables numbered in order of creation: a new one on a buffer of its own
with some content and capacity (keys.go:16-18), or another field on the `i`-th one (keys.go:20-134). -/
inductive KStmt
  | new (content : Bytes) (cap : Nat)
  | add (i : Nat) (f : Field)

/-- the memory and the builders of the program (keys.go:11-14) -/
structure KSt where
  mem : Mem
  bs : List KBM

/-- nothing allocated yet (before keys.go:16) -/
def KSt.start : KSt := ⟨⟨fun _ _ => 0, 0⟩, []⟩

/-- One statement (keys.go:16-134). A panic of `AddBigIntField` gives no builder. -/
def KSt.step (grow : Nat → Nat → Nat) (st : KSt) : KStmt → KSt
  | .new xs cap =>
    { mem := { st.mem.write st.mem.next 0 xs with next := st.mem.next + 1 },
      bs := st.bs ++ [⟨⟨st.mem.next, 0, xs.length, max xs.length cap⟩, 0⟩] }
  | .add i f =>
    match st.bs[i]? with
    | none => st
    | some b =>
      match b.addField grow st.mem f with
      | (m, some b') => { mem := m, bs := st.bs ++ [b'] }
      | (m, none) => { st with mem := m }

/-- a whole program (keys.go:16-134) -/
def KSt.run (grow : Nat → Nat → Nat) (st : KSt) (prog : List KStmt) : KSt := prog.foldl (KSt.step grow) st

/-- keys.go:143-145 `Bytes` of the `i`-th builder, as they are now -/
def KSt.bytes (st : KSt) (i : Nat) : Option Bytes := (st.bs[i]?).map (fun b => st.mem.read b.buff)

end Bond
