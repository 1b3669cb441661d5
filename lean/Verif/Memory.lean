import Verif.Key
/-
Byte memory and Go slices of bytes: what `append`, `s[:0]` and `s[len(s):]` do.
-/
namespace Bond

/-- The memory behind the byte slices: the bytes of every array, and the number of arrays allocated so far. (memory behind
bond.go:209-217) -/
structure Mem where
  byte : Nat → Nat → UInt8
  next : Nat

/-- A Go slice of bytes (not nil): its array, where it begins in it, length and capacity (for example table.go:1130-1140). -/
structure Sl where
  arr : Nat
  off : Nat
  len : Nat
  cap : Nat
deriving DecidableEq, Repr

/-- the bytes of a slice (for example the reads of table.go:967) -/
def Mem.read (m : Mem) (s : Sl) : Bytes := (List.range s.len).map (fun i => m.byte s.arr (s.off + i))

/-- writing bytes into an array from position `i` on (inside `append` and keys.go:238, 248) -/
def Mem.write (m : Mem) (a i : Nat) (xs : Bytes) : Mem :=
  { m with byte := fun b j => if b = a ∧ i ≤ j ∧ j < i + xs.length then xs.getD (j - i) 0 else m.byte b j }

/-- `s[:0]` (for example table.go:362, 1140) -/
def Sl.zero (s : Sl) : Sl := { s with len := 0 }

/-- `s[len(s):]` (table.go:1136, 1141) -/
def Sl.tail (s : Sl) : Sl := { arr := s.arr, off := s.off + s.len, len := 0, cap := s.cap - s.len }

/-- The Go builtin `append` (for example keys.go:230, table.go:1134), also `Write` of a `bytes.Buffer` (keys.go:298-309): in place if the
capacity suffices, otherwise into a new array whose capacity is chosen by the runtime (`grow old needed`). -/
def Mem.append (grow : Nat → Nat → Nat) (m : Mem) (s : Sl) (xs : Bytes) : Mem × Sl :=
  if s.len + xs.length ≤ s.cap then (m.write s.arr (s.off + s.len) xs, { s with len := s.len + xs.length })
  else
    let n := s.len + xs.length
    ({ m.write m.next 0 (m.read s ++ xs) with next := m.next + 1 }, { arr := m.next, off := 0, len := n, cap := max n (grow s.cap n) })

/-- several `append`s or `Write`s one after the other (keys.go:298-309, the fields of a `KeyBuilder` keys.go:20-145) -/
def Mem.appendAll (grow : Nat → Nat → Nat) : Mem → Sl → List Bytes → Mem × Sl
  | m, s, [] => (m, s)
  | m, s, x :: xs => let r := m.append grow s x; Mem.appendAll grow r.1 r.2 xs

/-- `binary.BigEndian.PutUint32(buff[pos:pos+4], v)` (keys.go:238, 248) -/
def Mem.putUint32 (m : Mem) (s : Sl) (pos v : Nat) : Mem := m.write s.arr (s.off + pos) (beBytes 4 v)

/-- keys.go:236-239, 246-249 a part with its length in front: the last four bytes written are overwritten by the length of what the
function, if there is one, appends -/
def lenPartM (grow : Nat → Nat → Nat) (f : Option (List Bytes)) (r : Mem × Sl) : Mem × Sl :=
  match f with
  | none => r
  | some ps =>
    let lenIndex := r.2.len - 4
    let r := r.1.appendAll grow r.2 ps
    (r.1.putUint32 r.2 lenIndex (r.2.len - (lenIndex + 4)), r.2)

/-- keys.go:223-255 `KeyEncodeRaw` on memory: the three functions are the pieces they append to the buffer -/
def keyEncodeRawM (grow : Nat → Nat → Nat) (tableID indexID : UInt8) (indexFunc indexOrderFunc primaryKeyFunc : Option (List Bytes))
    (m : Mem) (buff : Sl) : Mem × Sl :=
  let r := m.append grow buff [tableID]
  let r := r.1.append grow r.2 [indexID]
  let r := r.1.append grow r.2 [0, 0, 0, 0]
  let r := lenPartM grow indexFunc r
  match primaryKeyFunc with
  | none => r
  | some pk =>
    let r := r.1.append grow r.2 [0, 0, 0, 0]
    let r := lenPartM grow indexOrderFunc r
    r.1.appendAll grow r.2 pk

/-- keys.go:292-312 `ToDataKeyBytes` on memory: the key that is read is not in this memory (it is the iterator's, or a string); `none` is
a panic -/
def toDataKeyBytesM (grow : Nat → Nat → Nat) (key : Bytes) (m : Mem) (rawBuff : Sl) : Option (Mem × Sl) := do
  let t ← key[0]?
  let r := m.appendAll grow rawBuff [[t], [0], [0, 0, 0, 0], [0, 0, 0, 0]]
  let l ← slice key 2 6
  let indexLen := beNat l
  let l2 ← slice key (6 + indexLen) (10 + indexLen)
  let indexOrderLen := beNat l2
  let rest ← slice key (10 + indexLen + indexOrderLen) key.length
  some (r.1.append grow r.2 rest)

/-- The slice lies in an allocated array and its length does not exceed its capacity (true of every Go slice; bond.go:209-217). -/
def Sl.OK (m : Mem) (s : Sl) : Prop := s.arr < m.next ∧ s.len ≤ s.cap

/-- The memory up to the capacity of the two slices does not overlap (what the pools promise: utils/sync.go:51-72). -/
def Sl.Dis (s r : Sl) : Prop := s.arr ≠ r.arr ∨ s.off + s.cap ≤ r.off ∨ r.off + r.cap ≤ s.off

/-- Buffers that may be used at the same time (as obtained from the pools, bond.go:209-220, 340-376). -/
def Bufs (m : Mem) (l : List Sl) : Prop := (∀ s ∈ l, s.OK m) ∧ l.Pairwise Sl.Dis

end Bond
