import Verif.Bytes
/-
Model of the database key layout (keys.go:147-347, table.go:1224-1276, index.go:405-422, version.go:34-42).
Table and index ids are bytes (`TableID`, `IndexID` are `uint8`).
-/
namespace Bond

/-- keys.go:147-153 -/
structure Key where
  tableID : UInt8
  indexID : UInt8
  index : Bytes
  indexOrder : Bytes
  primaryKey : Bytes
deriving DecidableEq, Repr

/-- index.go:120 `PrimaryIndexID` -/
def primaryIndexID : UInt8 := 0
/-- bond.go:26 `BOND_DB_DATA_TABLE_ID` -/
def bondDataTableID : UInt8 := 0
/-- bond.go:29 `BOND_DB_DATA_USER_SPACE_INDEX_ID` -/
def bondUserSpaceIndexID : UInt8 := 0xFF

namespace Key

/-- keys.go:165-173 `ToDataKey` -/
def toDataKey (k : Key) : Key :=
  { tableID := k.tableID, indexID := primaryIndexID, index := [], indexOrder := [], primaryKey := k.primaryKey }

/-- keys.go:175-183 `ToKeyPrefix` -/
def toKeyPrefix (k : Key) : Key :=
  { tableID := k.tableID, indexID := k.indexID, index := k.index, indexOrder := [], primaryKey := [] }

/-- keys.go:185-187 `IsDataKey` -/
def isDataKey (k : Key) : Bool := k.indexID == primaryIndexID && k.index.length == 0
/-- keys.go:189-191 `IsIndexKey` -/
def isIndexKey (k : Key) : Bool := k.indexID != primaryIndexID && k.index.length != 0
/-- keys.go:193-195 `IsKeyPrefix` -/
def isKeyPrefix (k : Key) : Bool := k.primaryKey.length == 0

end Key

/-- keys.go:197-221 `KeyEncode`; `rawBuff` is the optional buffer appended to.
`uint32(len)` wraps, as `beBytes 4` does. -/
def keyEncode (key : Key) (rawBuff : Bytes := []) : Bytes :=
  let buff := rawBuff ++ [key.tableID] ++ [key.indexID]
  let buff := buff ++ beBytes 4 key.index.length
  let buff := buff ++ key.index
  if !key.isKeyPrefix then
    let buff := buff ++ beBytes 4 key.indexOrder.length
    let buff := buff ++ key.indexOrder
    buff ++ key.primaryKey
  else buff

/-- `binary.BigEndian.PutUint32(buff[at:at+4], v)`; out-of-range positions cannot occur here (keys.go:238, 248). -/
def putUint32 (buff : Bytes) (pos v : Nat) : Bytes :=
  buff.take pos ++ beBytes 4 v ++ buff.drop (pos + 4)

/-- keys.go:223-255 `KeyEncodeRaw`; the three functions transform the buffer, `none` is `nil`. -/
def keyEncodeRaw (tableID indexID : UInt8) (indexFunc indexOrderFunc primaryKeyFunc : Option (Bytes → Bytes))
    (buff : Bytes := []) : Bytes :=
  let buff := buff ++ [tableID]
  let buff := buff ++ [indexID]
  let buff := buff ++ [0, 0, 0, 0]
  let lenIndex := buff.length - 4
  let buff := match indexFunc with
    | none => buff
    | some f =>
      let buff := f buff
      putUint32 buff lenIndex (buff.length - (lenIndex + 4))
  match primaryKeyFunc with
  | none => buff
  | some pk =>
    let buff := buff ++ [0, 0, 0, 0]
    let lenIndex := buff.length - 4
    let buff := match indexOrderFunc with
      | none => buff
      | some f =>
        let buff := f buff
        putUint32 buff lenIndex (buff.length - (lenIndex + 4))
    pk buff

/-- `bytes.Buffer.Read` into a zeroed slice of length `n` (short reads leave zeroes) (keys.go:258-292). -/
def readN (n : Nat) (buf : Bytes) : Bytes × Bytes :=
  (buf.take n ++ List.replicate (n - buf.length) 0, buf.drop n)

/-- keys.go:257-288 `KeyDecode`; `none` is the panic of `make([]byte, negative)`. -/
def keyDecode (keyBytes : Bytes) : Option Key :=
  let (t, buff) := readN 1 keyBytes
  let (i, buff) := readN 1 buff
  let (lenBuff, buff) := readN 4 buff
  let indexLen := beNat lenBuff
  let (index, buff) := readN indexLen buff
  let (ordLenBuff, buff) := readN 4 buff
  let indexOrderLen := beNat ordLenBuff
  let (indexOrder, buff) := readN indexOrderLen buff
  let primaryKeyLen : Int := (keyBytes.length : Int) - indexLen - indexOrderLen - 10
  if primaryKeyLen < 0 then none
  else
    let (primaryKey, _) := readN primaryKeyLen.toNat buff
    some { tableID := t.headD 0, indexID := i.headD 0, index := index, indexOrder := indexOrder,
           primaryKey := primaryKey }

/-- Go slice expression `b[lo:hi]`; `none` is the bounds panic (capacity taken equal to length) (keys.go:306-309, 323-324, 346). -/
def slice (b : Bytes) (lo hi : Nat) : Option Bytes :=
  if lo ≤ hi ∧ hi ≤ b.length then some ((b.take hi).drop lo) else none

/-- keys.go:292-312 `ToDataKeyBytes`; `none` is an index panic. -/
def toDataKeyBytes (key : Bytes) (rawBuff : Bytes := []) : Option Bytes := do
  let t ← key[0]?
  let buff := rawBuff ++ [t] ++ [0] ++ [0, 0, 0, 0] ++ [0, 0, 0, 0]
  let l ← slice key 2 6
  let indexLen := beNat l
  let l2 ← slice key (6 + indexLen) (10 + indexLen)
  let indexOrderLen := beNat l2
  let rest ← slice key (10 + indexLen + indexOrderLen) key.length
  some (buff ++ rest)

/-- keys.go:314-316 -/
def keyTableID (key : Bytes) : Option UInt8 := key[0]?
/-- keys.go:318-320 -/
def keyIndexID (key : Bytes) : Option UInt8 := key[1]?
/-- keys.go:322-325; note `6+keyLen` is computed in uint32 and wraps. -/
def keyIndex (key : Bytes) : Option Bytes := do
  let l ← slice key 2 6
  slice key 6 ((6 + beNat l) % 2 ^ 32)
/-- keys.go:327-329 -/
def keyIsDataKey (key : Bytes) : Option Bool := (keyIndexID key).map (· == primaryIndexID)

/-- keys.go:331-333 -/
def keyIsIndexKey (key : Bytes) : Option Bool := (keyIndexID key).map (· != primaryIndexID)

/-- keys.go:345-347 `_KeyPrefixSplitIndex` -/
def keyPrefixSplit (rawKey : Bytes) : Option Nat := (slice rawKey 2 6).map (fun l => 6 + beNat l)

/-- keys.go:155-163 `NewUserKey` -/
def newUserKey (key : Bytes) : Bytes :=
  keyEncode { tableID := bondDataTableID, indexID := bondUserSpaceIndexID, index := [], indexOrder := [],
              primaryKey := key }

/-- "__bond_db_data_version__" (version.go:40) -/
def versionKeyName : Bytes :=
  [95, 95, 98, 111, 110, 100, 95, 100, 98, 95, 100, 97, 116, 97, 95, 118, 101, 114, 115, 105, 111, 110, 95, 95]

/-- version.go:34-42 `bondDataVersionKey` -/
def bondDataVersionKey : Bytes :=
  keyEncode { tableID := bondDataTableID, indexID := 0, index := [], indexOrder := [], primaryKey := versionKeyName }

/-- table.go:1224-1234 `key`: data key of a record; `pk` are the bytes its primary key function appends. -/
def dataKey (tableID : UInt8) (pk : Bytes) : Bytes :=
  keyEncodeRaw tableID primaryIndexID none none (some (fun b => b ++ pk))

/-- index.go:405-422 `encodeIndexKey`; `idx`, `ord`, `pk` are the bytes the user functions append. -/
def encodeIndexKey (tableID indexID : UInt8) (idx ord pk : Bytes) : Bytes :=
  keyEncodeRaw tableID indexID (some (fun b => b ++ idx)) (some (fun b => b ++ ord)) (some (fun b => b ++ pk))

/-- table.go:1249-1260 `keyPrefix` -/
def keyPrefix (tableID indexID : UInt8) (idx : Bytes) : Bytes :=
  keyEncodeRaw tableID indexID (some (fun b => b ++ idx)) none none

/-- table.go:1262-1276 `keySuccessor`, loop from the last byte: the last byte that is not 0xFF is
incremented, the 0xFF bytes after it are left as they are; all-0xFF strings are returned unchanged.
Written as recursion from the front: the tail is changed if it contains a byte other than 0xFF. -/
def keySuccessor : Bytes → Bytes
  | [] => []
  | b :: bs => if bs.any (· != 0xFF) then b :: keySuccessor bs
               else if b != 0xFF then (b + 1) :: bs else b :: bs

end Bond
