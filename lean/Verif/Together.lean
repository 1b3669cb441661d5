import Verif.Bloom
import Verif.Key
/-
Several filters and the tables of one database: all of them keep their data in the same store.
-/
namespace Bond

/-- bloom/bloom_filter.go:60-66 the key prefix of a filter when none is given: a row key of table 0, "bf_" -/
def defaultBloomPrefix : Bytes :=
  keyEncode { tableID := 0, indexID := 0, index := [], indexOrder := [], primaryKey := [98, 102, 95] }

/-- the calls on a filter (bloom/bloom_filter.go:79-194, filter.go:56-75); `setOk`, `delOk`: which calls on the store succeed -/
inductive FCall
  | add (key : Bytes)
  | load
  | save (setOk : Nat → Bool)
  | clear (delOk : Bool)
  | init (delOk : Bool) (scanners : List KeyScan)

/-- one call on a filter: the filter, the store and the result (bloom/bloom_filter.go:79-194, filter.go:56-75) -/
def FCall.run (h : BloomHash) (c : BFCodec) (f : BloomFilter) (store : FStore) : FCall → BloomFilter × FStore × FRes
  | .add key =>
    match f.add h key with
    | some f' => (f', store, .ok)
    | none => (f, store, .panic)
  | .load => let r := f.load c store; (r.1, store, r.2)
  | .save setOk => f.save c setOk store
  | .clear delOk => let r := f.clear delOk store; (f, r.1, r.2)
  | .init delOk scanners => filterInitialize h c delOk f store scanners

/-- calls on one filter, one after the other, with their results (bloom/bloom_filter.go:79-194, filter.go:56-75) -/
def runFilter (h : BloomHash) (c : BFCodec) : BloomFilter → FStore → List FCall → BloomFilter × FStore × List FRes
  | f, store, [] => (f, store, [])
  | f, store, call :: calls =>
    let r := call.run h c f store
    let o := runFilter h c r.1 r.2.1 calls
    (o.1, o.2.1, r.2.2 :: o.2.2)

/-- calls on several filters that share a store, in any order: filter number, call. The results carry the number of the filter
(bloom/bloom_filter.go:79-194, filter.go:56-75). -/
def runFilters (h : BloomHash) (c : BFCodec) : (Nat → BloomFilter) → FStore → List (Nat × FCall) → (Nat → BloomFilter) × FStore × List (Nat × FRes)
  | fs, store, [] => (fs, store, [])
  | fs, store, (i, call) :: calls =>
    let r := call.run h c (fs i) store
    let o := runFilters h c (fun j => if j = i then r.1 else fs j) r.2.1 calls
    (o.1, o.2.1, (i, r.2.2) :: o.2.2)

end Bond
