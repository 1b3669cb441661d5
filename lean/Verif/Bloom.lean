import Verif.Decimal
import Verif.Table
/-
Model of bloom/bloom_filter.go and of FilterInitialize / FilterInitializable in filter.go.
-/
namespace Bond

/-- Hash functions used by the filter, as parameters: `loc key i m` is the i-th bit position of `key` in a filter of `m` bits
(github.com/bits-and-blooms/bloom), `bucket key n` the bucket number of `key` among `n` (bloom/bloom_filter.go:196-200, 214-221; CRC32 and
jump consistent hash). `enc`/`dec` stand for WriteTo/ReadFrom of the bloom package together with zstd (bloom/bloom_filter.go:113-125,
157-170); `dec` gives `none` for an error. -/
structure BloomHash where
  loc : Bytes → Nat → Nat → Nat
  bucket : Bytes → Nat → Nat

/-- github.com/bits-and-blooms/bloom/v3 `BloomFilter`: m bits, k hash functions (bloom/bloom_filter.go:27) -/
structure BF where
  m : Nat
  k : Nat
  bits : List Bool
  deriving DecidableEq

/-- see `BloomHash` (bloom/bloom_filter.go:113-122, 157-171) -/
structure BFCodec where
  enc : BF → Bytes
  dec : Bytes → Option BF

/-- bloom.NewWithEstimates(n, fp) (library): m and k are computed from n and fp; all bits are clear (bloom/bloom_filter.go:55) -/
def BF.new (m k : Nat) : BF := ⟨m, k, List.replicate m false⟩

/-- library `Test`: all k bits are set (bloom/bloom_filter.go:90) -/
def BF.test (h : BloomHash) (f : BF) (key : Bytes) : Bool :=
  (List.range f.k).all fun i => f.bits[h.loc key i f.m]?.getD false

/-- library `TestOrAdd`, one position: test it, and set it if it is clear (bloom/bloom_filter.go:84) -/
def BF.testOrSet (h : BloomHash) (key : Bytes) (s : BF × Bool) (i : Nat) : BF × Bool :=
  if s.1.bits[h.loc key i s.1.m]?.getD false then s else (⟨s.1.m, s.1.k, s.1.bits.set (h.loc key i s.1.m) true⟩, false)

/-- library `TestOrAdd`: for each position, test and set; the result is whether all were set before (bloom/bloom_filter.go:84) -/
def BF.testOrAdd (h : BloomHash) (f : BF) (key : Bytes) : BF × Bool := (List.range f.k).foldl (BF.testOrSet h key) (f, true)

/-- library `Merge`: an error unless m and k agree, else the union of the bits (bloom/bloom_filter.go:127) -/
def BF.merge (f g : BF) : Option BF :=
  if f.m = g.m ∧ f.k = g.k then some { f with bits := List.zipWith (· || ·) f.bits g.bits } else none

/-- bloom/bloom_filter.go:22-30 `_bucket` -/
structure FBucket where
  num : Nat
  hasChanges : Bool
  hasBeenWritten : Bool
  filter : BF
  deriving DecidableEq

/-- bloom/bloom_filter.go:32-40 `BloomFilter` -/
structure BloomFilter where
  keyPrefix : Bytes
  numOfBuckets : Nat
  buckets : List FBucket
  deriving DecidableEq

/-- bloom/bloom_filter.go:42-77 `NewBloomFilter`; `m` and `k` are those NewWithEstimates computes from `n` and `fp` -/
def BloomFilter.new (m k numOfBuckets : Nat) (keyPrefix : Bytes) : BloomFilter :=
  ⟨keyPrefix, numOfBuckets, (List.range numOfBuckets).map fun i => ⟨i, false, false, BF.new m k⟩⟩

/-- bloom/bloom_filter.go:79-85 `Add`, run without interruption; `none` is an index panic. Interleavings are in `AddSys`. -/
def BloomFilter.add (h : BloomHash) (f : BloomFilter) (key : Bytes) : Option BloomFilter :=
  let i := h.bucket key f.numOfBuckets
  match f.buckets[i]? with
  | none => none
  | some b =>
    let r := b.filter.testOrAdd h key
    some { f with buckets := f.buckets.set i { b with filter := r.1, hasChanges := !r.2 || b.hasChanges } }

/-- bloom/bloom_filter.go:87-91 `MayContain` -/
def BloomFilter.mayContain (h : BloomHash) (f : BloomFilter) (key : Bytes) : Option Bool :=
  (f.buckets[h.bucket key f.numOfBuckets]?).map fun b => b.filter.test h key

/-- The store a filter is saved to (filter.go:9-13 `FilterStorer`): pebble through bond.DB, or files (filters/filter_fs_storer.go, see
`FSStorer`). Here a map. -/
abbrev FStore := Bytes → Option Bytes

/-- Set of filter.go:9-13 FilterStorer -/
def FStore.set (s : FStore) (k v : Bytes) : FStore := fun k' => if k' = k then some v else s k'

/-- DeleteRange(start, end) (FilterStorer, filter.go:9-13) -/
def FStore.deleteRange (s : FStore) (lo hi : Bytes) : FStore := fun k => if ble lo k && blt k hi then none else s k

/-- bloom/bloom_filter.go:202-206 `buildKey` -/
def bloomKey (keyPrefix : Bytes) (bucketNo : Nat) : Bytes := keyPrefix ++ decimal bucketNo
/-- bloom/bloom_filter.go:208-212 `buildBucketNumKey` -/
def bloomNumKey (keyPrefix : Bytes) : Bytes := keyPrefix ++ [98, 110]

/-- outcome of a filter call: fine, an error, a panic (bloom/bloom_filter.go:79-194) -/
inductive FRes | ok | err | panic
  deriving DecidableEq

/-- bloom/bloom_filter.go:107-133 the loop of `Load`: buckets already merged stay merged when a later one fails -/
def loadLoop (c : BFCodec) (store : FStore) (keyPrefix : Bytes) : List FBucket → List FBucket × FRes
  | [] => ([], .ok)
  | b :: bs =>
    match store (bloomKey keyPrefix b.num) with
    | none => (b :: bs, .err)
    | some data =>
      match c.dec data with
      | none => (b :: bs, .err)
      | some g =>
        match b.filter.merge g with
        | none => (b :: bs, .err)
        | some f =>
          let r := loadLoop c store keyPrefix bs
          ({ b with filter := f, hasBeenWritten := true } :: r.1, r.2)

/-- bloom/bloom_filter.go:93-136 `Load` -/
def BloomFilter.load (c : BFCodec) (f : BloomFilter) (store : FStore) : BloomFilter × FRes :=
  match store (bloomNumKey f.keyPrefix) with
  | none => (f, .err)
  | some v =>
    if v.length < 8 then (f, .panic)
    else if beNat (v.take 8) ≠ f.numOfBuckets then (f, .err)
    else
      let r := loadLoop c store f.keyPrefix f.buckets
      ({ f with buckets := r.1 }, r.2)

/-- bloom/bloom_filter.go:152-184 the loop of `Save`; `setOk n` tells whether the n-th Set call on the store succeeds (a crash is a Set
that does not happen and nothing after it) -/
def saveLoop (c : BFCodec) (setOk : Nat → Bool) (keyPrefix : Bytes) : List FBucket → Nat → FStore → List FBucket × FStore × FRes
  | [], _, store => ([], store, .ok)
  | b :: bs, n, store =>
    if !b.hasChanges && b.hasBeenWritten then
      let r := saveLoop c setOk keyPrefix bs n store
      (b :: r.1, r.2)
    else if setOk n then
      let r := saveLoop c setOk keyPrefix bs (n + 1) (store.set (bloomKey keyPrefix b.num) (c.enc b.filter))
      ({ b with hasChanges := false, hasBeenWritten := true } :: r.1, r.2)
    else (b :: bs, store, .err)

/-- bloom/bloom_filter.go:138-187 `Save` -/
def BloomFilter.save (c : BFCodec) (setOk : Nat → Bool) (f : BloomFilter) (store : FStore) : BloomFilter × FStore × FRes :=
  if setOk 0 then
    let r := saveLoop c setOk f.keyPrefix f.buckets 1 (store.set (bloomNumKey f.keyPrefix) (beBytes 8 f.numOfBuckets))
    ({ f with buckets := r.1 }, r.2)
  else (f, store, .err)

/-- `end[len(end)-1]++` on a byte (bloom/bloom_filter.go:192): wraps at 255 -/
def bumpLast : Bytes → Bytes
  | [] => []
  | [b] => [b + 1]
  | b :: bs => b :: bumpLast bs

/-- bloom/bloom_filter.go:189-194 `Clear`: only the store is cleared, not the filter in memory; an empty prefix panics -/
def BloomFilter.clear (delOk : Bool) (f : BloomFilter) (store : FStore) : FStore × FRes :=
  if f.keyPrefix = [] then (store, .panic)
  else if delOk then (store.deleteRange f.keyPrefix (bumpLast f.keyPrefix), .ok)
  else (store, .err)

/-- a table scanner as FilterInitialize uses it (filter.go:65-68): the keys ScanForEach passes to the callback before it ends, and whether
it ends without error -/
structure KeyScan where
  keys : List Bytes
  ok : Bool

/-- filter.go:65-68 the callback: add the key and go on; `none` is a panic -/
def BloomFilter.addAll (h : BloomHash) (f : BloomFilter) (keys : List Bytes) : Option BloomFilter :=
  keys.foldlM (fun f k => f.add h k) f

/-- filter.go:64-73 the loop over scanners -/
def scanLoop (h : BloomHash) (f : BloomFilter) : List KeyScan → BloomFilter × FRes
  | [] => (f, .ok)
  | s :: ss =>
    match f.addAll h s.keys with
    | none => (f, .panic)
    | some f' => if s.ok then scanLoop h f' ss else (f', .err)

/-- filter.go:56-75 `FilterInitialize` -/
def filterInitialize (h : BloomHash) (c : BFCodec) (delOk : Bool) (f : BloomFilter) (store : FStore) (scanners : List KeyScan) :
    BloomFilter × FStore × FRes :=
  match f.load c store with
  | (f', .ok) => (f', store, .ok)
  | (f', .panic) => (f', store, .panic)
  | (f', .err) =>
    match f'.clear delOk store with
    | (store', .ok) => let r := scanLoop h f' scanners; (r.1, store', r.2)
    | (store', r) => (f', store', r)

/-- filter.go:24-28 `FilterInitializable` -/
structure FilterInit where
  inner : BloomFilter
  isInitialized : Bool

/-- filter.go:30-36 -/
def FilterInit.mayContain (h : BloomHash) (f : FilterInit) (key : Bytes) : Option Bool :=
  if f.isInitialized then f.inner.mayContain h key else some true

/-- promoted from the embedded Filter (filter.go:24-28) -/
def FilterInit.add (h : BloomHash) (f : FilterInit) (key : Bytes) : Option FilterInit :=
  (f.inner.add h key).map fun g => { f with inner := g }

/-- filter.go:38-46 `Initialize` -/
def FilterInit.initialize (h : BloomHash) (c : BFCodec) (delOk : Bool) (f : FilterInit) (store : FStore) (scanners : List KeyScan) :
    FilterInit × FStore × FRes :=
  let r := filterInitialize h c delOk f.inner store scanners
  (⟨r.1, if r.2.2 = .ok then true else f.isInitialized⟩, r.2)

/-- filter.go:48-54 `Save` -/
def FilterInit.save (c : BFCodec) (setOk : Nat → Bool) (f : FilterInit) (store : FStore) : FilterInit × FStore × FRes :=
  if f.isInitialized then let r := f.inner.save c setOk store; ({ f with inner := r.1 }, r.2) else (f, store, .err)

end Bond
