import Verif.Bloom
/-
Model of concurrent calls of BloomFilter.Add (bloom/bloom_filter.go:79-85) that hit the same bucket. `Add` takes only the read lock, so
any number of calls run `TestOrAdd` on the same bit set and read and write the same flag at the same time. One step here is one load or
store of a machine word (github.com/bits-and-blooms/bitset keeps 64 bits per word and sets a bit with `set[i>>6] |= 1 << (i & 63)`).
-/
namespace Bond

/-- the 64-bit word that contains bit `l` (library bitset) (inside bloom/bloom_filter.go:84) -/
def readWord (bits : List Bool) (l : Nat) : List Bool := (bits.drop (64 * (l / 64))).take 64

/-- store a word back (inside bloom/bloom_filter.go:84) -/
def writeWord (bits : List Bool) (l : Nat) (w : List Bool) : List Bool :=
  bits.take (64 * (l / 64)) ++ w ++ bits.drop (64 * (l / 64) + w.length)

/-- where a call of `Add` is (bloom/bloom_filter.go:79-85) -/
inductive APc
  /-- about to test position number `i`; `present` is the value TestOrAdd has so far -/
  | test (i : Nat) (present : Bool)
  /-- position `i` was clear: about to load its word -/
  | rd (i : Nat)
  /-- about to store the word with the bit of position `i` set -/
  | wr (i : Nat) (word : List Bool)
  /-- TestOrAdd has returned `present`; about to evaluate `!present || bucket.hasChanges` -/
  | fin (present : Bool)
  /-- about to store `v` in `bucket.hasChanges` -/
  | st (v : Bool)
  | done
  deriving DecidableEq

/-- one bucket and the calls of Add on it (bloom/bloom_filter.go:22-30, 79-85) -/
structure AddSys where
  m : Nat
  k : Nat
  bits : List Bool
  hasChanges : Bool
  calls : List (Bytes × APc)
  deriving DecidableEq

/-- the bucket as the single-threaded model sees it (bloom/bloom_filter.go:27) -/
def AddSys.bf (s : AddSys) : BF := ⟨s.m, s.k, s.bits⟩

/-- next value of `pc` after position `i` (bloom/bloom_filter.go:84) -/
def APc.next (k i : Nat) (present : Bool) : APc := if i + 1 < k then .test (i + 1) present else .fin present

/-- bloom/bloom_filter.go:84 with the library's TestOrAdd: one step of call number `t` -/
def AddSys.step (h : BloomHash) (s : AddSys) (t : Nat) : AddSys :=
  match s.calls[t]? with
  | none => s
  | some (key, pc) =>
    let go (pc' : APc) : List (Bytes × APc) := s.calls.set t (key, pc')
    match pc with
    | .test i present =>
      if s.bits[h.loc key i s.m]?.getD false then { s with calls := go (.next s.k i present) } else { s with calls := go (.rd i) }
    | .rd i => { s with calls := go (.wr i (readWord s.bits (h.loc key i s.m))) }
    | .wr i w =>
      { s with bits := writeWord s.bits (h.loc key i s.m) (w.set (h.loc key i s.m % 64) true), calls := go (.next s.k i false) }
    | .fin present => { s with calls := go (.st (if !present then true else s.hasChanges)) }
    | .st v => { s with hasChanges := v, calls := go .done }
    | .done => s

/-- run a schedule (steps of bloom/bloom_filter.go:79-85) -/
def AddSys.run (h : BloomHash) (s : AddSys) (sched : List Nat) : AddSys := sched.foldl (AddSys.step h) s

/-- calls of Add with the given keys are started on bucket `b` (bloom/bloom_filter.go:79) -/
def AddSys.start (b : FBucket) (keys : List Bytes) : AddSys :=
  ⟨b.filter.m, b.filter.k, b.filter.bits, b.hasChanges, keys.map fun k => (k, if 0 < b.filter.k then .test 0 true else .fin true)⟩

/-- the bucket when the calls are over (bloom/bloom_filter.go:84) -/
def AddSys.bucket (s : AddSys) (b : FBucket) : FBucket := { b with hasChanges := s.hasChanges, filter := s.bf }

end Bond
