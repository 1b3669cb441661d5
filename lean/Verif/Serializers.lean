import Verif.Bytes
/-
Model of the serializers of serializers/ that reuse buffers: msgp.go, msgp_gen.go (buffers from a pool) and cbor.go
(one buffer per write call). json.go, protobuf.go and the calls without pool are the plain encoding function.
-/
namespace Bond
variable {R : Type}

/-- Which serializer: serializers/msgp.go:10-14 with or without an Encoder pool, serializers/msgp_gen.go:12-14; and
whether its Buffer pool is set. -/
structure MsgpCfg where
  gen : Bool
  encoder : Bool
  buffer : Bool

/-- serializers/msgp.go:68-74, msgp_gen.go:81-87 `getBuffer`: a `bytes.Buffer` from the pool (here its content; the pool
is a bag from which any element may come), or a new, empty one. `Get` of an empty pool makes an empty buffer. Nothing
resets the buffer. -/
def getBuffer (cfg : MsgpCfg) (pool : List Bytes) (choice : Option Nat) : Bytes × List Bytes :=
  if cfg.buffer then
    match choice with
    | none => ([], pool)
    | some i =>
      match pool[i]? with
      | none => ([], pool)
      | some b => (b, pool.eraseIdx i)
  else ([], pool)

/-- serializers/msgp.go:76-80, msgp_gen.go:89-93 `freeBuffer` -/
def freeBuffer (cfg : MsgpCfg) (pool : List Bytes) (b : Bytes) : List Bytes :=
  if cfg.buffer then pool ++ [b] else pool

/-- `enc.Encode` into a buffer (msgp.go:25, 46; msgp_gen.go:32, 56): the encoding is appended to what the buffer holds.
`enc r = none` is an encoding error (or, in msgp_gen.go:17-28, 41-52, a value that is not Encodable). -/
def encodeInto (enc : R → Option Bytes) (b : Bytes) (r : R) : Option Bytes := (enc r).map (b ++ ·)

/-- serializers/msgp.go:16-35, msgp_gen.go:16-38 `Serialize`: result and pool. msgp.go takes a buffer from the pool and
never puts it back; msgp_gen.go uses a new buffer. -/
def serialize (cfg : MsgpCfg) (enc : R → Option Bytes) (pool : List Bytes) (choice : Option Nat) (r : R) :
    Option Bytes × List Bytes :=
  if cfg.gen then (encodeInto enc [] r, pool)
  else if cfg.encoder then
    let (b, pool) := getBuffer cfg pool choice
    (encodeInto enc b r, pool)
  else (enc r, pool)

/-- serializers/msgp.go:37-62, msgp_gen.go:40-66 `SerializerWithCloseable`: result, the buffer that the returned function
puts back (if any), and the pool. On an error the buffer is dropped. -/
def serializeC (cfg : MsgpCfg) (enc : R → Option Bytes) (pool : List Bytes) (choice : Option Nat) (r : R) :
    Option Bytes × Option Bytes × List Bytes :=
  if cfg.gen || cfg.encoder then
    let (b, pool) := getBuffer cfg pool choice
    match encodeInto enc b r with
    | none => (none, none, pool)
    | some out => (some out, some out, pool)
  else (enc r, none, pool)

/-- calls on one serializer, by any goroutines; `close i` calls the function returned by the i-th
`SerializerWithCloseable` (at most once each) (serializers/msgp.go:37-62, 76-80) -/
inductive SerEv (R : Type)
  | ser (r : R) (choice : Option Nat)
  | serC (r : R) (choice : Option Nat)
  | close (i : Nat)

/-- the pool, the buffers of the functions not yet called, and what was returned for which record (serializers/msgp.go:37-62, 76-80) -/
structure SerSt (R : Type) where
  pool : List Bytes := []
  closers : List (Option Bytes) := []
  log : List (R × Option Bytes) := []

/-- one call (serializers/msgp.go:37-62, 76-80) -/
def SerSt.step (cfg : MsgpCfg) (enc : R → Option Bytes) (s : SerSt R) : SerEv R → SerSt R
  | .ser r c =>
    let (out, pool) := serialize cfg enc s.pool c r
    { s with pool := pool, log := s.log ++ [(r, out)] }
  | .serC r c =>
    let (out, b, pool) := serializeC cfg enc s.pool c r
    { pool := pool, closers := s.closers ++ [b], log := s.log ++ [(r, out)] }
  | .close i =>
    match s.closers[i]? with
    | some (some b) => { s with pool := freeBuffer cfg s.pool b, closers := s.closers.set i none }
    | _ => s

/-- a sequence of calls on a new serializer (serializers/msgp.go:37-62, 76-80) -/
def serRun (cfg : MsgpCfg) (enc : R → Option Bytes) (evs : List (SerEv R)) : SerSt R := evs.foldl (SerSt.step cfg enc) {}

/-- serializers/cbor.go:27-43: the buffer of `SerializeFuncWithBuffer`: which array it uses and how long its content is.
Arrays are numbered; `heap` is their content (as long as their capacity). -/
structure CborSt where
  heap : List Bytes
  arr : Nat
  deriving DecidableEq

/-- a returned slice: array and length (serializers/cbor.go:41) -/
structure Slice where
  arr : Nat
  len : Nat
  deriving DecidableEq

/-- what a slice shows (serializers/cbor.go:41) -/
def CborSt.read (s : CborSt) (v : Slice) : Bytes := ((s.heap[v.arr]?).getD []).take v.len

/-- overwrite the beginning of an array; what does not fit is lost, an array does not grow (inside serializers/cbor.go:38) -/
def overwritePrefix (a e : Bytes) : Bytes := (e ++ a.drop e.length).take a.length

/-- serializers/cbor.go:35-41: `buff.Reset()`, `encoder.Encode(v)`, `buff.Bytes()`. The encoder hands the whole encoding
to the buffer at once; if it does not fit, the buffer moves to a new array (of some capacity; here exactly the size). -/
def CborSt.call (enc : R → Option Bytes) (s : CborSt) (r : R) : CborSt × Option Slice :=
  match enc r with
  | none => (s, none)
  | some e =>
    let a := (s.heap[s.arr]?).getD []
    if e.length ≤ a.length then ({ s with heap := s.heap.set s.arr (overwritePrefix a e) }, some ⟨s.arr, e.length⟩)
    else (⟨s.heap ++ [e], s.heap.length⟩, some ⟨s.heap.length, e.length⟩)

/-- table.go:410-420, 540-548, 738-747, table_unsafe.go:72-80, 164-172: the writes serialize one row after the other
with the same buffer and hand each result to `batch.Set`, which copies it, before the next. `none`: an error. -/
def CborSt.writeAll (enc : R → Option Bytes) : CborSt → List R → Option (List Bytes)
  | _, [] => some []
  | s, r :: rs =>
    match s.call enc r with
    | (_, none) => none
    | (s', some v) => (CborSt.writeAll enc s' rs).map (s'.read v :: ·)

/-- a caller that keeps the slices and reads them at the end (callers of serializers/cbor.go:28-43) -/
def CborSt.keepAll (enc : R → Option Bytes) : CborSt → List R → CborSt × List Slice
  | s, [] => (s, [])
  | s, r :: rs =>
    match s.call enc r with
    | (s', none) => (s', [])
    | (s', some v) => let (s'', vs) := CborSt.keepAll enc s' rs; (s'', v :: vs)

end Bond
