import Verif.Key
import Verif.Store
/-
Model of the table operations of table.go, table_unsafe.go and of the index hooks of index.go.

Conventions
* `T` is the record type, `F` the state of the table's filter.
* User key functions are represented by the bytes they append (they append to the builder they get).
* Everything the Go program does not determine is a field of `Env`: the moments at which the context is
  found done, the iteration order of Go maps, the result of `sort.Sort` and the success of a commit.
* Buffer pools and buffer reuse are not represented here (C45, DESIGN.md).
-/
namespace Bond

/-- table.go:18 -/
def reindexBatchSize : Nat := 10000
/-- table.go:20 -/
def defaultScanPrefetchSize : Nat := 100
/-- table.go:22 -/
def persistentBatchSize : Nat := 5000
/-- table.go:16 `_indexKeyValue` -/
def indexKeyValue : Bytes := []

/-- index.go:136-165 `Index` with its defaults: `filter` is constantly true and `ord` appends nothing
if not given. -/
structure Index (T : Type) where
  id : UInt8
  key : T → Bytes
  ord : T → Bytes
  filter : T → Bool

/-- filter.go:8-20 `Filter` (the methods the table calls) -/
structure Filter (F : Type) where
  add : F → Bytes → F
  may : F → Bytes → Bool

/-- table.go:124-149 `_table`, the parts that matter. `ser` is `Serialize` (`none` is an error),
`deser old data` is `Deserialize(data, &x)` with `x = old` before the call. `nil` is the zero value of `T`
(`valueNil`, and every `var tr T`), `empty` is `valueEmpty` (table.go:178). -/
structure Table (T F : Type) where
  id : UInt8
  pk : T → Bytes
  indexes : List (Index T)
  ser : T → Option Bytes
  deser : T → Bytes → Option T
  nil : T
  empty : T
  filter : Option (Filter F)
  prefetch : Nat

/-- Choices that Go or the environment makes. `order n` is the order in which the n-th `range` over the
index map enumerates it. `sort ks` is the `keyOrder` computed by `sortKeys ks` (table.go:1196-1209). -/
structure Env (T : Type) where
  done : Nat → Bool
  order : Nat → List (Index T)
  sort : List Bytes → List Nat
  commitOk : Bool

/-- Reasons for which a call fails. `panic` stands for every run-time panic (returned in table.go and table_unsafe.go). -/
inductive Err
  | ctxDone | alreadyExist | notFound | ser | deser | commit | sizeMismatch | badSelector | panic
  | notIndexed | callback | badQuery | storage
deriving DecidableEq, Repr

variable {T F : Type}

namespace Table

/-- table.go:1224-1234 `key` -/
def key (t : Table T F) (tr : T) : Bytes := dataKey t.id (t.pk tr)

/-- index.go:405-422 `encodeIndexKey` -/
def indexKey (t : Table T F) (idx : Index T) (tr : T) : Bytes :=
  encodeIndexKey t.id idx.id (idx.key tr) (idx.ord tr) (t.pk tr)

/-- table.go:169-174 the primary index (key function appends nothing, table.go:31) -/
def primaryIndex (_t : Table T F) : Index T :=
  { id := primaryIndexID, key := fun _ => [], ord := fun _ => [], filter := fun _ => true }

/-- table.go:177 `dataKeySpaceEnd` -/
def dataKeySpaceEnd (t : Table T F) : Bytes := [t.id, 1, 0, 0, 0, 0]

end Table

/-- index.go:280-290 `OnInsert`: the writes it adds to the batch -/
def onInsert (t : Table T F) (idx : Index T) (tr : T) : List WOp :=
  if idx.filter tr then [.set (t.indexKey idx tr) indexKeyValue] else []

/-- index.go:292-338 `OnUpdate` -/
def onUpdate (t : Table T F) (idx : Index T) (oldTr tr : T) : List WOp :=
  let deleteKey := if idx.filter oldTr then some (t.indexKey idx oldTr) else none
  let setKey := if idx.filter tr then some (t.indexKey idx tr) else none
  match deleteKey, setKey with
  | some d, some s => if d ≠ s then [.del d, .set s indexKeyValue] else []
  | some d, none => [.del d]
  | none, some s => [.set s indexKeyValue]
  | none, none => []

/-- index.go:340-353 `OnDelete` -/
def onDelete (t : Table T F) (idx : Index T) (tr : T) : List WOp :=
  if idx.filter tr then [.del (t.indexKey idx tr)] else []

/-- Progress of a write call: writes added to the batch by this call, filter state, number of
environment choices consumed, and the reused object `oldTr` (table.go:498, 683). -/
structure WSt (T F : Type) where
  ops : List WOp
  filt : F
  clock : Nat
  oldTr : T

/-- iterator `SeekGE` (pebble) on the entries visible to it (table.go:529, 833, 967) -/
def seekGE (entries : List (Bytes × Bytes)) (key : Bytes) : Option (Bytes × Bytes) :=
  entries.find? (fun e => ble key e.1)

/-- `iter.SeekGE(key) && bytes.Equal(iter.Key(), key)`; gives the value (table.go:529, 833, 967) -/
def seekExact (entries : List (Bytes × Bytes)) (key : Bytes) : Option Bytes :=
  match seekGE entries key with
  | some (k, v) => if k = key then some v else none
  | none => none

/-- table.go:818-834 `exist` (with an iterator): `none` = false, `some v` = true with the iterator on value `v` -/
def Table.existIter (t : Table T F) (f : F) (entries : List (Bytes × Bytes)) (key : Bytes) : Option Bytes :=
  match t.filter with
  | some fl => if !fl.may f key then none else seekExact entries key
  | none => seekExact entries key

/-- table.go:430-433, 767-770 `if t.filter != nil { t.filter.Add(ctx, key) }` -/
def Table.filterAdd (t : Table T F) (f : F) (key : Bytes) : F :=
  match t.filter with
  | some fl => fl.add f key
  | none => f

/-- table.go:1278-1297 `batched`: the slices passed to `f`, computed with the index arithmetic of the loop;
`fuel` bounds the number of rounds (one per item is enough). -/
def batchedLoop {α : Type} (items : List α) (batchSize : Nat) : Nat → Nat → List (List α)
  | 0, _ => []
  | fuel + 1, batchNum =>
    if batchNum * batchSize < items.length then
      let start := batchNum * batchSize
      let «end» := start + batchSize
      let «end» := if «end» > items.length then start + items.length % batchSize else «end»
      ((items.take «end»).drop start) :: batchedLoop items batchSize fuel (batchNum + 1)
    else []

/-- table.go:1278-1297 `batched` -/
def batched {α : Type} (items : List α) (batchSize : Nat) : List (List α) :=
  batchedLoop items batchSize items.length 0

/-- running the callback of `batched` over the slices, stopping at the first error (table.go:1278-1297) -/
def forChunks {σ α : Type} (f : List α → σ → σ × Option Err) : List (List α) → σ → σ × Option Err
  | [], s => (s, none)
  | c :: cs, s =>
    match f c s with
    | (s', none) => forChunks f cs s'
    | (s', some e) => (s', some e)

/-- table.go:1196-1209 `sortKeys`: the sorted keys, each with its `keyOrder` entry.
An out-of-range entry (impossible for a permutation) would be an index panic in the caller. -/
def sortKeys (env : Env T) (keys : List Bytes) : List (Bytes × Nat) :=
  (env.sort keys).map (fun j => (keys.getD j [], j))

/-- What a read inside a write call sees: `t.db.Iter(..., batchReadWrite)` (table.go:357-359, 389-394).
A write-only batch is not read; the iterator is a snapshot taken when it is created. -/
def readView (db : KV) (optBatch : Option Batch) (ops : List WOp) : KV :=
  match optBatch with
  | none => db
  | some b => if b.indexed then db.apply (b.ops ++ ops) else db

/-- Result of a write call. `commits` lists the durable commits issued, in order: a crash leaves a prefix (table.go:338-789, table_unsafe.go:20-203). -/
structure WOut (F : Type) where
  db : KV
  batch : Option Batch
  filt : F
  err : Option Err
  commits : List (List WOp)

/-- table.go:438-449 end of every write call: on error return (the internal batch is closed without commit),
otherwise commit unless the batch is external. `Commit` of an empty batch does nothing (batch.go:135-137).
A failed pebble commit is taken to have no effect. -/
def finish (env : Env T) (db : KV) (optBatch : Option Batch) (r : WSt T F × Option Err) : WOut F :=
  match optBatch with
  | some b => { db := db, batch := some { b with ops := b.ops ++ r.1.ops }, filt := r.1.filt, err := r.2, commits := [] }
  | none =>
    match r.2 with
    | some e => { db := db, batch := none, filt := r.1.filt, err := some e, commits := [] }
    | none =>
      if r.1.ops = [] then { db := db, batch := none, filt := r.1.filt, err := none, commits := [] }
      else if env.commitOk then
        { db := db.apply r.1.ops, batch := none, filt := r.1.filt, err := none, commits := [r.1.ops] }
      else { db := db, batch := none, filt := r.1.filt, err := some .commit, commits := [] }

namespace Table

/-- table.go:398-434 loop of `Insert` over the sorted keys; `prev` is `keys[i-1]` (keyDuplicate, 1245-1247),
`entries` what the iterator sees, `trs` the slice given by `batched`. -/
def insertLoop (t : Table T F) (env : Env T) (entries : List (Bytes × Bytes)) (trs : List T) :
    Option Bytes → List (Bytes × Nat) → WSt T F → WSt T F × Option Err
  | _, [], s => (s, none)
  | prev, (key, j) :: rest, s =>
    if env.done s.clock then (s, some .ctxDone)
    else if prev = some key ∨ (t.existIter s.filt entries key).isSome then (s, some .alreadyExist)
    else
      match trs[j]? with
      | none => (s, some .panic)
      | some tr =>
        match t.ser tr with
        | none => (s, some .ser)
        | some data =>
          t.insertLoop env entries trs (some key) rest
            { ops := s.ops ++ .set key data :: (env.order s.clock).flatMap (fun idx => onInsert t idx tr)
              filt := t.filterAdd s.filt key, clock := s.clock + 1, oldTr := s.oldTr }

/-- table.go:381-437 one slice of `Insert` -/
def insertChunk (t : Table T F) (env : Env T) (db : KV) (optBatch : Option Batch) (trs : List T) (s : WSt T F) :
    WSt T F × Option Err :=
  let keys := sortKeys env (trs.map t.key)
  let entries := (readView db optBatch s.ops).scan ((keys.map Prod.fst).headD []) t.dataKeySpaceEnd
  t.insertLoop env entries trs none keys s

/-- table.go:338-450 `Insert`, with the slice size as a parameter (5000 in the code) -/
def insertBs (bs : Nat) (t : Table T F) (env : Env T) (db : KV) (filt : F) (optBatch : Option Batch) (trs : List T) :
    WOut F :=
  finish env db optBatch
    (forChunks (t.insertChunk env db optBatch) (batched trs bs) { ops := [], filt := filt, clock := 0, oldTr := t.nil })

/-- table.go:338-450 `Insert` -/
def insert (t : Table T F) := insertBs persistentBatchSize t

/-- table.go:516-559 loop of `Update` -/
def updateLoop (t : Table T F) (env : Env T) (entries : List (Bytes × Bytes)) (trs : List T) :
    List (Bytes × Nat) → WSt T F → WSt T F × Option Err
  | [], s => (s, none)
  | (key, j) :: rest, s =>
    if env.done s.clock then (s, some .ctxDone)
    else if (rest.head?.map Prod.fst) = some key then t.updateLoop env entries trs rest { s with clock := s.clock + 1 }
    else
      match seekExact entries key with
      | none => (s, some .notFound)
      | some v =>
        match t.deser s.oldTr v with
        | none => (s, some .deser)
        | some old =>
          match trs[j]? with
          | none => (s, some .panic)
          | some tr =>
            match t.ser tr with
            | none => ({ s with oldTr := old }, some .ser)
            | some data =>
              t.updateLoop env entries trs rest
                { ops := s.ops ++ .set key data :: (env.order s.clock).flatMap (fun idx => onUpdate t idx old tr)
                  filt := s.filt, clock := s.clock + 1, oldTr := old }

/-- table.go:500-562 one slice of `Update` -/
def updateChunk (t : Table T F) (env : Env T) (db : KV) (optBatch : Option Batch) (trs : List T) (s : WSt T F) :
    WSt T F × Option Err :=
  let keys := sortKeys env (trs.map t.key)
  let entries := (readView db optBatch s.ops).scan ((keys.map Prod.fst).headD []) t.dataKeySpaceEnd
  t.updateLoop env entries trs keys s

/-- table.go:452-575 `Update`, slice size as parameter -/
def updateBs (bs : Nat) (t : Table T F) (env : Env T) (db : KV) (filt : F) (optBatch : Option Batch) (trs : List T) :
    WOut F :=
  finish env db optBatch
    (forChunks (t.updateChunk env db optBatch) (batched trs bs) { ops := [], filt := filt, clock := 0, oldTr := t.nil })

/-- table.go:452-575 `Update` -/
def update (t : Table T F) := updateBs persistentBatchSize t

/-- table.go:602-625 loop of `Delete` -/
def deleteLoop (t : Table T F) (env : Env T) : List T → WSt T F → WSt T F × Option Err
  | [], s => (s, none)
  | tr :: rest, s =>
    if env.done s.clock then (s, some .ctxDone)
    else
      t.deleteLoop env rest
        { s with ops := s.ops ++ .del (t.key tr) :: (env.order s.clock).flatMap (fun idx => onDelete t idx tr)
                 clock := s.clock + 1 }

/-- table.go:577-635 `Delete` -/
def delete (t : Table T F) (env : Env T) (db : KV) (filt : F) (optBatch : Option Batch) (trs : List T) : WOut F :=
  finish env db optBatch (t.deleteLoop env trs { ops := [], filt := filt, clock := 0, oldTr := t.nil })

/-- The conflict function of `Upsert`: first component is what it returns, second the content of its `old`
argument afterwards (a pointer record may be modified by the callback) (table.go:637, 727, 734). -/
abbrev OnConflict (T : Type) := T → T → T × T

/-- table.go:730-736 inner loop over duplicates. `i` is the position in the sorted keys; the code reads
`trs[i]`, not `trs[keyOrder[i]]`. Returns the remaining keys, the position, `tr` and `oldTr`. -/
def upsertDup (oc : OnConflict T) (trs : List T) (key : Bytes) :
    List (Bytes × Nat) → Nat → T → T → Option (List (Bytes × Nat) × Nat × T × T)
  | [], i, tr, oldTr => some ([], i, tr, oldTr)
  | (key', j') :: rest, i, tr, oldTr =>
    if key' = key then
      match trs[i + 1]? with
      | none => none
      | some x => upsertDup oc trs key rest (i + 1) (oc tr x).1 (oc tr x).2
    else some ((key', j') :: rest, i, tr, oldTr)

/-- table.go:701-773 loop of `Upsert`; `i` is the position of the head of the list; `fuel` bounds the rounds
(the list gets shorter in every round, so its length is enough). -/
def upsertLoop (t : Table T F) (env : Env T) (oc : OnConflict T) (entries : List (Bytes × Bytes)) (trs : List T) :
    Nat → Nat → List (Bytes × Nat) → WSt T F → WSt T F × Option Err
  | 0, _, _, s => (s, none)
  | _, _, [], s => (s, none)
  | fuel + 1, i, (key, j) :: rest, s =>
    match trs[j]? with
    | none => (s, some .panic)
    | some tr =>
      if env.done s.clock then (s, some .ctxDone)
      else
        -- old record: `none` = deserialize error, `some none` = absent, `some (some old)` = present
        let found : Option (Option T) :=
          match t.existIter s.filt entries key with
          | none => some none
          | some v => (t.deser s.oldTr v).map some
        match found with
        | none => (s, some .deser)
        | some found =>
          let start : T × T := match found with
            | none => (tr, s.oldTr)
            | some old => oc old tr
          match upsertDup oc trs key rest i start.1 start.2 with
          | none => (s, some .panic)
          | some (rest', i', tr', old') =>
            match t.ser tr' with
            | none => ({ s with oldTr := old' }, some .ser)
            | some data =>
              let idxOps := match found with
                | some _ => (env.order s.clock).flatMap (fun idx => onUpdate t idx old' tr')
                | none => (env.order s.clock).flatMap (fun idx => onInsert t idx tr')
              t.upsertLoop env oc entries trs fuel (i' + 1) rest'
                { ops := s.ops ++ .set key data :: idxOps
                  filt := match found with
                    | some _ => s.filt
                    | none => t.filterAdd s.filt key
                  clock := s.clock + 1, oldTr := old' }

/-- table.go:685-776 one slice of `Upsert` -/
def upsertChunk (t : Table T F) (env : Env T) (db : KV) (optBatch : Option Batch) (oc : OnConflict T) (trs : List T)
    (s : WSt T F) : WSt T F × Option Err :=
  let keys := sortKeys env (trs.map t.key)
  let entries := (readView db optBatch s.ops).scan ((keys.map Prod.fst).headD []) t.dataKeySpaceEnd
  t.upsertLoop env oc entries trs keys.length 0 keys s

/-- table.go:637-789 `Upsert`, slice size as parameter -/
def upsertBs (bs : Nat) (t : Table T F) (env : Env T) (db : KV) (filt : F) (optBatch : Option Batch)
    (oc : OnConflict T) (trs : List T) : WOut F :=
  finish env db optBatch
    (forChunks (t.upsertChunk env db optBatch oc) (batched trs bs) { ops := [], filt := filt, clock := 0, oldTr := t.nil })

/-- table.go:637-789 `Upsert` -/
def upsert (t : Table T F) := upsertBs persistentBatchSize t

/-- table_unsafe.go:156-187 loop of `UnsafeInsert` -/
def unsafeInsertLoop (t : Table T F) (env : Env T) : List T → WSt T F → WSt T F × Option Err
  | [], s => (s, none)
  | tr :: rest, s =>
    if env.done s.clock then (s, some .ctxDone)
    else
      match t.ser tr with
      | none => (s, some .ser)
      | some data =>
        t.unsafeInsertLoop env rest
          { ops := s.ops ++ .set (t.key tr) data :: (env.order s.clock).flatMap (fun idx => onInsert t idx tr)
            filt := t.filterAdd s.filt (t.key tr), clock := s.clock + 1, oldTr := s.oldTr }

/-- table_unsafe.go:113-203 `UnsafeInsert` -/
def unsafeInsertBs (bs : Nat) (t : Table T F) (env : Env T) (db : KV) (filt : F) (optBatch : Option Batch)
    (trs : List T) : WOut F :=
  finish env db optBatch
    (forChunks (t.unsafeInsertLoop env) (batched trs bs) { ops := [], filt := filt, clock := 0, oldTr := t.nil })

/-- table_unsafe.go:113-203 `UnsafeInsert` -/
def unsafeInsert (t : Table T F) := unsafeInsertBs persistentBatchSize t

/-- table_unsafe.go:59-92 loop of `UnsafeUpdate` -/
def unsafeUpdateLoop (t : Table T F) (env : Env T) : List (T × T) → WSt T F → WSt T F × Option Err
  | [], s => (s, none)
  | (tr, oldTr) :: rest, s =>
    if env.done s.clock then (s, some .ctxDone)
    else
      match t.ser tr with
      | none => (s, some .ser)
      | some data =>
        t.unsafeUpdateLoop env rest
          { s with ops := s.ops ++ .set (t.key tr) data :: (env.order s.clock).flatMap (fun idx => onUpdate t idx oldTr tr)
                   clock := s.clock + 1 }

/-- table_unsafe.go:20-103 `UnsafeUpdate` -/
def unsafeUpdate (t : Table T F) (env : Env T) (db : KV) (filt : F) (optBatch : Option Batch) (trs oldTrs : List T) :
    WOut F :=
  if trs.length ≠ oldTrs.length then
    { db := db, batch := optBatch, filt := filt, err := some .sizeMismatch, commits := [] }
  else
    finish env db optBatch (t.unsafeUpdateLoop env (trs.zip oldTrs) { ops := [], filt := filt, clock := 0, oldTr := t.nil })

end Table
end Bond
