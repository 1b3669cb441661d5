import Verif.Read

/- Tables whose record type is a pointer (`Table[*Row]`): which objects the write calls and `Get` create, write and hand
out. Key functions, index functions and serializers only read the records given to them (C06, C78). -/

namespace Bond

variable {T F : Type}

/-- The objects records point to (Go heap, nothing in /repo): `cell p` is the content of object `p`, objects from `next` on do
not exist yet. Content is a value: objects reachable from a record (slices, maps, inner pointers) are not separate. -/
structure RMem (T : Type) where
  cell : Nat → T
  next : Nat

/-- `*p = x` (Go heap, nothing in /repo) -/
def RMem.set (m : RMem T) (p : Nat) (x : T) : RMem T := { m with cell := fun q => if q = p then x else m.cell q }

/-- `new(Row)` filled with `x` (Go heap, nothing in /repo): the object is `m.next` -/
def RMem.alloc (m : RMem T) (x : T) : RMem T := { cell := fun q => if q = m.next then x else m.cell q, next := m.next + 1 }

/-- Outcome of `Deserialize` (table.go:533, 718, 878, 910): the objects, the object decoded into, whether it worked -/
structure Decoded (T : Type) where
  mem : RMem T
  ptr : Nat
  ok : Bool

/-- How the serializer decodes into a pointer: `reuse` says that a non-nil pointer keeps its object, which is overwritten
(serializers/json.go:12-14, cbor.go:21-26, msgp.go:66-68); otherwise the pointer gets a new object (msgp_gen.go:68-79). `junk`
is what a failed decoding leaves in the object. -/
structure Decoder (T : Type) where
  reuse : Bool
  junk : T → Bytes → T

/-- `t.serializer.Deserialize(value, &tr)` for `tr` a pointer (table.go:533, 718, 878, 910): a nil `tr` gets a new object -/
def Table.decodeP (t : Table T F) (dec : Decoder T) (m : RMem T) (tr : Option Nat) (v : Bytes) : Decoded T :=
  match (if dec.reuse then tr else none) with
  | none =>
    match t.deser t.nil v with
    | some x => ⟨m.alloc x, m.next, true⟩
    | none => ⟨m.alloc (dec.junk t.nil v), m.next, false⟩
  | some p =>
    match t.deser (m.cell p) v with
    | some x => ⟨m.set p x, p, true⟩
    | none => ⟨m.set p (dec.junk (m.cell p) v), p, false⟩

/-- Progress and outcome of a write call on pointer records, with the objects; `oldTr` of the state is the pointer of
table.go:498, 683 (nil at first) -/
abbrev WRes (T F : Type) := (WSt (Option Nat) F × Option Err) × RMem T

/-- table.go:516-559 loop of `Update` on pointer records -/
def Table.updateLoopP (t : Table T F) (env : Env T) (dec : Decoder T) (entries : List (Bytes × Bytes)) (trs : List Nat) :
    List (Bytes × Nat) → RMem T → WSt (Option Nat) F → WRes T F
  | [], m, s => ((s, none), m)
  | (key, j) :: rest, m, s =>
    if env.done s.clock then ((s, some .ctxDone), m)
    else if (rest.head?.map Prod.fst) = some key then t.updateLoopP env dec entries trs rest m { s with clock := s.clock + 1 }
    else
      match seekExact entries key with
      | none => ((s, some .notFound), m)
      | some v =>
        let d := t.decodeP dec m s.oldTr v
        if d.ok = false then (({ s with oldTr := some d.ptr }, some .deser), d.mem)
        else
          match trs[j]? with
          | none => ((s, some .panic), d.mem)
          | some p =>
            match t.ser (d.mem.cell p) with
            | none => (({ s with oldTr := some d.ptr }, some .ser), d.mem)
            | some data =>
              t.updateLoopP env dec entries trs rest d.mem
                { ops := s.ops ++ .set key data ::
                    (env.order s.clock).flatMap (fun idx => onUpdate t idx (d.mem.cell d.ptr) (d.mem.cell p))
                  filt := s.filt, clock := s.clock + 1, oldTr := some d.ptr }

/-- table.go:500-562 one slice of `Update` on pointer records -/
def Table.updateChunkP (t : Table T F) (env : Env T) (dec : Decoder T) (db : KV) (optBatch : Option Batch) (trs : List Nat)
    (s : WSt (Option Nat) F × RMem T) : (WSt (Option Nat) F × RMem T) × Option Err :=
  let keys := sortKeys env (trs.map (fun p => t.key (s.2.cell p)))
  let entries := (readView db optBatch s.1.ops).scan ((keys.map Prod.fst).headD []) t.dataKeySpaceEnd
  let r := t.updateLoopP env dec entries trs keys s.2 s.1
  ((r.1.1, r.2), r.1.2)

/-- end of a write call on pointer records (table.go:438-449, 565-574, 778-787): as `finish`, and the objects -/
def finishP (env : Env T) (nil : T) (db : KV) (optBatch : Option Batch) (r : (WSt (Option Nat) F × RMem T) × Option Err) : WOut F × RMem T :=
  (finish env db optBatch ({ ops := r.1.1.ops, filt := r.1.1.filt, clock := r.1.1.clock, oldTr := nil }, r.2), r.1.2)

/-- table.go:452-575 `Update` on pointer records, slice size as parameter; `m` are the objects before the call, `trs` the
(non-nil) pointers given -/
def Table.updatePBs (bs : Nat) (t : Table T F) (env : Env T) (dec : Decoder T) (db : KV) (filt : F) (optBatch : Option Batch)
    (m : RMem T) (trs : List Nat) : WOut F × RMem T :=
  finishP env t.nil db optBatch (forChunks (t.updateChunkP env dec db optBatch) (batched trs bs)
    ({ ops := [], filt := filt, clock := 0, oldTr := none }, m))

/-- table.go:452-575 `Update` on pointer records -/
def Table.updateP (t : Table T F) := Table.updatePBs persistentBatchSize t

/-- The conflict function of `Upsert` on pointer records (table.go:637): it gets the two pointers, may write objects and make
new ones, and returns a pointer. -/
abbrev OnConflictP (T : Type) := RMem T → Nat → Nat → RMem T × Nat

/-- table.go:27-29 `TableUpsertOnConflictReplace` -/
def upsertReplaceP : OnConflictP T := fun m _ new => (m, new)

/-- table.go:730-736 inner loop over duplicates on pointer records: `oldTr = tr` copies the pointer -/
def upsertDupP (oc : OnConflictP T) (trs : List Nat) (key : Bytes) :
    List (Bytes × Nat) → Nat → RMem T → Nat → Option Nat → Option (List (Bytes × Nat) × Nat × RMem T × Nat × Option Nat)
  | [], i, m, tr, oldTr => some ([], i, m, tr, oldTr)
  | (key', j') :: rest, i, m, tr, oldTr =>
    if key' = key then
      match trs[i + 1]? with
      | none => none
      | some x => upsertDupP oc trs key rest (i + 1) (oc m tr x).1 (oc m tr x).2 (some tr)
    else some ((key', j') :: rest, i, m, tr, oldTr)

/-- Content of a pointer that may be nil; the code reads `oldTr` only after it was set (table.go:683-752) -/
def RMem.read (m : RMem T) (nil : T) : Option Nat → T
  | none => nil
  | some p => m.cell p

/-- table.go:701-773 loop of `Upsert` on pointer records -/
def Table.upsertLoopP (t : Table T F) (env : Env T) (dec : Decoder T) (oc : OnConflictP T) (entries : List (Bytes × Bytes)) (trs : List Nat) :
    Nat → Nat → List (Bytes × Nat) → RMem T → WSt (Option Nat) F → WRes T F
  | 0, _, _, m, s => ((s, none), m)
  | _, _, [], m, s => ((s, none), m)
  | fuel + 1, i, (key, j) :: rest, m, s =>
    match trs[j]? with
    | none => ((s, some .panic), m)
    | some tr =>
      if env.done s.clock then ((s, some .ctxDone), m)
      else
        -- the objects, `oldTr`, whether there is a row, whether it could be decoded
        let found : RMem T × Option Nat × Bool × Bool :=
          match t.existIter s.filt entries key with
          | none => (m, s.oldTr, false, true)
          | some v => let d := t.decodeP dec m s.oldTr v; (d.mem, some d.ptr, true, d.ok)
        if found.2.2.2 = false then (({ s with oldTr := found.2.1 }, some .deser), found.1)
        else
          let start : RMem T × Nat := match found.2.2.1, found.2.1 with
            | true, some old => oc found.1 old tr
            | _, _ => (found.1, tr)
          match upsertDupP oc trs key rest i start.1 start.2 found.2.1 with
          | none => ((s, some .panic), start.1)
          | some (rest', i', m', tr', old') =>
            match t.ser (m'.cell tr') with
            | none => (({ s with oldTr := old' }, some .ser), m')
            | some data =>
              let idxOps := if found.2.2.1 then (env.order s.clock).flatMap (fun idx => onUpdate t idx (m'.read t.nil old') (m'.cell tr'))
                else (env.order s.clock).flatMap (fun idx => onInsert t idx (m'.cell tr'))
              t.upsertLoopP env dec oc entries trs fuel (i' + 1) rest' m'
                { ops := s.ops ++ .set key data :: idxOps
                  filt := if found.2.2.1 then s.filt else t.filterAdd s.filt key
                  clock := s.clock + 1, oldTr := old' }

/-- table.go:685-776 one slice of `Upsert` on pointer records -/
def Table.upsertChunkP (t : Table T F) (env : Env T) (dec : Decoder T) (db : KV) (optBatch : Option Batch) (oc : OnConflictP T)
    (trs : List Nat) (s : WSt (Option Nat) F × RMem T) : (WSt (Option Nat) F × RMem T) × Option Err :=
  let keys := sortKeys env (trs.map (fun p => t.key (s.2.cell p)))
  let entries := (readView db optBatch s.1.ops).scan ((keys.map Prod.fst).headD []) t.dataKeySpaceEnd
  let r := t.upsertLoopP env dec oc entries trs keys.length 0 keys s.2 s.1
  ((r.1.1, r.2), r.1.2)

/-- table.go:637-789 `Upsert` on pointer records, slice size as parameter -/
def Table.upsertPBs (bs : Nat) (t : Table T F) (env : Env T) (dec : Decoder T) (db : KV) (filt : F) (optBatch : Option Batch)
    (oc : OnConflictP T) (m : RMem T) (trs : List Nat) : WOut F × RMem T :=
  finishP env t.nil db optBatch (forChunks (t.upsertChunkP env dec db optBatch oc) (batched trs bs)
    ({ ops := [], filt := filt, clock := 0, oldTr := none }, m))

/-- table.go:637-789 `Upsert` on pointer records -/
def Table.upsertP (t : Table T F) := Table.upsertPBs persistentBatchSize t

/-- table.go:903-917 the rows `Get` makes of the values it found: a row that is not there is `valueNil` (a nil pointer,
table.go:140), every other row is decoded into a variable of its own (`var tr T`). The second component is false when a
value could not be decoded. -/
def Table.decodeAllP (t : Table T F) (dec : Decoder T) : List Bytes → RMem T → (List (Option Nat) × Bool) × RMem T
  | [], m => (([], true), m)
  | v :: vs, m =>
    if v = [] then
      let r := t.decodeAllP dec vs m
      ((none :: r.1.1, r.1.2), r.2)
    else
      let d := t.decodeP dec m none v
      if d.ok = false then (([], false), d.mem)
      else
        let r := t.decodeAllP dec vs d.mem
        ((some d.ptr :: r.1.1, r.1.2), r.2)

/-- table.go:900-921 the slices of `Get` with a points selector on pointer records; `points` are the contents of the objects
given -/
def Table.getChunksP (t : Table T F) (env : Env T) (dec : Decoder T) (f : F) (db : KV) (ob : Option Batch) (cap : Nat) :
    List (List Nat) → RMem T → Except Err (List (Option Nat)) × RMem T
  | [], m => (.ok [], m)
  | c :: cs, m =>
    match t.getKeys env f db ob (c.map (fun p => t.key (m.cell p))) cap false with
    | .error e => (.error e, m)
    | .ok values =>
      let d := t.decodeAllP dec values m
      if d.1.2 = false then (.error .deser, d.2)
      else
        let r := t.getChunksP env dec f db ob cap cs d.2
        (r.1.map (d.1.1 ++ ·), r.2)

/-- table.go:848-924 `Get` with a points selector on pointer records -/
def Table.getManyP (t : Table T F) (env : Env T) (dec : Decoder T) (f : F) (db : KV) (ob : Option Batch) (m : RMem T)
    (points : List Nat) : Except Err (List (Option Nat)) × RMem T :=
  t.getChunksP env dec f db ob points.length (batched points points.length) m

end Bond
