import Verif.Buffers
/-
The writes of table.go on memory: the keys of the rows are in pooled buffers, which are used again for every slice of rows, and the index
keys and the serialized row are in buffers used again for every row.
-/
namespace Bond

variable {T F : Type}

/-- What the functions of the user append, piece by piece (keys.go:20-145: each `Add…` of a `KeyBuilder` is an `append`). -/
structure Pieces (T : Type) where
  pk : T → List Bytes
  key : Index T → T → List Bytes
  ord : Index T → T → List Bytes

/-- the pieces are the bytes of the keys (keys.go:20-145) -/
structure Pieces.For (pc : Pieces T) (t : Table T F) : Prop where
  pk : ∀ x, (pc.pk x).flatten = t.pk x
  key : ∀ i x, (pc.key i x).flatten = i.key x
  ord : ∀ i x, (pc.ord i x).flatten = i.ord x

/-- table.go:1224-1234 `key` on memory -/
def Table.keyM (t : Table T F) (grow : Nat → Nat → Nat) (pc : Pieces T) (tr : T) (m : Mem) (buff : Sl) : Mem × Sl :=
  keyEncodeRawM grow t.id primaryIndexID none none (some (pc.pk tr)) m buff.zero

/-- index.go:405-422 `encodeIndexKey` on memory -/
def Table.indexKeyM (t : Table T F) (grow : Nat → Nat → Nat) (pc : Pieces T) (idx : Index T) (tr : T) (m : Mem) (buff : Sl) : Mem × Sl :=
  keyEncodeRawM grow t.id idx.id (some (pc.key idx tr)) (some (pc.ord idx tr)) (some (pc.pk tr)) m buff

/-- table.go:1236-1243 `keysExternal`: each key is written into a buffer, which is replaced in the array when it has to grow; gives the keys
and the buffers not used; `none` is the panic if there are too few buffers -/
def Table.keysExternalM (t : Table T F) (grow : Nat → Nat → Nat) (pc : Pieces T) : Mem → List T → List Sl → Option (Mem × List Sl × List Sl)
  | m, [], bs => some (m, [], bs)
  | _, _ :: _, [] => none
  | m, tr :: trs, b :: bs =>
    let r := t.keyM grow pc tr m b
    (t.keysExternalM grow pc r.1 trs bs).map (fun q => (q.1, r.2 :: q.2.1, q.2.2))

/-- index.go:280-290 `OnInsert` on memory: `batch.Set` copies what the buffer holds -/
def onInsertM (t : Table T F) (grow : Nat → Nat → Nat) (pc : Pieces T) (tr : T) (buff : Sl) (idx : Index T) (m : Mem) : Mem × List WOp :=
  if idx.filter tr then
    let r := t.indexKeyM grow pc idx tr m buff
    (r.1, [.set (r.1.read r.2) indexKeyValue])
  else (m, [])

/-- index.go:292-338 `OnUpdate` on memory: both keys are written before either is read -/
def onUpdateM (t : Table T F) (grow : Nat → Nat → Nat) (pc : Pieces T) (oldTr tr : T) (buff buff2 : Sl) (idx : Index T) (m : Mem) :
    Mem × List WOp :=
  let d : Mem × Option Sl := if idx.filter oldTr then
    let r := t.indexKeyM grow pc idx oldTr m buff
    (r.1, some r.2) else (m, none)
  let s : Mem × Option Sl := if idx.filter tr then
    let r := t.indexKeyM grow pc idx tr d.1 buff2
    (r.1, some r.2) else (d.1, none)
  (s.1,
    match d.2, s.2 with
    | some deleteKey, some setKey =>
      if s.1.read deleteKey ≠ s.1.read setKey then [.del (s.1.read deleteKey), .set (s.1.read setKey) indexKeyValue] else []
    | some deleteKey, none => [.del (s.1.read deleteKey)]
    | none, some setKey => [.set (s.1.read setKey) indexKeyValue]
    | none, none => [])

/-- index.go:340-353 `OnDelete` on memory -/
def onDeleteM (t : Table T F) (grow : Nat → Nat → Nat) (pc : Pieces T) (tr : T) (buff : Sl) (idx : Index T) (m : Mem) : Mem × List WOp :=
  if idx.filter tr then
    let r := t.indexKeyM grow pc idx tr m buff
    (r.1, [.del (r.1.read r.2)])
  else (m, [])

/-- the loops over the indexes (table.go:422-428, 551-557, 618-624, 749-763) -/
def idxOpsM (f : Index T → Mem → Mem × List WOp) : List (Index T) → Mem → Mem × List WOp
  | [], m => (m, [])
  | i :: is, m =>
    let r := f i m
    let r' := idxOpsM f is r.1
    (r'.1, r.2 ++ r'.2)

/-- The buffers of a write call (table.go:361-371, 477-490, 594-599, 662-675): the array of key buffers, the two index key buffers and the
buffer of the serializer. -/
structure WMem where
  mem : Mem
  keys : List Sl
  ib : Sl
  ib2 : Sl
  val : Sl

/-- table.go:398-434 loop of `Insert` on memory; the serializer writes into the value buffer (a serializer without buffer writes into memory
of its own) -/
def Table.insertLoopM (t : Table T F) (env : Env T) (grow : Nat → Nat → Nat) (pc : Pieces T) (ib : Sl) (entries : List (Bytes × Bytes))
    (trs : List T) : Option Sl → List (Sl × Nat) → Mem → Sl → WSt T F → (WSt T F × Option Err) × Mem × Sl
  | _, [], m, val, s => ((s, none), m, val)
  | prev, (key, j) :: rest, m, val, s =>
    if env.done s.clock then ((s, some .ctxDone), m, val)
    else if prev.map m.read = some (m.read key) ∨ (t.existIter s.filt entries (m.read key)).isSome then ((s, some .alreadyExist), m, val)
    else
      match trs[j]? with
      | none => ((s, some .panic), m, val)
      | some tr =>
        match t.ser tr with
        | none => ((s, some .ser), m, val)
        | some data =>
          let d := m.append grow val.zero data
          let x := idxOpsM (onInsertM t grow pc tr ib.zero) (env.order s.clock) d.1
          t.insertLoopM env grow pc ib entries trs (some key) rest x.1 d.2
            { ops := s.ops ++ .set (d.1.read key) (d.1.read d.2) :: x.2
              filt := t.filterAdd s.filt (x.1.read key), clock := s.clock + 1, oldTr := s.oldTr }

/-- table.go:516-559 loop of `Update` on memory -/
def Table.updateLoopM (t : Table T F) (env : Env T) (grow : Nat → Nat → Nat) (pc : Pieces T) (ib ib2 : Sl) (entries : List (Bytes × Bytes))
    (trs : List T) : List (Sl × Nat) → Mem → Sl → WSt T F → (WSt T F × Option Err) × Mem × Sl
  | [], m, val, s => ((s, none), m, val)
  | (key, j) :: rest, m, val, s =>
    if env.done s.clock then ((s, some .ctxDone), m, val)
    else if (rest.head?.map (fun p => m.read p.1)) = some (m.read key) then
      t.updateLoopM env grow pc ib ib2 entries trs rest m val { s with clock := s.clock + 1 }
    else
      match seekExact entries (m.read key) with
      | none => ((s, some .notFound), m, val)
      | some v =>
        match t.deser s.oldTr v with
        | none => ((s, some .deser), m, val)
        | some old =>
          match trs[j]? with
          | none => ((s, some .panic), m, val)
          | some tr =>
            match t.ser tr with
            | none => (({ s with oldTr := old }, some .ser), m, val)
            | some data =>
              let d := m.append grow val.zero data
              let x := idxOpsM (onUpdateM t grow pc old tr ib.zero ib2.zero) (env.order s.clock) d.1
              t.updateLoopM env grow pc ib ib2 entries trs rest x.1 d.2
                { ops := s.ops ++ .set (d.1.read key) (d.1.read d.2) :: x.2
                  filt := s.filt, clock := s.clock + 1, oldTr := old }

/-- table.go:602-625 loop of `Delete` on memory; `kb` is `keyBuffer` -/
def Table.deleteLoopM (t : Table T F) (env : Env T) (grow : Nat → Nat → Nat) (pc : Pieces T) (kb ib : Sl) :
    List T → Mem → WSt T F → (WSt T F × Option Err) × Mem
  | [], m, s => ((s, none), m)
  | tr :: rest, m, s =>
    if env.done s.clock then ((s, some .ctxDone), m)
    else
      let k := t.keyM grow pc tr m kb
      let x := idxOpsM (onDeleteM t grow pc tr ib.zero) (env.order s.clock) k.1
      t.deleteLoopM env grow pc kb ib rest x.1 { s with ops := s.ops ++ .del (k.1.read k.2) :: x.2, clock := s.clock + 1 }

/-- table.go:730-736 the loop over duplicates on memory -/
def upsertDupM (oc : Table.OnConflict T) (trs : List T) (m : Mem) (key : Sl) :
    List (Sl × Nat) → Nat → T → T → Option (List (Sl × Nat) × Nat × T × T)
  | [], i, tr, oldTr => some ([], i, tr, oldTr)
  | (key', j') :: rest, i, tr, oldTr =>
    if m.read key' = m.read key then
      match trs[i + 1]? with
      | none => none
      | some x => upsertDupM oc trs m key rest (i + 1) (oc tr x).1 (oc tr x).2
    else some ((key', j') :: rest, i, tr, oldTr)

/-- table.go:701-773 loop of `Upsert` on memory -/
def Table.upsertLoopM (t : Table T F) (env : Env T) (grow : Nat → Nat → Nat) (pc : Pieces T) (ib ib2 : Sl) (oc : Table.OnConflict T)
    (entries : List (Bytes × Bytes)) (trs : List T) :
    Nat → Nat → List (Sl × Nat) → Mem → Sl → WSt T F → (WSt T F × Option Err) × Mem × Sl
  | 0, _, _, m, val, s => ((s, none), m, val)
  | _, _, [], m, val, s => ((s, none), m, val)
  | fuel + 1, i, (key, j) :: rest, m, val, s =>
    match trs[j]? with
    | none => ((s, some .panic), m, val)
    | some tr =>
      if env.done s.clock then ((s, some .ctxDone), m, val)
      else
        let found : Option (Option T) :=
          match t.existIter s.filt entries (m.read key) with
          | none => some none
          | some v => (t.deser s.oldTr v).map some
        match found with
        | none => ((s, some .deser), m, val)
        | some found =>
          let start : T × T := match found with
            | none => (tr, s.oldTr)
            | some old => oc old tr
          match upsertDupM oc trs m key rest i start.1 start.2 with
          | none => ((s, some .panic), m, val)
          | some (rest', i', tr', old') =>
            match t.ser tr' with
            | none => (({ s with oldTr := old' }, some .ser), m, val)
            | some data =>
              let d := m.append grow val.zero data
              let x := match found with
                | some _ => idxOpsM (onUpdateM t grow pc old' tr' ib.zero ib2.zero) (env.order s.clock) d.1
                | none => idxOpsM (onInsertM t grow pc tr' ib.zero) (env.order s.clock) d.1
              t.upsertLoopM env grow pc ib ib2 oc entries trs fuel (i' + 1) rest' x.1 d.2
                { ops := s.ops ++ .set (d.1.read key) (d.1.read d.2) :: x.2
                  filt := match found with
                    | some _ => s.filt
                    | none => t.filterAdd s.filt (x.1.read key)
                  clock := s.clock + 1, oldTr := old' }

/-- what the slices of `Insert`, `Update` and `Upsert` do before their loop (table.go:381-394, 500-513, 685-698) and what is left for the next
slice: the key buffers, in the order in which sorting has put them, and the value buffer -/
def Table.chunkM (t : Table T F) (env : Env T) (grow : Nat → Nat → Nat) (pc : Pieces T) (db : KV) (optBatch : Option Batch)
    (loop : List (Bytes × Bytes) → List (Sl × Nat) → Mem → Sl → WSt T F → (WSt T F × Option Err) × Mem × Sl) (trs : List T)
    (sw : WSt T F × WMem) : (WSt T F × WMem) × Option Err :=
  match t.keysExternalM grow pc sw.2.mem trs sw.2.keys with
  | none => (sw, some .panic)
  | some (m, ks, left) =>
    let keys := sortKeysM env m ks
    let entries := (readView db optBatch sw.1.ops).scan (((keys.map Prod.fst).map m.read).headD []) t.dataKeySpaceEnd
    let r := loop entries keys m sw.2.val sw.1
    ((r.1.1, { sw.2 with mem := r.2.1, keys := keys.map Prod.fst ++ left, val := r.2.2 }), r.1.2)

/-- table.go:338-450 `Insert` on memory, slice size as parameter -/
def Table.insertM (bs : Nat) (t : Table T F) (env : Env T) (grow : Nat → Nat → Nat) (pc : Pieces T) (db : KV) (filt : F)
    (optBatch : Option Batch) (trs : List T) (w : WMem) : WOut F × WMem :=
  let r := forChunks (fun c sw => t.chunkM env grow pc db optBatch (fun es ks => t.insertLoopM env grow pc sw.2.ib es c none ks) c sw)
    (batched trs bs) ({ ops := [], filt := filt, clock := 0, oldTr := t.nil }, w)
  (finish env db optBatch (r.1.1, r.2), r.1.2)

/-- table.go:452-575 `Update` on memory -/
def Table.updateM (bs : Nat) (t : Table T F) (env : Env T) (grow : Nat → Nat → Nat) (pc : Pieces T) (db : KV) (filt : F)
    (optBatch : Option Batch) (trs : List T) (w : WMem) : WOut F × WMem :=
  let r := forChunks (fun c sw => t.chunkM env grow pc db optBatch (fun es ks => t.updateLoopM env grow pc sw.2.ib sw.2.ib2 es c ks) c sw)
    (batched trs bs) ({ ops := [], filt := filt, clock := 0, oldTr := t.nil }, w)
  (finish env db optBatch (r.1.1, r.2), r.1.2)

/-- table.go:637-789 `Upsert` on memory -/
def Table.upsertM (bs : Nat) (t : Table T F) (env : Env T) (grow : Nat → Nat → Nat) (pc : Pieces T) (db : KV) (filt : F)
    (optBatch : Option Batch) (oc : Table.OnConflict T) (trs : List T) (w : WMem) : WOut F × WMem :=
  let r := forChunks (fun c sw => t.chunkM env grow pc db optBatch
      (fun es ks => t.upsertLoopM env grow pc sw.2.ib sw.2.ib2 oc es c ks.length 0 ks) c sw)
    (batched trs bs) ({ ops := [], filt := filt, clock := 0, oldTr := t.nil }, w)
  (finish env db optBatch (r.1.1, r.2), r.1.2)

/-- table.go:577-635 `Delete` on memory; `w.ib2` is `keyBuffer` -/
def Table.deleteM (t : Table T F) (env : Env T) (grow : Nat → Nat → Nat) (pc : Pieces T) (db : KV) (filt : F) (optBatch : Option Batch)
    (trs : List T) (w : WMem) : WOut F × WMem :=
  let r := t.deleteLoopM env grow pc w.ib2 w.ib trs w.mem { ops := [], filt := filt, clock := 0, oldTr := t.nil }
  (finish env db optBatch r.1, { w with mem := r.2 })

/-- table.go:900-924 the slices of `Get` with a points selector on memory: rows decoded from the value buffers, which are used again -/
def Table.getChunksM (t : Table T F) (env : Env T) (grow : Nat → Nat → Nat) (pc : Pieces T) (f : F) (db : KV) (ob : Option Batch) :
    List (List T) → Mem → List Sl → List Sl → Except Err (List T)
  | [], _, _, _ => .ok []
  | c :: cs, m, kb, vb =>
    match t.keysExternalM grow pc m c kb with
    | none => .error .panic
    | some (m, ks, left) =>
      match t.getKeysM env grow f db ob m ks vb false with
      | (_, _, .error e) => .error e
      | (m', vb, .ok values) =>
        match t.decodeAll (values.map m'.read) with
        | .error e => .error e
        | .ok trs => (t.getChunksM env grow pc f db ob cs m' ((if ks = [] then [] else (sortKeysM env m ks).map Prod.fst) ++ left) vb).map (trs ++ ·)

/-- table.go:848-924 `Get` with a points selector on memory; `kb` is `keyArray`, `vb` is `valueArray` -/
def Table.getManyM (t : Table T F) (env : Env T) (grow : Nat → Nat → Nat) (pc : Pieces T) (f : F) (db : KV) (ob : Option Batch)
    (points : List T) (m : Mem) (kb vb : List Sl) : Except Err (List T) :=
  t.getChunksM env grow pc f db ob (batched points points.length) m kb vb

end Bond
