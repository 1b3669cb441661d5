import Verif.Query
import Verif.ReIndex
import Verif.Backup
/-
Reads of the storage that fail.

A pebble iterator that cannot read a block becomes invalid, exactly as at its end; `Error()` tells the two apart, and so
does `Close()`, which returns the error (pebble). A later `SeekGE` starts anew. The code never calls `Error()`. The
functions below are those of the other modules, with reads that may fail.
-/
namespace Bond
variable {T F σ : Type}

/-- Where an iterator fails: `none` never, `some n` when it moves past its first `n` entries (iter.go:13-29, pebble). -/
abbrev Cut := Option Nat

/-- the entries that an iterator shows before it fails (iter.go:13-29) -/
def Cut.entries {α : Type} (c : Cut) (l : List α) : List α :=
  match c with
  | none => l
  | some n => l.take n

/-- what pebble's `Close` returns for an iterator that was moved until it was invalid (iter.go:69) -/
def Cut.closeErr {α : Type} (c : Cut) (l : List α) : Option Err :=
  match c with
  | none => none
  | some n => if n ≤ l.length then some .storage else none

/-- iter.go:89-147 the children in the order in which a scan visits them, each with its entries in that order -/
def childrenInOrder (parts : List (List (Bytes × Bytes))) (reverse : Bool) : List (List (Bytes × Bytes)) :=
  if reverse then (parts.map List.reverse).reverse else parts

/-- iter.go:115-147 the entries a scan visits if the `i`-th child it visits fails as `cuts i` says: on an invalid child
`Next` and `Prev` go on with the next one, whatever made it invalid -/
def walkF (parts : List (List (Bytes × Bytes))) (reverse : Bool) (cuts : Nat → Cut) : List (Bytes × Bytes) :=
  ((childrenInOrder parts reverse).zipIdx.map (fun p => (cuts p.2).entries p.1)).flatten

/-- iter.go:93, 106, 121, 138, 181-190 what `Close` returns at the end of the walk: the error of the last child only -/
def walkCloseErr (parts : List (List (Bytes × Bytes))) (reverse : Bool) (cuts : Nat → Cut) : Option Err :=
  match (childrenInOrder parts reverse).getLast? with
  | none => none
  | some l => (cuts (parts.length - 1)).closeErr l

/-- table.go:1055-1070 as `Table.scanPrimaryLoop`; `closeErr` is the result of `it.Close()` at the end -/
def Table.scanPrimaryLoopF (t : Table T F) (done : Nat → Bool) (closeErr : Option Err) (f : σ → Bytes → Cb σ T) :
    List (Bytes × Bytes) → Nat → σ → ScanOut σ
  | [], _, s => ⟨s, closeErr⟩
  | (k, v) :: rest, clock, s =>
    if done clock then ⟨s, some .ctxDone⟩
    else
      let (s', cont, err) := (f s k).run (t.decode v)
      if !cont || err.isSome then ⟨s', err⟩
      else t.scanPrimaryLoopF done closeErr f rest (clock + 1) s'

/-- table.go:1128-1156 as `Table.prefetchAndGetValue`; `bad p`: a seek of `t.get` fails, which it takes for a missing row
(table.go:967-970) -/
def Table.prefetchAndGetValueF (t : Table T F) (env : Env T) (filt : F) (bad : PSt → Bool) (db : KV) (ob : Option Batch) (p : PSt) :
    Option (PSt × Except Err T) :=
  if bad p then
    match t.collectKeys p.rest p.keys p.indexKeys with
    | none => none
    | some (rest, keys, indexKeys) =>
      let sorted := if keys = [] then [] else (sortKeys env keys).map Prod.fst
      some ({ p with rest := rest, keys := sorted, indexKeys := indexKeys, values := [] }, .error .notFound)
  else t.prefetchAndGetValue env filt db ob p

/-- table.go:1166 as `Table.runOuter` -/
def Table.runOuterF (t : Table T F) (env : Env T) (filt : F) (bad : PSt → Bool) (view : σ → KV × Option Batch) (p : PSt) :
    Cb σ T → Option (PSt × σ × Bool × Option Err)
  | .ret s cont err => some (p, s, cont, err)
  | .get s k =>
    match t.prefetchAndGetValueF env filt bad (view s).1 (view s).2 p with
    | none => none
    | some (p', r) => t.runOuterF env filt bad view p' (k r)

/-- table.go:1158-1193 as `Table.outerLoop`; `closeErr` is the result of `it.Close()` at the end -/
def Table.outerLoopF (t : Table T F) (env : Env T) (filt : F) (bad : PSt → Bool) (closeErr : Option Err)
    (view : σ → KV × Option Batch) (f : σ → Bytes → Cb σ T) (innerFuel : Nat) : Nat → Nat → PSt → σ → Option (ScanOut σ)
  | 0, _, p, s => if p.rest = [] then some ⟨s, closeErr⟩ else none
  | fuel + 1, clock, p, s =>
    match p.rest with
    | [] => some ⟨s, closeErr⟩
    | (k, _) :: _ =>
      if env.done clock then some ⟨s, some .ctxDone⟩
      else
        match t.runOuterF env filt bad view p (f s k) with
        | none => some ⟨s, some .panic⟩
        | some (p', s', cont, err) =>
          if !cont || err.isSome then some ⟨s', err⟩
          else
            match t.innerLoop f innerFuel p' s' with
            | .running => none
            | .stop o => some o
            | .go (p'', s'') =>
              t.outerLoopF env filt bad closeErr view f innerFuel fuel (clock + 1)
                { rest := p''.rest.tail, keys := [], indexKeys := [], values := [], vidx := 0 } s''

/-- table.go:1019-1025 as `Table.scanIndexForEach`, with failing reads: `cuts i` for the `i`-th child visited, `bad` for
the reads of the records -/
def Table.scanIndexForEachF (t : Table T F) (env : Env T) (filt : F) (cuts : Nat → Cut) (bad : PSt → Bool)
    (view : σ → KV × Option Batch) (idx : Index T) (sel : Selector T) (f : σ → Bytes → Cb σ T) (reverse : Bool) (fuel : Nat)
    (s : σ) : Option (ScanOut σ) :=
  match t.iterParts (view s).1 (view s).2 idx sel with
  | none => some ⟨s, some .panic⟩
  | some parts =>
    let closeErr := walkCloseErr parts reverse cuts
    if idx.id = primaryIndexID then
      some (t.scanPrimaryLoopF env.done closeErr f (walkF parts reverse cuts) 0 s)
    else t.outerLoopF env filt bad closeErr view f fuel fuel 0
      { rest := walkF parts reverse cuts, keys := [], indexKeys := [], values := [], vidx := 0 } s

/-- table.go:1004-1013 `ScanIndex` -/
def Table.scanIndexF (t : Table T F) (env : Env T) (filt : F) (cuts : Nat → Cut) (bad : PSt → Bool) (db : KV)
    (ob : Option Batch) (idx : Index T) (sel : Selector T) (reverse : Bool) (fuel : Nat) (tr : List T) :
    Option (ScanOut (List T)) :=
  t.scanIndexForEachF env filt cuts bad (fun _ => (db, ob)) idx sel scanIndexCb reverse fuel tr

/-- query.go:155-280 as `Query.executeQuery` -/
def Query.executeQueryF (t : Table T F) (env : Env T) (srt : (T → T → Bool) → List T → List T) (filt : F) (cuts : Nat → Cut)
    (bad : PSt → Bool) (db : KV) (ob : Option Batch) (q : Query T) (fuel : Nat) : Option (Except Err (List T)) :=
  match q.selected t with
  | none => some (.error .panic)
  | some selector =>
    match t.scanIndexForEachF env filt cuts bad (fun _ => (db, ob)) q.index selector (q.callback t) q.reverse fuel {} with
    | none => none
    | some ⟨_, some e⟩ => some (.error e)
    | some ⟨s, none⟩ => some (q.finish t srt s)

/-- index.go:373-393 as `Table.intersectLoop`: the result of `Close` is dropped (index.go:387); `cuts n i` for the `i`-th
child of the `n`-th iterator -/
def Table.intersectLoopF (t : Table T F) (env : Env T) (cuts : Nat → Nat → Cut) (db : KV) (ob : Option Batch) :
    List (Query T) → Nat → Nat → KV → Except Err KV
  | [], _, _, m => .ok m
  | q :: qs, n, clock, m =>
    match t.iterParts db ob q.index q.sel with
    | none => .error .panic
    | some parts =>
      match collectSet env.done (fun k => (m.get k).isSome) (walkF parts false (cuts n)) clock KV.empty with
      | .error e => .error e
      | .ok (clock, m') => t.intersectLoopF env cuts db ob qs (n + 1) clock m'

/-- index.go:355-403 as `Table.intersect`: the result of `Close` is dropped (index.go:370) -/
def Table.intersectF (t : Table T F) (env : Env T) (cuts : Nat → Nat → Cut) (db : KV) (ob : Option Batch) (idx : Index T)
    (sel : Selector T) (qs : List (Query T)) : Except Err (List Bytes) :=
  match t.iterParts db ob idx sel with
  | none => .error .panic
  | some parts =>
    match collectSet env.done (fun _ => true) (walkF parts false (cuts 0)) 0 KV.empty with
    | .error e => .error e
    | .ok (clock, m) =>
      match t.intersectLoopF env cuts db ob qs 1 clock m with
      | .error e => .error e
      | .ok m => .ok (m.l.map Prod.fst)

/-- table.go:791-816 as `Table.exist`; `bad`: the read fails, and every error means false (table.go:809-811) -/
def Table.existF (t : Table T F) (f : F) (bad : Bool) (db : KV) (ob : Option Batch) (tr : T) : Bool :=
  if !t.mayContain f (t.key tr) then false
  else if bad then false
  else t.exist f db ob tr

/-- table.go:858-886 as `Table.getOne`; every error of the read means `ErrNotFound` (table.go:872-874) -/
def Table.getOneF (t : Table T F) (f : F) (bad : Bool) (db : KV) (ob : Option Batch) (tr : T) : Except Err (List T) :=
  if !t.mayContain f (t.key tr) then .error .notFound
  else if bad then .error .notFound
  else t.getOne f db ob tr

/-- table.go:956-980 as `Table.getLoop`; `bad key`: the seek for `key` fails -/
def Table.getLoopF (t : Table T F) (f : F) (bad : Bytes → Bool) (entries : List (Bytes × Bytes)) (errorOnNotExist : Bool) :
    List Bytes → Nat → Except Err (List Bytes)
  | [], _ => .ok []
  | key :: rest, cap =>
    let found := if t.mayContain f key && !bad key then seekExact entries key else none
    if found.isNone && errorOnNotExist then .error .notFound
    else if cap = 0 then .error .panic
    else (t.getLoopF f bad entries errorOnNotExist rest (cap - 1)).map (found.getD [] :: ·)

/-- table.go:941-990 as `Table.getKeys` -/
def Table.getKeysF (t : Table T F) (env : Env T) (f : F) (bad : Bytes → Bool) (db : KV) (ob : Option Batch) (keys : List Bytes)
    (cap : Nat) (errorOnNotExist : Bool) : Except Err (List Bytes) :=
  if keys = [] then .ok []
  else
    let sorted := sortKeys env keys
    let entries := iterEntries db ob ((sorted.map Prod.fst).headD []) t.dataKeySpaceEnd
    (t.getLoopF f bad entries errorOnNotExist (sorted.map Prod.fst) cap).map (fun vs => reorderValues vs (sorted.map Prod.snd))

/-- table.go:900-924 as `Table.getChunks` -/
def Table.getChunksF (t : Table T F) (env : Env T) (f : F) (bad : Bytes → Bool) (db : KV) (ob : Option Batch) (cap : Nat) :
    List (List T) → Except Err (List T)
  | [] => .ok []
  | c :: cs =>
    match t.getKeysF env f bad db ob (c.map t.key) cap false with
    | .error e => .error e
    | .ok values =>
      match t.decodeAll values with
      | .error e => .error e
      | .ok trs => (t.getChunksF env f bad db ob cap cs).map (trs ++ ·)

/-- table.go:888-930 as `Table.getMany` -/
def Table.getManyF (t : Table T F) (env : Env T) (f : F) (bad : Bytes → Bool) (db : KV) (ob : Option Batch) (points : List T) :
    Except Err (List T) :=
  t.getChunksF env f bad db ob points.length (batched points points.length)

/-- table.go:398-434 as `Table.insertLoop`; `bad n`: the seek of the `n`-th row of the call fails (table.go:833) -/
def Table.insertLoopF (t : Table T F) (env : Env T) (bad : Nat → Bool) (entries : List (Bytes × Bytes)) (trs : List T) :
    Option Bytes → List (Bytes × Nat) → WSt T F → WSt T F × Option Err
  | _, [], s => (s, none)
  | prev, (key, j) :: rest, s =>
    if env.done s.clock then (s, some .ctxDone)
    else if prev = some key ∨ (t.existIter s.filt (if bad s.clock then [] else entries) key).isSome then (s, some .alreadyExist)
    else
      match trs[j]? with
      | none => (s, some .panic)
      | some tr =>
        match t.ser tr with
        | none => (s, some .ser)
        | some data =>
          t.insertLoopF env bad entries trs (some key) rest
            { ops := s.ops ++ .set key data :: (env.order s.clock).flatMap (fun idx => onInsert t idx tr)
              filt := t.filterAdd s.filt key, clock := s.clock + 1, oldTr := s.oldTr }

/-- table.go:381-437 as `Table.insertChunk` -/
def Table.insertChunkF (t : Table T F) (env : Env T) (bad : Nat → Bool) (db : KV) (optBatch : Option Batch) (trs : List T)
    (s : WSt T F) : WSt T F × Option Err :=
  let keys := sortKeys env (trs.map t.key)
  let entries := (readView db optBatch s.ops).scan ((keys.map Prod.fst).headD []) t.dataKeySpaceEnd
  t.insertLoopF env bad entries trs none keys s

/-- table.go:338-450 as `Table.insertBs` -/
def Table.insertBsF (bs : Nat) (t : Table T F) (env : Env T) (bad : Nat → Bool) (db : KV) (filt : F) (optBatch : Option Batch)
    (trs : List T) : WOut F :=
  finish env db optBatch
    (forChunks (t.insertChunkF env bad db optBatch) (batched trs bs) { ops := [], filt := filt, clock := 0, oldTr := t.nil })

/-- table.go:516-559 as `Table.updateLoop`; `bad n`: the seek of the `n`-th row of the call fails (table.go:529) -/
def Table.updateLoopF (t : Table T F) (env : Env T) (bad : Nat → Bool) (entries : List (Bytes × Bytes)) (trs : List T) :
    List (Bytes × Nat) → WSt T F → WSt T F × Option Err
  | [], s => (s, none)
  | (key, j) :: rest, s =>
    if env.done s.clock then (s, some .ctxDone)
    else if (rest.head?.map Prod.fst) = some key then t.updateLoopF env bad entries trs rest { s with clock := s.clock + 1 }
    else
      match seekExact (if bad s.clock then [] else entries) key with
      | none => (s, some .notFound)
      | some v =>
        match t.deser s.oldTr v with
        | none => (s, some .deser)
        | some old =>
          match trs[j]? with
          | none => (s, some .panic)
          | some tr =>
            match t.ser tr with
            | none => ({ s with oldTr := old }, some .ser)
            | some data =>
              t.updateLoopF env bad entries trs rest
                { ops := s.ops ++ .set key data :: (env.order s.clock).flatMap (fun idx => onUpdate t idx old tr)
                  filt := s.filt, clock := s.clock + 1, oldTr := old }

/-- table.go:500-562 as `Table.updateChunk` -/
def Table.updateChunkF (t : Table T F) (env : Env T) (bad : Nat → Bool) (db : KV) (optBatch : Option Batch) (trs : List T)
    (s : WSt T F) : WSt T F × Option Err :=
  let keys := sortKeys env (trs.map t.key)
  let entries := (readView db optBatch s.ops).scan ((keys.map Prod.fst).headD []) t.dataKeySpaceEnd
  t.updateLoopF env bad entries trs keys s

/-- table.go:452-575 as `Table.updateBs` -/
def Table.updateBsF (bs : Nat) (t : Table T F) (env : Env T) (bad : Nat → Bool) (db : KV) (filt : F) (optBatch : Option Batch)
    (trs : List T) : WOut F :=
  finish env db optBatch
    (forChunks (t.updateChunkF env bad db optBatch) (batched trs bs) { ops := [], filt := filt, clock := 0, oldTr := t.nil })

/-- table.go:701-773 as `Table.upsertLoop`; `bad n`: the seek of the `n`-th round fails (table.go:717) -/
def Table.upsertLoopF (t : Table T F) (env : Env T) (bad : Nat → Bool) (oc : Table.OnConflict T) (entries : List (Bytes × Bytes))
    (trs : List T) : Nat → Nat → List (Bytes × Nat) → WSt T F → WSt T F × Option Err
  | 0, _, _, s => (s, none)
  | _, _, [], s => (s, none)
  | fuel + 1, i, (key, j) :: rest, s =>
    match trs[j]? with
    | none => (s, some .panic)
    | some tr =>
      if env.done s.clock then (s, some .ctxDone)
      else
        let found : Option (Option T) :=
          match t.existIter s.filt (if bad s.clock then [] else entries) key with
          | none => some none
          | some v => (t.deser s.oldTr v).map some
        match found with
        | none => (s, some .deser)
        | some found =>
          let start : T × T := match found with
            | none => (tr, s.oldTr)
            | some old => oc old tr
          match Table.upsertDup oc trs key rest i start.1 start.2 with
          | none => (s, some .panic)
          | some (rest', i', tr', old') =>
            match t.ser tr' with
            | none => ({ s with oldTr := old' }, some .ser)
            | some data =>
              let idxOps := match found with
                | some _ => (env.order s.clock).flatMap (fun idx => onUpdate t idx old' tr')
                | none => (env.order s.clock).flatMap (fun idx => onInsert t idx tr')
              t.upsertLoopF env bad oc entries trs fuel (i' + 1) rest'
                { ops := s.ops ++ .set key data :: idxOps
                  filt := match found with
                    | some _ => s.filt
                    | none => t.filterAdd s.filt key
                  clock := s.clock + 1, oldTr := old' }

/-- table.go:685-776 as `Table.upsertChunk` -/
def Table.upsertChunkF (t : Table T F) (env : Env T) (bad : Nat → Bool) (db : KV) (optBatch : Option Batch)
    (oc : Table.OnConflict T) (trs : List T) (s : WSt T F) : WSt T F × Option Err :=
  let keys := sortKeys env (trs.map t.key)
  let entries := (readView db optBatch s.ops).scan ((keys.map Prod.fst).headD []) t.dataKeySpaceEnd
  t.upsertLoopF env bad oc entries trs keys.length 0 keys s

/-- table.go:637-789 as `Table.upsertBs` -/
def Table.upsertBsF (bs : Nat) (t : Table T F) (env : Env T) (bad : Nat → Bool) (db : KV) (filt : F) (optBatch : Option Batch)
    (oc : Table.OnConflict T) (trs : List T) : WOut F :=
  finish env db optBatch
    (forChunks (t.upsertChunkF env bad db optBatch oc) (batched trs bs) { ops := [], filt := filt, clock := 0, oldTr := t.nil })

/-- table.go:265-336 as `Table.reIndexBs`: the result of `iter.Close` is dropped (table.go:333) -/
def Table.reIndexBsF (size : Nat) (t : Table T F) (commitOk : Nat → Bool) (cut : Cut) (db : KV) (idxs : List (Index T)) : ROut :=
  match t.reIndexDelete commitOk idxs [] with
  | ⟨commits, none⟩ =>
    let pre := keyPrefix t.id primaryIndexID []
    t.reIndexLoop commitOk size idxs (cut.entries ((db.apply commits.flatten).scan pre (keySuccessor pre))) 0 [] commits
  | r => r

/-- bond.go:394-411, 525-558 as `dumpData`: `iteratorToSST` drops the result of `itr.Close` (bond.go:526) -/
def dumpDataF (snap : KV) (full : List Entry → Bool) (cuts : UInt8 → Cut) (t : UInt8) : DumpDir :=
  ⟨t, 0, tableDirName t, splitSST full ((cuts t).entries (snap.scan [t, 0, 0, 0, 0, 0] [t, 1, 0, 0, 0, 0])) []⟩

/-- bond.go:378-439 as `dump`, without indexes: `cuts t` for the iterator over table `t` -/
def dumpF (snap : KV) (full : List Entry → Bool) (cuts : UInt8 → Cut) (tables : List UInt8) : Except DErr DumpTree :=
  if tables.Nodup then .ok ⟨beBytes 4 1, tables.map (dumpDataF snap full cuts)⟩ else .error .exist

end Bond
