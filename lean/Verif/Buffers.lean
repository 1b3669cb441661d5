import Verif.Memory
import Verif.Scan
/-
The reads of table.go on memory: keys and values are slices in pooled buffers, which are written over and over again.
-/
namespace Bond

variable {T F σ α : Type}

/-- table.go:1196-1209 `sortKeys` on slices: the slices change places, what they hold stays where it is -/
def sortKeysM (env : Env T) (m : Mem) (keys : List Sl) : List (Sl × Nat) :=
  (env.sort (keys.map m.read)).map (fun j => (keys.getD j ⟨0, 0, 0, 0⟩, j))

/-- one step of `reorderValues` (table.go:1211-1222) -/
def insByPosM (x : Nat × α) : List (Nat × α) → List (Nat × α)
  | [] => [x]
  | y :: l => if x.1 < y.1 then x :: y :: l else y :: insByPosM x l

/-- table.go:1211-1222 `reorderValues` on slices: they change places -/
def reorderValuesM (values : List α) (keyOrder : List Nat) : List α :=
  ((keyOrder.zip values).foldr insByPosM []).map Prod.snd

/-- table.go:956-980 loop of `get` over the sorted keys: a value is copied into the buffer `values[i]`, which is replaced when it has to
grow; gives the buffers after the loop and the error -/
def Table.getLoopM (t : Table T F) (grow : Nat → Nat → Nat) (f : F) (entries : List (Bytes × Bytes)) (errorOnNotExist : Bool) :
    Mem → List Sl → List Sl → Mem × List Sl × Option Err
  | m, [], values => (m, values, none)
  | m, key :: rest, values =>
    let found := if t.mayContain f (m.read key) then seekExact entries (m.read key) else none
    match found, values with
    | none, vs =>
      if errorOnNotExist then (m, vs, some .notFound)
      else
        match vs with
        | [] => (m, [], some .panic)
        | v :: vs => let r := t.getLoopM grow f entries errorOnNotExist m rest vs; (r.1, v.zero :: r.2.1, r.2.2)
    | some _, [] => (m, [], some .panic)
    | some x, v :: vs =>
      let a := m.append grow v.zero x
      let r := t.getLoopM grow f entries errorOnNotExist a.1 rest vs
      (r.1, a.2 :: r.2.1, r.2.2)

/-- table.go:941-990 `get` on memory: the slices of the values, if there is no error, and the buffers `values` afterwards; `keys` are
sorted in place, `values` put back in order in place -/
def Table.getKeysM (t : Table T F) (env : Env T) (grow : Nat → Nat → Nat) (f : F) (db : KV) (ob : Option Batch) (m : Mem)
    (keys values : List Sl) (errorOnNotExist : Bool) : Mem × List Sl × Except Err (List Sl) :=
  if keys = [] then (m, values, .ok [])
  else
    let sorted := sortKeysM env m keys
    let entries := iterEntries db ob (((sorted.map Prod.fst).map m.read).headD []) t.dataKeySpaceEnd
    match t.getLoopM grow f entries errorOnNotExist m (sorted.map Prod.fst) values with
    | (m', values', some e) => (m', values', .error e)
    | (m', values', none) =>
      let vs := reorderValuesM (values'.take keys.length) (sorted.map Prod.snd)
      (m', vs ++ values'.drop keys.length, .ok vs)

/-- State of `scanForEachSecondaryIndex` (table.go:1097-1107) on memory; `multi` is `multiKeyBuffer`, `vbuf` is `valuesBuffer` -/
structure MSt where
  mem : Mem
  rest : List (Bytes × Bytes)
  keys : List Sl
  indexKeys : List Sl
  values : List Sl
  vidx : Nat
  multi : Sl
  vbuf : List Sl

/-- table.go:1117-1126 `getPrefetchedValue` on memory -/
def Table.getPrefetchedValueM (t : Table T F) (p : MSt) : Option (MSt × Except Err T) :=
  match p.values[p.vidx]? with
  | none => none
  | some v =>
    match t.deser t.nil (p.mem.read v) with
    | none => some (p, .error .deser)
    | some x => some ({ p with vidx := p.vidx + 1 }, .ok x)

/-- table.go:1130-1147 collecting loop of `prefetchAndGetValue` on memory: the keys are written one after the other into what is left of
`multiKeyBuffer` -/
def Table.collectKeysM (t : Table T F) (grow : Nat → Nat → Nat) : List (Bytes × Bytes) → Mem → Sl → List Sl → List Sl →
    Option (List (Bytes × Bytes) × Mem × List Sl × List Sl)
  | [], m, _, keys, indexKeys => some ([], m, keys, indexKeys)
  | (iterKey, v) :: rest, m, nextBuff, keys, indexKeys =>
    let ik := m.append grow nextBuff.zero iterKey
    let indexKeys := indexKeys ++ [ik.2]
    match toDataKeyBytesM grow iterKey ik.1 ik.2.tail.zero with
    | none => none
    | some (m, key) =>
      let keys := keys ++ [key]
      if keys.length < t.prefetch then t.collectKeysM grow rest m key.tail keys indexKeys
      else some ((iterKey, v) :: rest, m, keys, indexKeys)

/-- table.go:1128-1156 `prefetchAndGetValue` on memory -/
def Table.prefetchAndGetValueM (t : Table T F) (env : Env T) (grow : Nat → Nat → Nat) (filt : F) (db : KV) (ob : Option Batch) (p : MSt) :
    Option (MSt × Except Err T) :=
  match t.collectKeysM grow p.rest p.mem p.multi p.keys p.indexKeys with
  | none => none
  | some (rest, m, keys, indexKeys) =>
    let sorted := if keys = [] then [] else (sortKeysM env m keys).map Prod.fst
    match t.getKeysM env grow filt db ob m keys p.vbuf true with
    | (_, _, .error .panic) => none
    | (m, vbuf, .error e) =>
      some ({ p with mem := m, rest := rest, keys := sorted, indexKeys := indexKeys, values := [], vbuf := vbuf }, .error e)
    | (m, vbuf, .ok values) =>
      t.getPrefetchedValueM { p with mem := m, rest := rest, keys := sorted, indexKeys := indexKeys, values := values, vbuf := vbuf }

/-- a callback on the row under the iterator, on memory (table.go:1166); the callback does not write to the memory of the keys -/
def Table.runOuterM (t : Table T F) (env : Env T) (grow : Nat → Nat → Nat) (filt : F) (view : σ → KV × Option Batch) (p : MSt) :
    Cb σ T → Option (MSt × σ × Bool × Option Err)
  | .ret s cont err => some (p, s, cont, err)
  | .get s k =>
    match t.prefetchAndGetValueM env grow filt (view s).1 (view s).2 p with
    | none => none
    | some (p', r) => t.runOuterM env grow filt view p' (k r)

/-- a callback on a prefetched row, on memory (table.go:1174) -/
def Table.runInnerM (t : Table T F) (p : MSt) : Cb σ T → Option (MSt × σ × Bool × Option Err)
  | .ret s cont err => some (p, s, cont, err)
  | .get _ k =>
    match t.getPrefetchedValueM p with
    | none => none
    | some (p', r) => t.runInnerM p' (k r)

/-- table.go:1172-1179 loop over the prefetched rows, on memory: the callback is given the bytes that the slice holds now -/
def Table.innerLoopM (t : Table T F) (f : σ → Bytes → Cb σ T) : Nat → MSt → σ → LoopRes (ScanOut σ) (MSt × σ)
  | 0, p, s => if p.vidx < p.values.length then .running else .go (p, s)
  | fuel + 1, p, s =>
    if p.vidx < p.values.length then
      match p.indexKeys[p.vidx]? with
      | none => .stop ⟨s, some .panic⟩
      | some k =>
        match t.runInnerM p (f s (p.mem.read k)) with
        | none => .stop ⟨s, some .panic⟩
        | some (p', s', cont, err) =>
          if !cont || err.isSome then .stop ⟨s', err⟩ else t.innerLoopM f fuel p' s'
    else .go (p, s)

/-- table.go:1158-1193 outer loop on memory; the buffers are used again in the next round -/
def Table.outerLoopM (t : Table T F) (env : Env T) (grow : Nat → Nat → Nat) (filt : F) (view : σ → KV × Option Batch)
    (f : σ → Bytes → Cb σ T) (innerFuel : Nat) : Nat → Nat → MSt → σ → Option (ScanOut σ)
  | 0, _, p, s => if p.rest = [] then some ⟨s, none⟩ else none
  | fuel + 1, clock, p, s =>
    match p.rest with
    | [] => some ⟨s, none⟩
    | (k, _) :: _ =>
      if env.done clock then some ⟨s, some .ctxDone⟩
      else
        match t.runOuterM env grow filt view p (f s k) with
        | none => some ⟨s, some .panic⟩
        | some (p', s', cont, err) =>
          if !cont || err.isSome then some ⟨s', err⟩
          else
            match t.innerLoopM f innerFuel p' s' with
            | .running => none
            | .stop o => some o
            | .go (p'', s'') =>
              t.outerLoopM env grow filt view f innerFuel fuel (clock + 1)
                { p'' with rest := p''.rest.tail, keys := [], indexKeys := [], values := [], vidx := 0, multi := p''.multi.zero } s''

/-- table.go:1019-1025 `ScanIndexForEach` on memory; `multi` and `vbuf` are the buffers from the pools (table.go:1097-1100). The scan over
the primary index uses no buffers (table.go:1027-1069). -/
def Table.scanIndexForEachM (t : Table T F) (env : Env T) (grow : Nat → Nat → Nat) (filt : F) (view : σ → KV × Option Batch) (idx : Index T)
    (sel : Selector T) (f : σ → Bytes → Cb σ T) (reverse : Bool) (fuel : Nat) (m : Mem) (multi : Sl) (vbuf : List Sl) (s : σ) :
    Option (ScanOut σ) :=
  match t.iterParts (view s).1 (view s).2 idx sel with
  | none => some ⟨s, some .panic⟩
  | some parts =>
    if idx.id = primaryIndexID then some (t.scanPrimaryLoop env.done f (walk parts reverse) 0 s)
    else t.outerLoopM env grow filt view f fuel fuel 0
      { mem := m, rest := walk parts reverse, keys := [], indexKeys := [], values := [], vidx := 0, multi := multi.zero, vbuf := vbuf } s

end Bond
