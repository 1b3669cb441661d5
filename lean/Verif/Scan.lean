import Verif.Iter
/-
Model of index.go `Iter` and of the scans of table.go.

A scan walks with `for first(); it.Valid(); next()` over an iterator; `C28_scan` shows that such a walk over the
cursor of `Verif/Iter.lean` visits exactly the concatenation of its parts (reversed if `reverse`), so the loops below
run over the list of the remaining entries: `[]` is an invalid iterator, `e :: rest` an iterator on `e`, and `next()`
drops the head.
-/
namespace Bond
variable {T F σ : Type}

/-- selector.go:4-136. A range given with fewer than two elements (index panic in index.go:254) is not represented. -/
inductive Selector (T : Type)
  | point (p : T)
  | points (ps : List T)
  | range (lo hi : T)
  | ranges (rs : List (T × T))

/-- index.go:188-189, 208-209 lower and upper bound for a point; `none` is a slice panic -/
def Table.pointBounds (t : Table T F) (idx : Index T) (p : T) : Option (Bytes × Bytes) := do
  let lowerBound := t.indexKey idx p
  let n ← keyPrefixSplit lowerBound
  let pre ← slice lowerBound 0 n
  some (lowerBound, keySuccessor pre)

/-- index.go:208-212 the same in a `Points` selector: on the primary index the successor of the whole key is used -/
def Table.pointsBounds (t : Table T F) (idx : Index T) (p : T) : Option (Bytes × Bytes) := do
  let (lowerBound, upperBound) ← t.pointBounds idx p
  some (lowerBound, if idx.id = primaryIndexID then keySuccessor lowerBound else upperBound)

/-- index.go:233-235, 256-258 bounds of a range -/
def Table.rangeBounds (t : Table T F) (idx : Index T) (lo hi : T) : Bytes × Bytes :=
  (t.indexKey idx lo, keySuccessor (t.indexKey idx hi))

/-- index.go:176-278 `Iter`: the bounds of the child iterators. `none` is a panic: a slice out of bounds, or
`newIteratorMulti` without any child (iter.go:85). -/
def Table.iterBounds (t : Table T F) (idx : Index T) : Selector T → Option (List (Bytes × Bytes))
  | .point p => (t.pointBounds idx p).map ([·])
  | .points ps => if ps = [] then none else ps.mapM (t.pointsBounds idx)
  | .range lo hi => some [t.rangeBounds idx lo hi]
  | .ranges rs => if rs = [] then none else some (rs.map (fun r => t.rangeBounds idx r.1 r.2))

/-- index.go:176-278 `Iter`: the entries of the child iterators, all on the content that `ob` and `db` show -/
def Table.iterParts (t : Table T F) (db : KV) (ob : Option Batch) (idx : Index T) (sel : Selector T) :
    Option (List (List (Bytes × Bytes))) :=
  (t.iterBounds idx sel).map (·.map (fun b => iterEntries db ob b.1 b.2))

/-- the entries in the order in which a scan visits them (`C28_scan`) (table.go:1030-1044, 1076-1090) -/
def walk (parts : List (List (Bytes × Bytes))) (reverse : Bool) : List (Bytes × Bytes) :=
  if reverse then parts.flatten.reverse else parts.flatten

/-- A user callback `func(keyBytes, lazy) (bool, error)` (table.go:1015) as an interaction: it may call `lazy.Get()`
any number of times and continue with the answer, and finally returns `cont` and `err`. `s` is everything the
callback can change. -/
inductive Cb (σ T : Type)
  | ret (s : σ) (cont : Bool) (err : Option Err)
  | get (s : σ) (k : Except Err T → Cb σ T)

/-- Result of a scan: final state and error (table.go:1019-1194). -/
structure ScanOut (σ : Type) where
  s : σ
  err : Option Err
deriving DecidableEq

/-- table.go:1046-1054 `getValue` -/
def Table.decode (t : Table T F) (v : Bytes) : Except Err T :=
  match t.deser t.nil v with
  | none => .error .deser
  | some x => .ok x

/-- running a callback whose `Get` always answers `r` (table.go:1063, 1166, 1174) -/
def Cb.run (r : Except Err T) : Cb σ T → σ × Bool × Option Err
  | .ret s cont err => (s, cont, err)
  | .get _ k => (k r).run r

/-- table.go:1055-1070 loop of `scanForEachPrimaryIndex`; `clock` counts the questions to the context -/
def Table.scanPrimaryLoop (t : Table T F) (done : Nat → Bool) (f : σ → Bytes → Cb σ T) :
    List (Bytes × Bytes) → Nat → σ → ScanOut σ
  | [], _, s => ⟨s, none⟩
  | (k, v) :: rest, clock, s =>
    if done clock then ⟨s, some .ctxDone⟩
    else
      let (s', cont, err) := (f s k).run (t.decode v)
      if !cont || err.isSome then ⟨s', err⟩
      else t.scanPrimaryLoop done f rest (clock + 1) s'

/-- State of `scanForEachSecondaryIndex` (table.go:1097-1107): remaining entries of the iterator, collected data keys
and index keys, prefetched values and their index. -/
structure PSt where
  rest : List (Bytes × Bytes)
  keys : List Bytes
  indexKeys : List Bytes
  values : List Bytes
  vidx : Nat
deriving DecidableEq, Repr

/-- table.go:1117-1126 `getPrefetchedValue`; `none` is the index panic -/
def Table.getPrefetchedValue (t : Table T F) (p : PSt) : Option (PSt × Except Err T) :=
  match p.values[p.vidx]? with
  | none => none
  | some v =>
    match t.deser t.nil v with
    | none => some (p, .error .deser)
    | some x => some ({ p with vidx := p.vidx + 1 }, .ok x)

/-- table.go:1130-1147 collecting loop of `prefetchAndGetValue`; `none` is a panic in `ToDataKeyBytes` -/
def Table.collectKeys (t : Table T F) : List (Bytes × Bytes) → List Bytes → List Bytes →
    Option (List (Bytes × Bytes) × List Bytes × List Bytes)
  | [], keys, indexKeys => some ([], keys, indexKeys)
  | (k, v) :: rest, keys, indexKeys =>
    match toDataKeyBytes k with
    | none => none
    | some key =>
      let keys := keys ++ [key]
      let indexKeys := indexKeys ++ [k]
      if keys.length < t.prefetch then t.collectKeys rest keys indexKeys
      else some ((k, v) :: rest, keys, indexKeys)

/-- table.go:1128-1156 `prefetchAndGetValue`. `t.get` sorts `keys` in place (table.go:947). On error it returns no
values. `none` is a panic. A second `Get` in the same callback writes its keys over the first ones (table.go:1130 starts
again at `multiKeyBuffer`); where this makes a difference, more keys than `prefetch` are looked up, which fails or panics
either way; the model keeps the keys apart. -/
def Table.prefetchAndGetValue (t : Table T F) (env : Env T) (filt : F) (db : KV) (ob : Option Batch) (p : PSt) :
    Option (PSt × Except Err T) :=
  match t.collectKeys p.rest p.keys p.indexKeys with
  | none => none
  | some (rest, keys, indexKeys) =>
    let sorted := if keys = [] then [] else (sortKeys env keys).map Prod.fst
    match t.getKeys env filt db ob keys t.prefetch true with
    | .error .panic => none
    | .error e => some ({ p with rest := rest, keys := sorted, indexKeys := indexKeys, values := [] }, .error e)
    | .ok values => t.getPrefetchedValue { p with rest := rest, keys := sorted, indexKeys := indexKeys, values := values }

/-- running a callback on the row under the iterator: every `Get` is `prefetchAndGetValue`. `view s` is the database
and batch as they are in the state `s` (table.go:1166). -/
def Table.runOuter (t : Table T F) (env : Env T) (filt : F) (view : σ → KV × Option Batch) (p : PSt) :
    Cb σ T → Option (PSt × σ × Bool × Option Err)
  | .ret s cont err => some (p, s, cont, err)
  | .get s k =>
    match t.prefetchAndGetValue env filt (view s).1 (view s).2 p with
    | none => none
    | some (p', r) => t.runOuter env filt view p' (k r)

/-- running a callback on a prefetched row: every `Get` is `getPrefetchedValue` (table.go:1174) -/
def Table.runInner (t : Table T F) (p : PSt) : Cb σ T → Option (PSt × σ × Bool × Option Err)
  | .ret s cont err => some (p, s, cont, err)
  | .get _ k =>
    match t.getPrefetchedValue p with
    | none => none
    | some (p', r) => t.runInner p' (k r)

/-- what became of a loop: still running when the fuel ran out, finished the scan (stop, error or panic), or
continues after the loop (loops of table.go:1055-1068, 1158-1191) -/
inductive LoopRes (α β : Type)
  | running
  | stop (a : α)
  | go (b : β)

/-- table.go:1172-1179 loop over the prefetched rows -/
def Table.innerLoop (t : Table T F) (f : σ → Bytes → Cb σ T) : Nat → PSt → σ → LoopRes (ScanOut σ) (PSt × σ)
  | 0, p, s => if p.vidx < p.values.length then .running else .go (p, s)
  | fuel + 1, p, s =>
    if p.vidx < p.values.length then
      match p.indexKeys[p.vidx]? with
      | none => .stop ⟨s, some .panic⟩
      | some k =>
        match t.runInner p (f s k) with
        | none => .stop ⟨s, some .panic⟩
        | some (p', s', cont, err) =>
          if !cont || err.isSome then .stop ⟨s', err⟩ else t.innerLoop f fuel p' s'
    else .go (p, s)

/-- table.go:1158-1193 outer loop; `none`: still running after `fuel` rounds of one of the loops -/
def Table.outerLoop (t : Table T F) (env : Env T) (filt : F) (view : σ → KV × Option Batch) (f : σ → Bytes → Cb σ T)
    (innerFuel : Nat) : Nat → Nat → PSt → σ → Option (ScanOut σ)
  | 0, _, p, s => if p.rest = [] then some ⟨s, none⟩ else none
  | fuel + 1, clock, p, s =>
    match p.rest with
    | [] => some ⟨s, none⟩
    | (k, _) :: _ =>
      if env.done clock then some ⟨s, some .ctxDone⟩
      else
        match t.runOuter env filt view p (f s k) with
        | none => some ⟨s, some .panic⟩
        | some (p', s', cont, err) =>
          if !cont || err.isSome then some ⟨s', err⟩
          else
            match t.innerLoop f innerFuel p' s' with
            | .running => none
            | .stop o => some o
            | .go (p'', s'') =>
              t.outerLoop env filt view f innerFuel fuel (clock + 1)
                { rest := p''.rest.tail, keys := [], indexKeys := [], values := [], vidx := 0 } s''

/-- table.go:1019-1025 `ScanIndexForEach`; `none`: it is still running after `fuel` rounds of one of its loops.
The entries are those visible when the scan starts (a pebble iterator is a snapshot; for selectors with several parts
this assumes that the callback does not write to the scanned range). -/
def Table.scanIndexForEach (t : Table T F) (env : Env T) (filt : F) (view : σ → KV × Option Batch) (idx : Index T)
    (sel : Selector T) (f : σ → Bytes → Cb σ T) (reverse : Bool) (fuel : Nat) (s : σ) : Option (ScanOut σ) :=
  match t.iterParts (view s).1 (view s).2 idx sel with
  | none => some ⟨s, some .panic⟩
  | some parts =>
    if idx.id = primaryIndexID then some (t.scanPrimaryLoop env.done f (walk parts reverse) 0 s)
    else t.outerLoop env filt view f fuel fuel 0
      { rest := walk parts reverse, keys := [], indexKeys := [], values := [], vidx := 0 } s

/-- table.go:1005-1012 the callback of `ScanIndex`; the state is the slice `*tr` -/
def scanIndexCb (s : List T) (_ : Bytes) : Cb (List T) T :=
  .get s (fun
    | .ok record => .ret (s ++ [record]) true none
    | .error e => .ret s false (some e))

/-- table.go:1004-1013 `ScanIndex`: records appended to `tr` and error -/
def Table.scanIndex (t : Table T F) (env : Env T) (filt : F) (db : KV) (ob : Option Batch) (idx : Index T)
    (sel : Selector T) (reverse : Bool) (fuel : Nat) (tr : List T) : Option (ScanOut (List T)) :=
  t.scanIndexForEach env filt (fun _ => (db, ob)) idx sel scanIndexCb reverse fuel tr

/-- table.go:1000-1002 `Scan` -/
def Table.scan (t : Table T F) (env : Env T) (filt : F) (db : KV) (ob : Option Batch) (reverse : Bool) (fuel : Nat)
    (tr : List T) : Option (ScanOut (List T)) :=
  t.scanIndex env filt db ob t.primaryIndex (.point t.empty) reverse fuel tr

/-- table.go:1015-1017 `ScanForEach` -/
def Table.scanForEach (t : Table T F) (env : Env T) (filt : F) (view : σ → KV × Option Batch)
    (f : σ → Bytes → Cb σ T) (reverse : Bool) (fuel : Nat) (s : σ) : Option (ScanOut σ) :=
  t.scanIndexForEach env filt view t.primaryIndex (.point t.empty) f reverse fuel s

/-- table.go:848-939 `Get` with any selector; `none`: still running -/
def Table.get (t : Table T F) (env : Env T) (filt : F) (db : KV) (ob : Option Batch) (sel : Selector T) (fuel : Nat) :
    Option (Except Err (List T)) :=
  match sel with
  | .point p => some (t.getOne filt db ob p)
  | .points ps => some (t.getMany env filt db ob ps)
  | sel =>
    match t.scanIndex env filt db ob t.primaryIndex sel false fuel [] with
    | none => none
    | some ⟨trs, none⟩ => some (.ok trs)
    | some ⟨_, some e⟩ => some (.error e)

end Bond
