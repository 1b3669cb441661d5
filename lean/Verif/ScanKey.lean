import Verif.Query
/-
The bytes of the key that a scan hands to its callback.

The callback gets a slice (`KeyBytes`), not a value: for the row under the iterator the slice is the iterator's own memory
(table.go:1062, 1165), for a prefetched row it is a copy (table.go:1134-1136, 1174). Here the callback reads the bytes
when it wants to, before or after `lazy.Get()`; `Verif/Scan.lean` passes them by value.
-/
namespace Bond
variable {T F σ : Type}

/-- A user callback (table.go:1015) that may, any number of times, read the bytes of its key or call `lazy.Get()`. -/
inductive KCb (σ T : Type)
  | ret (s : σ) (cont : Bool) (err : Option Err)
  | get (s : σ) (k : Except Err T → KCb σ T)
  | key (k : Bytes → KCb σ T)

/-- the callback whose key never changes: table.go:1046-1053 (`getValue` leaves the iterator where it is) and 1174 (the
index keys of prefetched rows are copies, which `getPrefetchedValue` leaves alone) -/
def KCb.fix (key : Bytes) : KCb σ T → Cb σ T
  | .ret s cont err => .ret s cont err
  | .get s k => .get s (fun r => (k r).fix key)
  | .key k => (k key).fix key

/-- table.go:1158-1169 a callback on the row under the iterator: `Get` is `prefetchAndGetValue`, which moves the iterator
(table.go:1143). The key is the iterator's memory: pebble promises its bytes only until the iterator moves; `mem` is what
the memory holds after that, given the entries still to come. -/
def Table.runOuterK (t : Table T F) (env : Env T) (filt : F) (view : σ → KV × Option Batch)
    (mem : List (Bytes × Bytes) → Bytes) (key : Bytes) (moved : Bool) (p : PSt) : KCb σ T → Option (PSt × σ × Bool × Option Err)
  | .ret s cont err => some (p, s, cont, err)
  | .get s k =>
    match t.prefetchAndGetValue env filt (view s).1 (view s).2 p with
    | none => none
    | some (p', r) => t.runOuterK env filt view mem key (moved || p'.rest.length != p.rest.length) p' (k r)
  | .key k => t.runOuterK env filt view mem key moved p (k (if moved then mem p.rest else key))

/-- table.go:1158-1193 the outer loop, as `Table.outerLoop`, with callbacks that read their key when they want to -/
def Table.outerLoopK (t : Table T F) (env : Env T) (filt : F) (view : σ → KV × Option Batch)
    (mem : List (Bytes × Bytes) → Bytes) (f : σ → KCb σ T) (innerFuel : Nat) : Nat → Nat → PSt → σ → Option (ScanOut σ)
  | 0, _, p, s => if p.rest = [] then some ⟨s, none⟩ else none
  | fuel + 1, clock, p, s =>
    match p.rest with
    | [] => some ⟨s, none⟩
    | (k, _) :: _ =>
      if env.done clock then some ⟨s, some .ctxDone⟩
      else
        match t.runOuterK env filt view mem k false p (f s) with
        | none => some ⟨s, some .panic⟩
        | some (p', s', cont, err) =>
          if !cont || err.isSome then some ⟨s', err⟩
          else
            match t.innerLoop (fun s k => (f s).fix k) innerFuel p' s' with
            | .running => none
            | .stop o => some o
            | .go (p'', s'') =>
              t.outerLoopK env filt view mem f innerFuel fuel (clock + 1)
                { rest := p''.rest.tail, keys := [], indexKeys := [], values := [], vidx := 0 } s''

/-- table.go:1019-1025 `ScanIndexForEach`, as `Table.scanIndexForEach`, with callbacks that read their key when they want
to -/
def Table.scanIndexForEachK (t : Table T F) (env : Env T) (filt : F) (view : σ → KV × Option Batch)
    (mem : List (Bytes × Bytes) → Bytes) (idx : Index T) (sel : Selector T) (f : σ → KCb σ T) (reverse : Bool) (fuel : Nat)
    (s : σ) : Option (ScanOut σ) :=
  match t.iterParts (view s).1 (view s).2 idx sel with
  | none => some ⟨s, some .panic⟩
  | some parts =>
    if idx.id = primaryIndexID then
      some (t.scanPrimaryLoop env.done (fun s k => (f s).fix k) (walk parts reverse) 0 s)
    else t.outerLoopK env filt view mem f fuel fuel 0
      { rest := walk parts reverse, keys := [], indexKeys := [], values := [], vidx := 0 } s

/-- query.go:200-232 as `Query.body` -/
def Cb.lift : Cb σ T → KCb σ T
  | .ret s cont err => .ret s cont err
  | .get s k => .get s (fun r => (k r).lift)

/-- query.go:183-233 the callback of `executeQuery`, as `Query.callback`, with the key read where the code reads it
(query.go:191) -/
def Query.callbackK (t : Table T F) (q : Query T) (s : QSt T) : KCb (QSt T) T :=
  match q.after with
  | none => (q.body s).lift
  | some a =>
    if q.less.isNone ∧ s.skippedFirstRow = false then
      let s := { s with skippedFirstRow := true, afterApplied := true }
      .key fun key =>
        match keyDecode key, keyDecode (t.indexKey q.index a) with
        | some rowIdxKey, some selIdxKey =>
          if selIdxKey.index = rowIdxKey.index ∧ selIdxKey.indexOrder = rowIdxKey.indexOrder ∧
              selIdxKey.primaryKey = rowIdxKey.primaryKey then .ret s true none
          else (q.body s).lift
        | _, _ => .ret s false (some .panic)
    else (q.body s).lift

end Bond
