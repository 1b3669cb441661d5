import Verif.Table
/-
Model of the point reads of table.go (Exist, GetPoint, Get with point selectors, get).
-/
namespace Bond
variable {T F : Type}

deriving instance DecidableEq for Except

/-- bond.go:242-280, batch.go:94-112 the content that `db.Get` and `db.Iter` read when given `optBatch`.
`none`: the batch is write-only and pebble answers `ErrNotIndexed`. -/
def readable (db : KV) (ob : Option Batch) : Option KV :=
  match ob with
  | none => some db
  | some b => if b.indexed then some (db.apply b.ops) else none

/-- bond.go:273-280, iter.go:43-49 the entries visited by `db.Iter` with bounds `[lo, hi)`. If pebble refuses the
iterator, an error iterator is used, which is never valid. -/
def iterEntries (db : KV) (ob : Option Batch) (lo hi : Bytes) : List (Bytes × Bytes) :=
  match readable db ob with
  | some V => V.scan lo hi
  | none => []

/-- table.go:804, 868, 957 `t.filter == nil || t.filter.MayContain(key)` -/
def Table.mayContain (t : Table T F) (f : F) (key : Bytes) : Bool :=
  match t.filter with
  | some fl => fl.may f key
  | none => true

/-- table.go:791-816 `Exist` -/
def Table.exist (t : Table T F) (f : F) (db : KV) (ob : Option Batch) (tr : T) : Bool :=
  if !t.mayContain f (t.key tr) then false
  else match readable db ob with
    | none => false
    | some V => (V.get (t.key tr)).isSome

/-- table.go:858-886 `Get` with a point selector -/
def Table.getOne (t : Table T F) (f : F) (db : KV) (ob : Option Batch) (tr : T) : Except Err (List T) :=
  if !t.mayContain f (t.key tr) then .error .notFound
  else match readable db ob with
    | none => .error .notFound
    | some V =>
      match V.get (t.key tr) with
      | none => .error .notFound
      | some record =>
        match t.deser t.nil record with
        | none => .error .deser
        | some rtr => .ok [rtr]

/-- table.go:836-846 `GetPoint` -/
def Table.getPoint (t : Table T F) (f : F) (db : KV) (ob : Option Batch) (tr : T) : Except Err T :=
  match t.getOne f db ob tr with
  | .error e => .error e
  | .ok [] => .error .notFound
  | .ok (x :: _) => .ok x

/-- table.go:956-980 loop of `get` over the sorted keys; `cap` counts the remaining elements of `values`
(`values[i]` panics beyond its length). -/
def Table.getLoop (t : Table T F) (f : F) (entries : List (Bytes × Bytes)) (errorOnNotExist : Bool) :
    List Bytes → Nat → Except Err (List Bytes)
  | [], _ => .ok []
  | key :: rest, cap =>
    let found := if t.mayContain f key then seekExact entries key else none
    if found.isNone && errorOnNotExist then .error .notFound
    else if cap = 0 then .error .panic
    else (t.getLoop f entries errorOnNotExist rest (cap - 1)).map (found.getD [] :: ·)

/-- one step of `reorderValues`: insertion by position (table.go:1211-1222) -/
def insByPos (x : Nat × Bytes) : List (Nat × Bytes) → List (Nat × Bytes)
  | [] => [x]
  | y :: l => if x.1 < y.1 then x :: y :: l else y :: insByPos x l

/-- table.go:1211-1222 `reorderValues`: sorts the values by `keyOrder`. The positions are distinct, so every sorting
algorithm gives the same list; here insertion sort. -/
def reorderValues (values : List Bytes) (keyOrder : List Nat) : List Bytes :=
  ((keyOrder.zip values).foldr insByPos []).map Prod.snd

/-- table.go:941-990 `get`; `cap` is `len(values)` -/
def Table.getKeys (t : Table T F) (env : Env T) (f : F) (db : KV) (ob : Option Batch) (keys : List Bytes) (cap : Nat)
    (errorOnNotExist : Bool) : Except Err (List Bytes) :=
  if keys = [] then .ok []
  else
    let sorted := sortKeys env keys
    let entries := iterEntries db ob ((sorted.map Prod.fst).headD []) t.dataKeySpaceEnd
    (t.getLoop f entries errorOnNotExist (sorted.map Prod.fst) cap).map (fun vs => reorderValues vs (sorted.map Prod.snd))

/-- table.go:908-921 decoding of the values found: an empty value gives `valueNil` -/
def Table.decodeAll (t : Table T F) : List Bytes → Except Err (List T)
  | [] => .ok []
  | v :: vs =>
    if v = [] then (t.decodeAll vs).map (t.nil :: ·)
    else match t.deser t.nil v with
      | none => .error .deser
      | some x => (t.decodeAll vs).map (x :: ·)

/-- table.go:900-924 the slices of `Get` with a points selector, results appended in order -/
def Table.getChunks (t : Table T F) (env : Env T) (f : F) (db : KV) (ob : Option Batch) (cap : Nat) :
    List (List T) → Except Err (List T)
  | [] => .ok []
  | c :: cs =>
    match t.getKeys env f db ob (c.map t.key) cap false with
    | .error e => .error e
    | .ok values =>
      match t.decodeAll values with
      | .error e => .error e
      | .ok trs => (t.getChunks env f db ob cap cs).map (trs ++ ·)

/-- table.go:848-924 `Get` with a points selector: `batched(selPoints, len(selPoints), …)` -/
def Table.getMany (t : Table T F) (env : Env T) (f : F) (db : KV) (ob : Option Batch) (points : List T) :
    Except Err (List T) :=
  t.getChunks env f db ob points.length (batched points points.length)

/-- batch.go:134-152 `Commit` without callbacks, bond.go:294-296: an empty batch is a no-op, otherwise one atomic
pebble commit. The batch keeps its writes (pebble forbids a second commit; `Reset` empties it). -/
def Batch.commit (commitOk : Bool) (db : KV) (b : Batch) : KV × Option Err :=
  if b.ops = [] then (db, none)
  else if commitOk then (db.apply b.ops, none)
  else (db, some .commit)

end Bond
