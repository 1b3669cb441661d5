import Verif.Scan
/-
Model of query.go and of index.go `Intersect`.
-/
namespace Bond
variable {T F : Type}

/-- query.go:27-41 `Query` without the table. `after` is `afterSelector` if `isAfter`. -/
structure Query (T : Type) where
  index : Index T
  sel : Selector T
  reverse : Bool := false
  filter : Option (T → Bool) := none
  less : Option (T → T → Bool) := none
  offset : UInt64 := 0
  limit : UInt64 := 0
  after : Option T := none
  intersects : List (Query T) := []

/-- query.go:43-55 `newQuery`, table.go:996-998 `Query`. The default selector is the zero record, here `t.empty`
(table.go:178 and query.go:47 make both with `utils.MakeNew`). -/
def Table.query (t : Table T F) : Query T := { index := t.primaryIndex, sel := .point t.empty }

/-- Go conversion `int(u)` of an uint64 (query.go:263, 273, 309, 319) -/
def goInt (u : UInt64) : Int := u.toBitVec.toInt

/-- query.go:263-267 (and 309-313, 373-377) drop `offset` records; `none` is the slice panic -/
def applyOffset {α : Type} (offset : UInt64) (records : List α) : Option (List α) :=
  if goInt offset ≥ records.length then some []
  else if offset.toNat ≤ records.length then some (records.drop offset.toNat) else none

/-- query.go:272-276 (and 318-322, 382-386) keep `limit` records; `none` is the slice panic -/
def applyLimit {α : Type} (limit : UInt64) (records : List α) : Option (List α) :=
  if goInt limit ≥ records.length then some records
  else if limit.toNat ≤ records.length then some (records.take limit.toNat) else none

/-- query.go:246-258 (and 355-367): drop everything up to the record with the primary key of `a` -/
def dropAfter (pk : T → Bytes) (a : T) : List T → Option (List T)
  | [] => none
  | x :: xs => if pk a = pk x then some xs else dropAfter pk a xs

/-- query.go:430-473 `selectorWithAfter`; `none` is a slice panic in `_KeyPrefixSplitIndex` -/
def Query.selectorWithAfter (t : Table T F) (q : Query T) (a : T) : Option (Selector T) :=
  match q.sel with
  | .point _ => some (.point a)
  | .points ps =>
    let afterKey := t.indexKey q.index a
    (ps.mapM (fun pnt =>
      let pntKey := t.indexKey q.index pnt
      if blt afterKey pntKey then some [pnt]
      else do
        let n ← keyPrefixSplit afterKey
        let pa ← slice afterKey 0 n
        let m ← keyPrefixSplit pntKey
        let pp ← slice pntKey 0 m
        some (if pa = pp then [a] else []))).map (fun l => .points l.flatten)
  | .range _ upper => some (.range a upper)
  | .ranges rs =>
    let afterKey := t.indexKey q.index a
    some (.ranges (rs.flatMap (fun rng =>
      if blt afterKey (t.indexKey q.index rng.1) then [rng]
      else if ble afterKey (t.indexKey q.index rng.2) then [(a, rng.2)]
      else [])))

/-- variables of `executeQuery` changed by its callback (query.go:156-182). `count` is an uint64 in the code; it
counts rows, of which there are fewer than 2^64. -/
structure QSt (T : Type) where
  records : List T := []
  count : Nat := 0
  skippedFirstRow : Bool := false
  afterApplied : Bool := false
  offsetApplied : Bool := false
  limitApplied : Bool := false

/-- query.go:200-232 the callback after the test for the first row -/
def Query.body (q : Query T) (s : QSt T) : Cb (QSt T) T :=
  if q.filter.isNone ∧ q.less.isNone ∧ s.count < q.offset.toNat then
    .ret { s with offsetApplied := true, count := s.count + 1 } true none
  else .get s (fun
    | .error e => .ret s false (some e)
    | .ok record =>
      let s := if q.filter.all (· record) then { s with records := s.records ++ [record], count := s.count + 1 } else s
      if q.less.isNone ∧ q.limit > 0 then
        .ret { s with limitApplied := true } (decide (s.count < (q.offset + q.limit).toNat)) none
      else .ret s true none)

/-- query.go:183-233 the callback of `executeQuery`; a panic of `ToKey` is returned as error -/
def Query.callback (t : Table T F) (q : Query T) (s : QSt T) (key : Bytes) : Cb (QSt T) T :=
  match q.after with
  | none => q.body s
  | some a =>
    if q.less.isNone ∧ s.skippedFirstRow = false then
      let s := { s with skippedFirstRow := true, afterApplied := true }
      match keyDecode key, keyDecode (t.indexKey q.index a) with
      | some rowIdxKey, some selIdxKey =>
        if selIdxKey.index = rowIdxKey.index ∧ selIdxKey.indexOrder = rowIdxKey.indexOrder ∧
            selIdxKey.primaryKey = rowIdxKey.primaryKey then .ret s true none
        else q.body s
      | _, _ => .ret s false (some .panic)
    else q.body s

/-- query.go:238-243 (and 346-351) sorting. `srt less` is `sort.Slice` with `less`. -/
def Query.sortRecords (srt : (T → T → Bool) → List T → List T) (q : Query T) (records : List T) : List T :=
  match q.less with
  | some less => srt less records
  | none => records

/-- query.go:245-259 (and 353-368) drop the records up to the After record, if it is among them -/
def Query.skipAfter (t : Table T F) (q : Query T) (applied : Bool) (records : List T) : List T :=
  match q.after with
  | some a => if applied then records else (dropAfter t.pk a records).getD records
  | none => records

/-- query.go:261-277 offset and limit, each unless already applied -/
def Query.slice (q : Query T) {α : Type} (offsetApplied limitApplied : Bool) (records : List α) : Except Err (List α) :=
  match (if q.offset > 0 ∧ offsetApplied = false then applyOffset q.offset records else some records) with
  | none => .error .panic
  | some records =>
    match (if q.limit > 0 ∧ limitApplied = false then applyLimit q.limit records else some records) with
    | none => .error .panic
    | some records => .ok records

/-- query.go:238-279 after the scan -/
def Query.finish (t : Table T F) (srt : (T → T → Bool) → List T → List T) (q : Query T) (s : QSt T) : Except Err (List T) :=
  q.slice s.offsetApplied s.limitApplied (q.skipAfter t s.afterApplied (q.sortRecords srt s.records))

/-- query.go:170-178 the selector with After taken into account -/
def Query.selected (t : Table T F) (q : Query T) : Option (Selector T) :=
  match q.after with
  | some a => if q.less.isNone then q.selectorWithAfter t a else some q.sel
  | none => some q.sel

/-- query.go:155-280 `executeQuery`; `none`: still running after `fuel` rounds of a scan loop -/
def Query.executeQuery (t : Table T F) (env : Env T) (srt : (T → T → Bool) → List T → List T) (filt : F) (db : KV)
    (ob : Option Batch) (q : Query T) (fuel : Nat) : Option (Except Err (List T)) :=
  let selector := match q.after with
    | some a => if q.less.isNone then q.selectorWithAfter t a else some q.sel
    | none => some q.sel
  match selector with
  | none => some (.error .panic)
  | some selector =>
    match t.scanIndexForEach env filt (fun _ => (db, ob)) q.index selector (q.callback t) q.reverse fuel {} with
    | none => none
    | some ⟨_, some e⟩ => some (.error e)
    | some ⟨s, none⟩ => some (q.finish t srt s)

/-- query.go:393-412 `checkIntersectQueries` -/
def Query.checkIntersect (q : Query T) : Bool :=
  q.intersects.all (fun q1 => q1.filter.isNone && q1.less.isNone && q1.after.isNone && q1.offset == 0 && q1.limit == 0)

/-- index.go:360-370 (and 375-388) loop over the entries of one iterator: `m` is the map `intersectKeysMap` (or
`tempKeysMap`), to which the data keys that satisfy `keep` are added. `clock` counts the questions to the context. -/
def collectSet (done : Nat → Bool) (keep : Bytes → Bool) : List (Bytes × Bytes) → Nat → KV → Except Err (Nat × KV)
  | [], clock, m => .ok (clock, m)
  | (k, _) :: rest, clock, m =>
    if done clock then .error .ctxDone
    else
      match toDataKeyBytes k with
      | none => .error .panic
      | some key => collectSet done keep rest (clock + 1) (if keep key then m.set key [] else m)

/-- index.go:373-393 loop over the other indexes -/
def Table.intersectLoop (t : Table T F) (env : Env T) (db : KV) (ob : Option Batch) :
    List (Query T) → Nat → KV → Except Err KV
  | [], _, m => .ok m
  | q :: qs, clock, m =>
    match t.iterParts db ob q.index q.sel with
    | none => .error .panic
    | some parts =>
      match collectSet env.done (fun k => (m.get k).isSome) parts.flatten clock KV.empty with
      | .error e => .error e
      | .ok (clock, m') => t.intersectLoop env db ob qs clock m'

/-- index.go:355-403 `Intersect`. The Go map of keys and the final sort of its keys are one sorted map here. -/
def Table.intersect (t : Table T F) (env : Env T) (db : KV) (ob : Option Batch) (idx : Index T) (sel : Selector T)
    (qs : List (Query T)) : Except Err (List Bytes) :=
  match t.iterParts db ob idx sel with
  | none => .error .panic
  | some parts =>
    match collectSet env.done (fun _ => true) parts.flatten 0 KV.empty with
    | .error e => .error e
    | .ok (clock, m) =>
      match t.intersectLoop env db ob qs clock m with
      | .error e => .error e
      | .ok m => .ok (m.l.map Prod.fst)

/-- query.go:332-344 decode and filter the values -/
def Table.decodeFilter (t : Table T F) (q : Query T) : List Bytes → Except Err (List T)
  | [] => .ok []
  | v :: vs =>
    match t.deser t.nil v with
    | none => .error .deser
    | some x =>
      match t.decodeFilter q vs with
      | .error e => .error e
      | .ok xs => .ok (if q.filter.all (· x) then x :: xs else xs)

/-- query.go:370-388 offset and limit at the end of `executeIntersect` -/
def Query.finishIntersect (q : Query T) (records : List T) : Except Err (List T) :=
  if q.filter.isSome ∨ q.less.isSome then q.slice false false records else .ok records

/-- query.go:305-324 offset and limit on the keys -/
def Query.sliceKeys (q : Query T) (keys : List Bytes) : Except Err (List Bytes) :=
  if q.filter.isNone ∧ q.less.isNone ∧ q.after.isNone then
    if q.offset > 0 ∧ goInt q.offset ≥ keys.length then .ok []
    else q.slice false false keys
  else .ok keys

/-- query.go:282-391 `executeIntersect`. The values are read without the batch (query.go:327). With an empty list
of keys `get` returns no values, so the early return of query.go:310 is not a case of its own. -/
def Query.executeIntersect (t : Table T F) (env : Env T) (srt : (T → T → Bool) → List T → List T) (filt : F) (db : KV)
    (ob : Option Batch) (q : Query T) : Except Err (List T) :=
  if q.checkIntersect = false then .error .badQuery
  else
    match t.intersect env db ob q.index q.sel q.intersects with
    | .error e => .error e
    | .ok keys =>
      match q.sliceKeys keys with
      | .error e => .error e
      | .ok keys =>
        match t.getKeys env filt db none keys keys.length true with
        | .error e => .error e
        | .ok values =>
          match t.decodeFilter q values with
          | .error e => .error e
          | .ok records => q.finishIntersect (q.skipAfter t false (q.sortRecords srt records))

/-- query.go:131-148 `Execute` -/
def Query.execute (t : Table T F) (env : Env T) (srt : (T → T → Bool) → List T → List T) (filt : F) (db : KV)
    (ob : Option Batch) (q : Query T) (fuel : Nat) : Option (Except Err (List T)) :=
  if q.intersects.isEmpty then q.executeQuery t env srt filt db ob fuel
  else some (q.executeIntersect t env srt filt db ob)

end Bond
