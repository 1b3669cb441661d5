import Verif.Query
import Verif.Calls
/-
Model of the variadic `optBatch ...Batch` argument of the table methods: left out, nil, or a batch. The methods
themselves are modelled elsewhere with the batch they end up using.
-/
namespace Bond
variable {T F σ : Type}

/-- the argument `optBatch ...Batch`: `none` left out, `some none` the nil interface, `some (some b)` a batch. Only the
first element is ever used (for example table.go:338). -/
abbrev OptArg (β : Type) := Option (Option β)

/-- table.go:347-351, 461-465, 585-589, 646-650, 793-797, 850-854, table_unsafe.go:31-33, 121-125: the methods that ask
`len(optBatch) > 0 && optBatch[0] != nil` -/
def OptArg.checked {β : Type} (o : OptArg β) : Option β :=
  match o with
  | some (some b) => some b
  | some none => none
  | none => none

/-- index.go:177-180 the iterator constructor of `Index.Iter`, which asks `len(optBatch) > 0` only: the database
(`some none`), the batch, or the nil interface (`none`), on which the call of `Iter` (index.go:196, 242 and, through
newIteratorMulti in index.go:228, 274,
iter.go:85) is a nil pointer panic -/
def OptArg.constructor {β : Type} (o : OptArg β) : Option (Option β) :=
  match o with
  | none => some none
  | some none => none
  | some (some b) => some (some b)

/-- table.go:338, 452, 577, 637, table_unsafe.go:20, 113: the write methods -/
def Table.runOpt (t : Table T F) (env : Env T) (db : KV) (f : F) (o : OptArg Batch) (c : WCall T) : WOut F :=
  t.run env db f o.checked c

/-- table.go:791-816 `Exist` -/
def Table.existOpt (t : Table T F) (f : F) (db : KV) (o : OptArg Batch) (tr : T) : Bool :=
  t.exist f db o.checked tr

/-- table.go:1019-1194 `ScanIndexForEach`: `Index.Iter` first, then the loop. `db` and the batch may change with the
state of the callback. (table.go:1093 passes a nil batch on to `t.get`, which takes it; it is never reached.) -/
def Table.scanIndexForEachOpt (t : Table T F) (env : Env T) (filt : F) (db : σ → KV) (o : OptArg (σ → Batch))
    (idx : Index T) (sel : Selector T) (f : σ → Bytes → Cb σ T) (reverse : Bool) (fuel : Nat) (s : σ) :
    Option (ScanOut σ) :=
  match o.constructor with
  | none => some ⟨s, some .panic⟩
  | some ob => t.scanIndexForEach env filt (fun s => (db s, ob.map (· s))) idx sel f reverse fuel s

/-- table.go:1004-1013 `ScanIndex` -/
def Table.scanIndexOpt (t : Table T F) (env : Env T) (filt : F) (db : KV) (o : OptArg Batch) (idx : Index T)
    (sel : Selector T) (reverse : Bool) (fuel : Nat) (tr : List T) : Option (ScanOut (List T)) :=
  t.scanIndexForEachOpt env filt (fun _ => db) (o.map (·.map (fun b _ => b))) idx sel scanIndexCb reverse fuel tr

/-- table.go:848-939 `Get`: the point selectors use the checked argument, the range selectors pass `optBatch...` on
to `ScanIndex` (table.go:929) -/
def Table.getOpt (t : Table T F) (env : Env T) (filt : F) (db : KV) (o : OptArg Batch) (sel : Selector T) (fuel : Nat) :
    Option (Except Err (List T)) :=
  match sel with
  | .point p => some (t.getOne filt db o.checked p)
  | .points ps => some (t.getMany env filt db o.checked ps)
  | sel =>
    match t.scanIndexOpt env filt db o t.primaryIndex sel false fuel [] with
    | none => none
    | some ⟨trs, none⟩ => some (.ok trs)
    | some ⟨_, some e⟩ => some (.error e)

/-- query.go:155-280 `executeQuery`, which passes `optBatch...` on to `ScanIndexForEach` (query.go:233) -/
def Query.executeQueryOpt (t : Table T F) (env : Env T) (srt : (T → T → Bool) → List T → List T) (filt : F) (db : KV)
    (o : OptArg Batch) (q : Query T) (fuel : Nat) : Option (Except Err (List T)) :=
  let selector := match q.after with
    | some a => if q.less.isNone then q.selectorWithAfter t a else some q.sel
    | none => some q.sel
  match selector with
  | none => some (.error .panic)
  | some selector =>
    match t.scanIndexForEachOpt env filt (fun _ => db) (o.map (·.map (fun b _ => b))) q.index selector (q.callback t)
        q.reverse fuel {} with
    | none => none
    | some ⟨_, some e⟩ => some (.error e)
    | some ⟨s, none⟩ => some (q.finish t srt s)

/-- query.go:282-391 `executeIntersect`: after the check of the queries, `Intersect` (query.go:300) passes `optBatch...`
on to `Index.Iter` (index.go:359, 374) -/
def Query.executeIntersectOpt (t : Table T F) (env : Env T) (srt : (T → T → Bool) → List T → List T) (filt : F) (db : KV)
    (o : OptArg Batch) (q : Query T) : Except Err (List T) :=
  if q.checkIntersect = false then .error .badQuery
  else
    match o.constructor with
    | none => .error .panic
    | some ob => q.executeIntersect t env srt filt db ob

/-- query.go:131-148 `Execute` -/
def Query.executeOpt (t : Table T F) (env : Env T) (srt : (T → T → Bool) → List T → List T) (filt : F) (db : KV)
    (o : OptArg Batch) (q : Query T) (fuel : Nat) : Option (Except Err (List T)) :=
  if q.intersects.isEmpty then q.executeQueryOpt t env srt filt db o fuel
  else some (q.executeIntersectOpt t env srt filt db o)

end Bond
