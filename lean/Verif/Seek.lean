import Verif.Scan
/-
Model of the iterators that `Table.Iter` and `Index.Iter` hand to the user, with the seeks of iter.go.
-/
namespace Bond
variable {T F : Type}

/-- the calls that move an iterator (iter.go:13-29), without SeekPrefixGE, which is in `Verif/Comparer.lean` -/
inductive IterOp
  | move (op : CurOp)
  | seekGE (key : Bytes)
  | seekLT (key : Bytes)

/-- pebble `Iterator.SeekGE` on the entries between the bounds (iter.go:21, external): the first entry that is not below the key -/
def seekGEPos (entries : List (Bytes × Bytes)) (key : Bytes) : Pos :=
  let n := entries.findIdx (fun e => !blt e.1 key)
  if n < entries.length then .at n else .after

/-- pebble `Iterator.SeekLT` on the entries between the bounds (iter.go:23, external): the last entry below the key -/
def seekLTPos (entries : List (Bytes × Bytes)) (key : Bytes) : Pos :=
  let n := entries.findIdx (fun e => !blt e.1 key)
  if n = 0 then .before else .at (n - 1)

/-- What `Iter` returns: `_iterator`, which passes every call on to a pebble iterator (iter.go:51-59), or `_iteratorMulti`
(iter.go:72-78). -/
inductive UserIter
  | single (entries : List (Bytes × Bytes)) (pos : Pos)
  | multi (parts : List (List (Bytes × Bytes))) (c : MCur)

/-- index.go:176-278 `Iter`, table.go:992-994 `Table.Iter` (the primary index); the iterator is not positioned. `none` is a panic. -/
def Table.iter (t : Table T F) (db : KV) (ob : Option Batch) (idx : Index T) (sel : Selector T) : Option UserIter :=
  (t.iterParts db ob idx sel).map fun parts =>
    match sel with
    | .point _ => .single (parts.headD []) .before
    | .range _ _ => .single (parts.headD []) .before
    | .points _ => .multi parts ⟨0, .before⟩
    | .ranges _ => .multi parts ⟨0, .before⟩

/-- one call; on several children the seeks panic (iter.go:157-170) -/
def UserIter.step : UserIter → IterOp → Option UserIter
  | .single entries pos, .move .first => let _ := pos; some (.single entries (Pos.first entries.length))
  | .single entries pos, .move .last => let _ := pos; some (.single entries (Pos.last entries.length))
  | .single entries pos, .move .next => some (.single entries (Pos.next entries.length pos))
  | .single entries pos, .move .prev => some (.single entries (Pos.prev entries.length pos))
  | .single entries _, .seekGE key => some (.single entries (seekGEPos entries key))
  | .single entries _, .seekLT key => some (.single entries (seekLTPos entries key))
  | .multi parts c, .move op => some (.multi parts (c.step parts op))
  | .multi _ _, .seekGE _ => none
  | .multi _ _, .seekLT _ => none

/-- a sequence of calls by the user (iter.go:13-29); `none` is a panic -/
def UserIter.steps : UserIter → List IterOp → Option UserIter
  | it, [] => some it
  | it, op :: ops => (it.step op).bind (·.steps ops)

/-- `Valid`, `Key` and `Value` (iter.go:18, 25-26, 149-151, 172-178): the entry under the iterator if it is valid -/
def UserIter.entry : UserIter → Option (Bytes × Bytes)
  | .single entries pos =>
    match pos with
    | .at i => entries[i]?
    | _ => none
  | .multi parts c => c.entry parts

end Bond
