import Verif.Scan
import Verif.Spec.Rows
/-
Specification side of the scan properties.
-/
namespace Bond
open Spec
variable {T F σ : Type}

/-- Calling a callback once per row, in order, with that row's record, until it asks to stop. -/
def Spec.runRows (f : σ → Bytes → Cb σ T) : List (Bytes × T) → σ → ScanOut σ
  | [], s => ⟨s, none⟩
  | (k, x) :: rest, s =>
    let (s', cont, err) := (f s k).run (.ok x)
    if !cont || err.isSome then ⟨s', err⟩ else Spec.runRows f rest s'

/-- The callback does not call `Get`. -/
def Cb.noGet (c : Cb σ T) : Prop := ∃ s cont err, c = .ret s cont err

/-- The callback calls `Get` exactly once. -/
def Cb.oneGet (c : Cb σ T) : Prop := ∃ s k, c = .get s k ∧ ∀ r, (k r).noGet

/-- A callback that fetches every row, after possibly skipping an initial run of rows: it never calls `Get` twice for
one row, and once it has fetched a row and asked to continue (`fetched`), it fetches every following row. -/
structure FetchesAll (f : σ → Bytes → Cb σ T) (fetched : σ → Prop) : Prop where
  once : ∀ s k, (f s k).noGet ∨ (f s k).oneGet
  after : ∀ s k, fetched s → (f s k).oneGet
  stays : ∀ s k r, (f s k).oneGet → ((f s k).run r).2.1 = true → fetched ((f s k).run r).1

/-- Order of the entries of an index: length of the index value, index value, length of the order part, order part,
primary key, everything bytewise. -/
def Spec.IdxLt (t : Table T F) (idx : Index T) (x y : T) : Prop :=
  (idx.key x).length < (idx.key y).length ∨ ((idx.key x).length = (idx.key y).length ∧
    (blt (idx.key x) (idx.key y) = true ∨ (idx.key x = idx.key y ∧
      ((idx.ord x).length < (idx.ord y).length ∨ ((idx.ord x).length = (idx.ord y).length ∧
        (blt (idx.ord x) (idx.ord y) = true ∨ (idx.ord x = idx.ord y ∧ blt (t.pk x) (t.pk y) = true)))))))

/-- not after -/
def Spec.IdxLe (t : Table T F) (idx : Index T) (x y : T) : Prop := ¬ Spec.IdxLt t idx y x

/-- the rows stored in table content `m` and accepted by the filter of the index -/
def Spec.Indexed (t : Table T F) (idx : Index T) (m : Rows T) (x : T) : Prop := m (t.pk x) = some x ∧ idx.filter x = true

/-- `rows` are the rows of the index that satisfy `P`, each once, in index order. (`IsRows.unique`: there is only one
such list.) -/
def Spec.IsRows (t : Table T F) (idx : Index T) (m : Rows T) (P : T → Prop) (rows : List T) : Prop :=
  rows.Pairwise (Spec.IdxLt t idx) ∧ ∀ x, x ∈ rows ↔ Spec.Indexed t idx m x ∧ P x

/-- the same for each of several conditions -/
inductive Spec.IsParts (t : Table T F) (idx : Index T) (m : Rows T) : List (T → Prop) → List (List T) → Prop
  | nil : Spec.IsParts t idx m [] []
  | cons {P Ps rows parts} : Spec.IsRows t idx m P rows → Spec.IsParts t idx m Ps parts →
      Spec.IsParts t idx m (P :: Ps) (rows :: parts)

/-- the list in scan order -/
def Spec.dir {α : Type} (reverse : Bool) (l : List α) : List α := if reverse then l.reverse else l

/-- what the callback gets to see: index key and record -/
def Spec.seen (t : Table T F) (idx : Index T) (rows : List T) : List (Bytes × T) := rows.map (fun x => (t.indexKey idx x, x))

/-- `idx` is an index of the table or its primary index -/
def Spec.IsIndex (t : Table T F) (idx : Index T) : Prop := idx ∈ t.indexes ∨ idx = t.primaryIndex

/-- The assumptions under which scans are studied: a well-formed table with a correct serializer and a positive
prefetch size, legal choices of the runtime, a context that is never done, and a database (seen through an optional
read-write batch) that stores the rows `m`, with a filter that covers them. -/
structure Setting (t : Table T F) (env : Env T) (filt : F) (db : KV) (ob : Option Batch) (m : Rows T) : Prop where
  wf : t.WF
  rt : t.RoundTripFresh
  ok : env.OK t
  alive : ∀ n, env.done n = false
  prefetch : 0 < t.prefetch
  content : ∃ V, readable db ob = some V ∧ Holds t V m
  covers : FilterCovers t filt m

/-- `ScanIndex` ends without an error and appends exactly `rows` to the result. -/
def Yields (t : Table T F) (env : Env T) (filt : F) (db : KV) (ob : Option Batch) (idx : Index T) (sel : Selector T)
    (reverse : Bool) (rows : List T) : Prop :=
  ∃ N, ∀ fuel, N ≤ fuel → ∀ tr, t.scanIndex env filt db ob idx sel reverse fuel tr = some ⟨tr ++ rows, none⟩

/-- `ScanIndexForEach` ends, having called the callback once for each of `rows`, in order, with that row's index key
and record, until the callback asked to stop. -/
def Visits (t : Table T F) (env : Env T) (filt : F) (db : KV) (ob : Option Batch) (idx : Index T) (sel : Selector T)
    (reverse : Bool) (f : σ → Bytes → Cb σ T) (rows : List T) : Prop :=
  ∃ N, ∀ fuel, N ≤ fuel → ∀ s, t.scanIndexForEach env filt (fun _ => (db, ob)) idx sel f reverse fuel s =
    some (Spec.runRows f (Spec.seen t idx rows) s)

/-- records used in a selector -/
def Selector.elems : Selector T → List T
  | .point p => [p]
  | .points ps => ps
  | .range lo hi => [lo, hi]
  | .ranges rs => rs.flatMap (fun r => [r.1, r.2])

/-- A selector that `Iter` accepts: not an empty list, and index values shorter than 4 GiB - 1. -/
def Selector.OK (sel : Selector T) (idx : Index T) : Prop :=
  sel.elems ≠ [] ∧ ∀ p ∈ sel.elems, (idx.key p).length < 2 ^ 32 - 1

/-- A byte string that is empty or does not end with 0xFF. -/
def NoTrailingFF (k : Bytes) : Prop := k.getLast? ≠ some 0xFF

end Bond
