import Verif.Machine
import Verif.Spec.Failed
import Verif.UpdateLemmas
import Verif.StdEnv
import Verif.Spec.Queries
/-
Specification: a table is a map from primary keys to records, whose indexes are sorted views of it; a transaction is a second map,
which replaces the first at its commit.
-/
namespace Bond
open Spec
variable {T F : Type}

/-- The rows a selector stands for, in the order of a forward scan: for a point the rows with its index value, from the point on; for a
range those between the bounds, both included; for several points or ranges one after the other. -/
def Spec.Selects (t : Table T F) (idx : Index T) (m : Rows T) : Selector T → List T → Prop
  | .point p, rows => IsRows t idx m (fun x => idx.key x = idx.key p ∧ IdxLe t idx p x) rows
  | .range lo up, rows => IsRows t idx m (fun x => IdxLe t idx lo x ∧ IdxLe t idx x up) rows
  | .points ps, rows => ∃ parts, rows = parts.flatten ∧
      IsParts t idx m (ps.map (fun p x => idx.key x = idx.key p ∧ IdxLe t idx p x)) parts
  | .ranges rs, rows => ∃ parts, rows = parts.flatten ∧
      IsParts t idx m (rs.map (fun r x => IdxLe t idx r.1 x ∧ IdxLe t idx x r.2)) parts

/-- the rows a query works on: those its selector stands for, and with Intersects the rows that all its parts select, by primary key -/
def Spec.QueryRows (t : Table T F) (m : Rows T) (q : Query T) (rows : List T) : Prop :=
  if q.intersects = [] then ∃ l, Selects t q.index m q.sel l ∧ rows = dir q.reverse l
  else IsRows t t.primaryIndex m (fun x => ∀ q' ∈ q :: q.intersects, ∃ l, Selects t q'.index m q'.sel l ∧ x ∈ l) rows

/-- the rows of a list that follow the row given to After; all if none is given -/
def Spec.From (after : Option T) (l rest : List T) : Prop :=
  match after with
  | none => rest = l
  | some x => ∃ pre, l = pre ++ x :: rest

/-- What a read call answers if the table has the content `m`. -/
def Spec.Reads (t : Table T F) (m : Rows T) : TCall T → Answer T → Prop
  | .write _, _ => False
  | .get x, a => a = .row (match m (t.pk x) with | some y => .ok y | none => .error .notFound)
  | .getMany pts, a => a = .rows (pts.map (fun p => (m (t.pk p)).getD t.nil)) none
  | .exist x, a => a = .yes (m (t.pk x)).isSome
  | .scan reverse, a => ∃ rows : List T, rows.Pairwise (fun x y => blt (t.pk x) (t.pk y) = true) ∧ (∀ x, x ∈ rows ↔ m (t.pk x) = some x) ∧
      a = .rows (dir reverse rows) none
  | .scanIndex idx sel reverse, a => ∃ rows, Selects t idx m sel rows ∧ a = .rows (dir reverse rows) none
  | .query q, a => ∃ rows sorted rest, QueryRows t m q rows ∧ sorted.Perm (rows.filter (accepts q)) ∧
      (match q.less with | none => sorted = rows.filter (accepts q) | some less => sorted.Pairwise (fun a b => less b a = false)) ∧
      From q.after sorted rest ∧ a = .rows (page q.offset.toNat q.limit.toNat rest) none

/-- What a read call answers if its context is cancelled in time: the first of its rows, or none, with the error of the context. The calls for
given keys do not look at it. -/
def Spec.CutShort (t : Table T F) (env : Env T) (m : Rows T) (c : TCall T) (a : Answer T) : Prop :=
  (∃ n, env.done n = true) ∧
  match c with
  | .scan _ | .scanIndex _ _ _ => ∃ rows part, Reads t m c (.rows rows none) ∧ part <+: rows ∧ a = .rows part (some .ctxDone)
  | .query _ => a = .rows [] (some .ctxDone)
  | _ => False

/-- the context is not cancelled and the store accepts the commit -/
def Spec.Undisturbed (env : Env T) : Prop := (∀ n, env.done n = false) ∧ env.commitOk = true

/-- What an undisturbed write call answers if the table has the content `m` and every record can be serialized: Insert refuses keys
that are stored or repeated, Update keys that are not stored, UnsafeUpdate lists of different lengths; nothing else is refused. -/
def Spec.Result (t : Table T F) (m : Rows T) : WCall T → Option Err → Prop
  | .insert trs, e => ((∀ x ∈ trs, m (t.pk x) = none) ∧ (trs.map t.pk).Nodup → e = none) ∧
      (¬ ((∀ x ∈ trs, m (t.pk x) = none) ∧ (trs.map t.pk).Nodup) → e = some .alreadyExist)
  | .update trs, e => ((∀ x ∈ trs, (m (t.pk x)).isSome) → e = none) ∧ (¬ (∀ x ∈ trs, (m (t.pk x)).isSome) → e = some .notFound)
  | .unsafeUpdate trs olds, e => (trs.length = olds.length → e = none) ∧ (trs.length ≠ olds.length → e = some .sizeMismatch)
  | _, e => e = none

/-- A write call without batch: all or nothing. -/
def Spec.Writes (t : Table T F) (env : Env T) (m : Rows T) (c : WCall T) (e : Option Err) (m' : Rows T) : Prop :=
  (e = none → m' = effect t.pk m c) ∧ (e ≠ none → m' = m) ∧ (Undisturbed env → (∀ x, (t.ser x).isSome) → Result t m c e)

/-- A write call on a batch: if it fails, a part of its rows. -/
def Spec.BatchWrites (t : Table T F) (env : Env T) (m : Rows T) (c : WCall T) (e : Option Err) (m' : Rows T) : Prop :=
  (e = none → m' = effect t.pk m c) ∧ (e ≠ none → ∃ c', PartCall t.key c' c ∧ m' = effect t.pk m c') ∧
  (Undisturbed env → (∀ x, (t.ser x).isSome) → Result t m c e)

/-- The content of the table, and what the open transaction sees. -/
structure Spec.Maps (T : Type) where
  stored : Rows T
  tx : Option (Rows T)

/-- One action: its answer and the maps afterwards. -/
def Spec.Does (t : Table T F) (s : Maps T) : PStep T → Answer T → Maps T → Prop
  | .call env false (.write c), a, s' => ∃ e, a = .done e ∧ Writes t env s.stored c e s'.stored ∧ s'.tx = s.tx
  | .call env true (.write c), a, s' => ∃ e, a = .done e ∧
      (match s.tx with
       | none => Writes t env s.stored c e s'.stored ∧ s'.tx = none
       | some v => ∃ v', BatchWrites t env v c e v' ∧ s' = ⟨s.stored, some v'⟩)
  | .call env inBatch c, a, s' => (Reads t (if inBatch then s.tx.getD s.stored else s.stored) c a ∨
      CutShort t env (if inBatch then s.tx.getD s.stored else s.stored) c a) ∧ s' = s
  | .begin, a, s' => a = .done none ∧ s' = ⟨s.stored, some s.stored⟩
  | .commit ok, a, s' => (ok = true → a = .done none) ∧
      ((a = .done none ∧ s' = ⟨s.tx.getD s.stored, none⟩) ∨ (a = .done (some .commit) ∧ s' = ⟨s.stored, none⟩))
  | .discard, a, s' => a = .done none ∧ s' = ⟨s.stored, none⟩

/-- any number of actions -/
inductive Spec.Behaves (t : Table T F) : Maps T → List (PStep T) → List (Answer T) → Maps T → Prop
  | nil {s : Maps T} : Behaves t s [] [] s
  | cons {s s' s'' : Maps T} {x : PStep T} {l : List (PStep T)} {a : Answer T} {as : List (Answer T)} (h : Does t s x a s')
      (hl : Behaves t s' l as s'') : Behaves t s (x :: l) (a :: as) s''

/-- Documented use of the write calls, for the content `m`: records given to Delete have the index values of the stored ones, those
given to the unsafe calls are absent, or as said; calls with more than 5000 rows, and all Upserts, do not repeat keys; neither do
Updates, unless the sort used is stable. -/
def Spec.ProperWrite (t : Table T F) (env : Env T) (m : Rows T) : WCall T → Prop
  | .insert trs => (trs.map t.pk).Nodup ∨ trs.length ≤ 5000
  | .update trs => (trs.map t.pk).Nodup ∨ (trs.length ≤ 5000 ∧ env.Stable)
  | .upsert oc trs => (trs.map t.pk).Nodup ∧ OnConflictOK t oc
  | .delete trs => ∀ x ∈ trs, ∀ old, m (t.pk x) = some old → ∀ idx ∈ t.indexes, idx.filter old = true →
      idx.filter x = true ∧ t.indexKey idx x = t.indexKey idx old
  | .unsafeInsert trs => (trs.map t.pk).Nodup ∧ ∀ x ∈ trs, m (t.pk x) = none
  | .unsafeUpdate trs olds => trs.length = olds.length → (trs.map t.pk).Nodup ∧ ∀ p ∈ trs.zip olds, m (t.pk p.1) = some p.2

/-- A selector whose bounds are exact: index values of points do not end with 0xFF, neither do primary keys of upper bounds, which are
not empty and, among rows with the same index entry, not continued by longer ones. -/
def Spec.ProperSelector (t : Table T F) (idx : Index T) (m : Rows T) (sel : Selector T) : Prop :=
  sel.OK idx ∧
  match sel with
  | .point p => NoTrailingFF (idx.key p)
  | .points ps => idx ∈ t.indexes ∧ ∀ p ∈ ps, NoTrailingFF (idx.key p)
  | .range _ up => ProperUpper t idx m up
  | .ranges rs => ∀ r ∈ rs, ProperUpper t idx m r.2
where
  /-- an upper bound -/
  ProperUpper (t : Table T F) (idx : Index T) (m : Rows T) (up : T) : Prop :=
    t.pk up ≠ [] ∧ NoTrailingFF (t.pk up) ∧
      ∀ pk x, m pk = some x → idx.key x = idx.key up → idx.ord x = idx.ord up → ∀ r, pk = t.pk up ++ r → r = []

/-- The row given to After is one of the result, the selector is a point or a range and, without Order, the scan is not reversed; with
Intersects there is a filter or an order. -/
def Spec.ProperAfter (t : Table T F) (m : Rows T) (q : Query T) (x : T) : Prop :=
  accepts q x = true ∧ (∀ rows, QueryRows t m q rows → x ∈ rows) ∧
  (q.intersects = [] → q.less = none → q.reverse = false) ∧
  (q.intersects = [] → (∃ p, q.sel = .point p) ∨ (∃ lo up, q.sel = .range lo up) ∧ (q.index.key x).length < 2 ^ 32 - 1) ∧
  (q.intersects ≠ [] → q.filter ≠ none ∨ q.less ≠ none)

/-- Documented use of the read calls, for the content `m`: Scan: no row is below the table's empty record;
queries: a proper After, if any, offsets and limits below 2^63, an order that is one, and parts of Intersects that are plain. `tx`: through
a transaction, where Intersects reads the records without it (C34). -/
def Spec.ProperRead (t : Table T F) (m : Rows T) (tx : Bool) : TCall T → Prop
  | .write _ => False
  | .get _ | .exist _ => True
  | .getMany pts => ∀ p ∈ pts, ∀ x, m (t.pk p) = some x → t.ser x ≠ some []
  | .scan _ => ∀ pk x, m pk = some x → ble (t.pk t.empty) pk = true
  | .scanIndex idx sel _ => IsIndex t idx ∧ ProperSelector t idx m sel
  | .query q => IsIndex t q.index ∧ ProperSelector t q.index m q.sel ∧ (∀ x, q.after = some x → ProperAfter t m q x) ∧
      q.offset.toNat < 2 ^ 63 ∧ q.limit.toNat < 2 ^ 63 ∧ (∀ less, q.less = some less → StrictWeak less) ∧
      (q.intersects ≠ [] → tx = false ∧ q.checkIntersect = true ∧
        ∀ q' ∈ q.intersects, IsIndex t q'.index ∧ ProperSelector t q'.index m q'.sel)

/-- Documented use: write calls without the transaction only if none is open. -/
def Spec.Proper1 (t : Table T F) (s : Maps T) : PStep T → Prop
  | .call env inBatch (.write c) => env.OK t ∧ (s.tx.isSome → inBatch = true) ∧ ProperWrite t env (s.tx.getD s.stored) c
  | .call env inBatch c => env.OK t ∧ ProperRead t (if inBatch then s.tx.getD s.stored else s.stored) (inBatch && s.tx.isSome) c
  | _ => True

/-- Documented use, whatever the answers are. -/
def Spec.Proper (t : Table T F) : Maps T → List (PStep T) → Prop
  | _, [] => True
  | s, x :: l => Proper1 t s x ∧ ∀ a s', Does t s x a s' → Proper t s' l

end Bond
