import Verif.Table
import Verif.Props.Keys
/-
Specification side of the table properties: the abstract content of a table is a map from primary keys to
records; `Holds t db m` says that the database `db` stores exactly the content `m` of table `t`, with every
index in agreement with the data.
-/
namespace Bond
variable {T F : Type}

/-- abstract content of a table: primary key bytes to record -/
abbrev Spec.Rows (T : Type) := Bytes → Option T

namespace Spec.Rows
/-- add or replace one row -/
def put (m : Rows T) (pk : Bytes) (x : T) : Rows T := fun p => if p = pk then some x else m p
/-- remove one row -/
def erase (m : Rows T) (pk : Bytes) : Rows T := fun p => if p = pk then none else m p
/-- add or replace rows, later ones win -/
def putAll (m : Rows T) (pkOf : T → Bytes) (xs : List T) : Rows T := xs.foldl (fun m x => m.put (pkOf x) x) m
/-- remove rows -/
def eraseAll (m : Rows T) (pks : List Bytes) : Rows T := pks.foldl (fun m p => m.erase p) m
end Spec.Rows

open Spec

/-- Assumptions on a table definition (DESIGN.md): index ids are distinct and not 0 (the map of indexes gives
distinctness, 0 is the primary index), and key parts are shorter than 4 GiB. -/
structure Table.WF (t : Table T F) : Prop where
  ids : (t.indexes.map Index.id).Nodup
  nz : ∀ idx ∈ t.indexes, idx.id ≠ 0
  klen : ∀ idx ∈ t.indexes, ∀ x, (idx.key x).length < 2 ^ 32
  olen : ∀ idx ∈ t.indexes, ∀ x, (idx.ord x).length < 2 ^ 32

/-- The database stores exactly the rows `m` of table `t`, and every index has exactly one (empty) entry per row
accepted by its filter, under the index key of that row, and nothing else. -/
structure Holds (t : Table T F) (db : KV) (m : Rows T) : Prop where
  row_pk : ∀ pk x, m pk = some x → t.pk x = pk
  absent : ∀ pk, m pk = none → db.get (dataKey t.id pk) = none
  present : ∀ pk x, m pk = some x → ∃ b, t.ser x = some b ∧ db.get (dataKey t.id pk) = some b
  only_data : ∀ k v, db.get k = some v → InSpace t.id 0 k → ∃ pk, k = dataKey t.id pk
  index : ∀ idx ∈ t.indexes, ∀ k v, InSpace t.id idx.id k →
    (db.get k = some v ↔ v = [] ∧ ∃ pk x, m pk = some x ∧ idx.filter x = true ∧ k = t.indexKey idx x)

/-- keys that do not belong to table `t` -/
def Outside (t : Table T F) (k : Bytes) : Prop :=
  ¬ InSpace t.id 0 k ∧ ∀ idx ∈ t.indexes, ¬ InSpace t.id idx.id k

/-- `db'` differs from `db` at most in keys of table `t` -/
def SameOutside (t : Table T F) (db db' : KV) : Prop := ∀ k, Outside t k → db'.get k = db.get k

/-- The Go runtime's choices are legal: map iteration enumerates the indexes, sorting sorts. -/
structure Env.OK (env : Env T) (t : Table T F) : Prop where
  order : ∀ n, (env.order n).Perm t.indexes
  sort_perm : ∀ ks, (env.sort ks).Perm (List.range ks.length)
  sort_sorted : ∀ ks, ((env.sort ks).map (fun j => ks.getD j [])).Pairwise (fun a b => ble a b = true)

/-- A serializer reads back what it wrote, also into an object used before. -/
def Table.RoundTrip (t : Table T F) : Prop := ∀ x b, t.ser x = some b → ∀ o, t.deser o b = some x

/-- A serializer reads back what it wrote into a zero object. -/
def Table.RoundTripFresh (t : Table T F) : Prop := ∀ x b, t.ser x = some b → t.deser t.nil b = some x

/-- The filter never denies a key that is stored (its state covers the stored keys). -/
def FilterCovers (t : Table T F) (f : F) (m : Rows T) : Prop :=
  ∀ fl, t.filter = some fl → ∀ pk x, m pk = some x → fl.may f (dataKey t.id pk) = true

/-- A filter implementation never forgets: added keys may be contained, and stay so. -/
def Table.FilterSound (t : Table T F) : Prop :=
  ∀ fl, t.filter = some fl → ∀ f k, fl.may (fl.add f k) k = true ∧ ∀ k', fl.may f k' = true → fl.may (fl.add f k) k' = true

end Bond
