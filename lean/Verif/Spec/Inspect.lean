import Verif.Inspect
import Verif.Spec.Queries
/-
Specification side of the properties of the inspect package: when a value given in a filter or selector is the value of a
field.
-/
namespace Bond
open Spec
variable {T : Type}

/-- the number m / 2^e that data stand for, if it is one -/
def Spec.number : Data → Option (Int × Nat)
  | .int n => some (n, 0)
  | .flt m e => some (m, e)
  | _ => none

/-- The same value: the same number, or the same bytes or text, or the same truth value. -/
def Spec.SameValue (a b : Data) : Prop :=
  match Spec.number a, Spec.number b with
  | some (m, e), some (m', e') => m * 2 ^ e' = m' * 2 ^ e
  | none, none => a = b
  | _, _ => False

/-- data that a variable of this kind can have; floating point numbers in lowest terms -/
def Spec.fits : Data → GoKind → Bool
  | .int n, .sint s => s.holds true n
  | .int n, .uint s => s.holds false n
  | .flt m e, .float => e == 0 || m % 2 == 1
  | .bytes _, .string => true
  | .bytes _, .bytes => true
  | .nilBytes, .bytes => true
  | .bool _, .bool => true
  | .other _, .list => true
  | .other _, .map => true
  | _, _ => false

/-- The value is given as one of the field's own type, or as a number or text that this type has: no fraction for an integer
field, nothing outside its range, no number for text, no large integer for a floating point field, no value of another type
of the same kind. -/
def Spec.Plain (v : TVal) (t : GoType) : Prop :=
  if v.type.kind.same t.kind then v.type = t
  else
    match v.data, t.kind with
    | .int n, .sint s => s.holds true n = true
    | .int n, .uint s => s.holds false n = true
    | .int n, .float => n.natAbs ≤ 2 ^ 53
    | .int _, .string => False
    | .flt m e, .sint s => e = 0 ∧ s.holds true m = true
    | .flt m e, .uint s => e = 0 ∧ s.holds false m = true
    | .nilBytes, _ => False
    | .other _, _ => False
    | _, _ => True

/-- A filter: every entry has a value; one for a field is given as `Plain` says. -/
def Spec.PlainMap (d : Desc T) (m : GoMap) : Prop :=
  ∀ k v, (k, v) ∈ m → ∃ tv, v = some tv ∧ fits tv.data tv.type.kind = true ∧ ∀ f ∈ d.fields, f.key = k → Plain tv f.type

/-- A row matches a filter: every entry names a field, which has the given value. -/
def Spec.Matches (d : Desc T) (m : GoMap) (x : T) : Prop :=
  ∀ k v, (k, v) ∈ m → ∃ f ∈ d.fields, f.key = k ∧ ∃ tv, v = some tv ∧ SameValue tv.data (d.get x f.name)

/-- The fields of `x` named in `m` have the values given there, the others those of `zero`. -/
def Spec.IsRecord (d : Desc T) (zero : T) (m : GoMap) (x : T) : Prop :=
  ∀ f ∈ d.fields, (∀ tv, (f.key, some tv) ∈ m → SameValue tv.data (d.get x f.name)) ∧
    ((∀ v, (f.key, v) ∉ m) → d.get x f.name = d.get zero f.name)

/-- A selector or cursor: no field twice, every entry names a field, whose type has the given value. -/
def Spec.PlainRecord (d : Desc T) (m : GoMap) : Prop :=
  (m.map Prod.fst).Nodup ∧ PlainMap d m ∧
    ∀ k v, (k, v) ∈ m → ∃ f ∈ d.fields, f.key = k ∧ ∃ tv x, v = some tv ∧ fits x f.type.kind = true ∧ SameValue tv.data x

/-- What is assumed about a record type: its fields have different names and are found under them; reading and writing
fields works. -/
structure Desc.OK (d : Desc T) : Prop where
  names : (d.fields.map GoField.name).Nodup
  keys : ∀ f ∈ d.fields, f.key = f.name
  fits : ∀ x, ∀ f ∈ d.fields, Spec.fits (d.get x f.name) f.type.kind = true
  get_set : ∀ x f v, f ∈ d.fields → Spec.fits v f.type.kind = true → d.get (d.set x f.name v) f.name = v
  get_other : ∀ x f v n, f ∈ d.fields → n ≠ f.name → d.get (d.set x f.name v) n = d.get x n

/-- What is assumed about a table: the setting of the scans, and that names and orders are what Go makes them. -/
structure Info.OK (i : Info) (db : KV) (m : Rows i.T) : Prop where
  setting : Setting i.table i.env i.filt db none m
  desc : i.desc.OK
  pointer : i.desc.pointer = true
  indexes : ∀ idx, idx ∈ i.indexes ↔ IsIndex i.table idx
  names : (i.indexes.map i.indexName).Nodup
  primary : i.indexName i.table.primaryIndex = "primary"
  range : ∀ l, (i.range l).Perm l
  rangeRow : ∀ x l, (i.rangeRow x l).Perm l

/-- what the request asks for in a row besides the index: the filter, if there is one -/
def Spec.Wanted (d : Desc T) (filter : Option GoMap) (x : T) : Prop := ∀ f, filter = some f → Matches d f x

/-- the name of an index in a request; none is the primary index -/
def IReq.indexName (r : IReq) : String := if r.index = "" then "primary" else r.index

/-- `Query` ends without an error and returns these maps. -/
def Inspects (infos : List Info) (oor : OutOfRange) (db : KV) (r : IReq) (l : List GoMap) : Prop :=
  ∃ N, ∀ fuel, N ≤ fuel → inspectQuery infos oor db fuel r = .rows l

/-- the same for the remote client -/
def RemoteInspects (text : Bytes → Bytes) (infos : List Info) (oor : OutOfRange) (db : KV) (r : IReq) (l : List GoMap) : Prop :=
  ∃ N, ∀ fuel, N ≤ fuel → remoteQuery text infos oor db fuel r = .rows l

/-- records that have the same fields are the same -/
def Desc.Ext (d : Desc T) : Prop := ∀ x y, (∀ f ∈ d.fields, d.get x f.name = d.get y f.name) → x = y

/-- All fields of the record survive JSON: integers up to 2^53, valid text, truth values and floating point numbers, the last
three of the predeclared types. -/
def Spec.JsonExact (text : Bytes → Bytes) (d : Desc T) (x : T) : Prop :=
  ∀ f ∈ d.fields, match d.get x f.name with
    | .int n => n.natAbs ≤ 2 ^ 53
    | .flt _ _ => f.type.name = 0
    | .bytes b => f.type = ⟨.string, 0⟩ ∧ text b = b
    | .bool _ => f.type.name = 0
    | _ => False

end Bond
