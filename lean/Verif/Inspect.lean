import Verif.Query
/-
Model of inspect/inspect.go (`NewInspect` and its methods) and of the JSON between inspect_handler_client.go and
inspect_handler.go.

Record types are structs whose exported fields are integers, float64, string, bool, []byte or types defined from these, and
fields of other slice and map types, whose values are opaque here. Left out: float32, NaN and infinities, nested structs
and pointers, []rune.
-/
namespace Bond

/-- sizes of Go's integer types (Go specification; record fields reach them in inspect.go:118, 223); `word` is int, uint (64 bits) -/
inductive IntSize
  | w8 | w16 | w32 | w64 | word
deriving DecidableEq, Repr

/-- number of bits (Go specification, numeric types; inspect.go:118 converts between them) -/
def IntSize.bits : IntSize → Nat
  | .w8 => 8 | .w16 => 16 | .w32 => 32 | .w64 => 64 | .word => 64

/-- reflect.Kind, as far as needed by inspect.go:116, 219; `bytes` and `list` (other slices) are both reflect.Slice -/
inductive GoKind
  | sint (s : IntSize) | uint (s : IntSize) | float | string | bool | bytes | list | map
deriving DecidableEq, Repr

/-- the comparison of kinds in inspect.go:116 and 219 -/
def GoKind.same : GoKind → GoKind → Bool
  | .bytes, .list => true
  | .list, .bytes => true
  | a, b => a == b

/-- A Go type: its kind, and which of the types of that kind it is (0: the predeclared type or the type literal, as
`string` or `[]byte`). Used by inspect.go:117, 219-225. -/
structure GoType where
  kind : GoKind
  name : Nat := 0
deriving DecidableEq, Repr

/-- the data of a value; `flt m e` is m / 2^e (inspect.go:113-128) -/
inductive Data
  | int (n : Int) | flt (m : Int) (e : Nat) | bytes (b : Bytes) | nilBytes | bool (b : Bool) | other (id : Nat)
deriving DecidableEq, Repr

/-- a value with its type (reflect.Value, inspect.go:113) -/
structure TVal where
  type : GoType
  data : Data
deriving DecidableEq, Repr

/-- interface{}; `none` is nil (inspect.go:72) -/
abbrev GoAny := Option TVal

/-- map[string]interface{}, in the order of one `range` (inspect.go:112, 213) -/
abbrev GoMap := List (String × GoAny)

/-- equality of data as in reflect.DeepEqual (inspect.go:125) -/
def Data.eq : Data → Data → Bool
  | .flt m e, .flt m' e' => m * 2 ^ e' == m' * 2 ^ e
  | a, b => a == b

/-- does an integer type hold this number? (Go specification; inspect.go:118) -/
def IntSize.holds (s : IntSize) (signed : Bool) (n : Int) : Bool :=
  if signed then decide (-(2 ^ (s.bits - 1)) ≤ n ∧ n < 2 ^ (s.bits - 1)) else decide (0 ≤ n ∧ n < 2 ^ s.bits)

/-- conversion between integer types keeps the low bits (Go specification; inspect.go:118) -/
def IntSize.wrap (s : IntSize) (signed : Bool) (n : Int) : Int :=
  let u := n % 2 ^ s.bits
  if signed ∧ 2 ^ (s.bits - 1) ≤ u then u - 2 ^ s.bits else u

/-- rounding of a natural number to 53 significant bits, half to even (IEEE 754; inspect_handler.go:202 decodes numbers
into float64) -/
def round53 (n : Nat) : Nat :=
  if n ≤ 2 ^ 53 then n
  else
    let s := n.log2 - 52
    let q := n / 2 ^ s
    let r := n % 2 ^ s
    if 2 ^ (s - 1) < r ∨ (r = 2 ^ (s - 1) ∧ q % 2 = 1) then (q + 1) * 2 ^ s else q * 2 ^ s

/-- the float64 nearest to an integer (inspect_handler.go:202) -/
def roundF (n : Int) : Int := if n < 0 then -(round53 n.natAbs : Int) else round53 n.natAbs

/-- the integer part of m / 2^e, towards zero (Go specification; inspect.go:118) -/
def truncF (m : Int) (e : Nat) : Int := m.tdiv (2 ^ e)

/-- UTF-8 of a code point, U+FFFD for what is none (Go specification: string(n); inspect.go:118) -/
def runeBytes (n : Int) : Bytes :=
  let bad : Bytes := [0xEF, 0xBF, 0xBD]
  if n < 0 then bad
  else
    let c := n.toNat
    if c < 0x80 then [UInt8.ofNat c]
    else if c < 0x800 then [UInt8.ofNat (0xC0 + c / 64), UInt8.ofNat (0x80 + c % 64)]
    else if 0xD800 ≤ c ∧ c < 0xE000 then bad
    else if c < 0x10000 then [UInt8.ofNat (0xE0 + c / 4096), UInt8.ofNat (0x80 + c / 64 % 64), UInt8.ofNat (0x80 + c % 64)]
    else if c < 0x110000 then
      [UInt8.ofNat (0xF0 + c / 262144), UInt8.ofNat (0x80 + c / 4096 % 64), UInt8.ofNat (0x80 + c / 64 % 64), UInt8.ofNat (0x80 + c % 64)]
    else bad

/-- What Go leaves to the implementation: the result of converting a number that does not fit from float64 to an integer
type (inspect.go:118, 221). -/
abbrev OutOfRange := Int → GoKind → Int

/-- `fv.CanConvert(t)`, `fv.Convert(t)` for values and types of different kinds (inspect.go:117-118, 220-221): `none`
cannot be converted. -/
def convert (oor : OutOfRange) (v : TVal) (t : GoType) : Option TVal :=
  match v.data, t.kind with
  | .int n, .sint s => some ⟨t, .int (s.wrap true n)⟩
  | .int n, .uint s => some ⟨t, .int (s.wrap false n)⟩
  | .int n, .float => some ⟨t, .flt (roundF n) 0⟩
  | .int n, .string => some ⟨t, .bytes (runeBytes n)⟩
  | .flt m e, .sint s => some ⟨t, .int (if s.holds true (truncF m e) then truncF m e else s.wrap true (oor (truncF m e) t.kind))⟩
  | .flt m e, .uint s => some ⟨t, .int (if s.holds false (truncF m e) then truncF m e else s.wrap false (oor (truncF m e) t.kind))⟩
  | .bytes b, .bytes => some ⟨t, .bytes b⟩
  | .bytes b, .string => some ⟨t, .bytes b⟩
  | .nilBytes, .string => some ⟨t, .bytes []⟩
  | _, _ => none

/-- one exported field of a record: its key in the map that `structs.Map` makes (the name, or what a `structs` tag says), its
name, its type (inspect.go:110, 214, 217) -/
structure GoField where
  key : String
  name : String
  type : GoType
deriving DecidableEq, Repr

/-- What reflection sees of the record type of a table (inspect.go:82, 110, 208-217): its fields, and reading and writing
them. `pointer`: the record type is a pointer to a struct, not a struct. -/
structure Desc (T : Type) where
  fields : List GoField
  get : T → String → Data
  set : T → String → Data → T
  pointer : Bool

variable {T : Type}

/-- inspect.go:110, 170, 214 `structs.Map` -/
def Desc.toMap (d : Desc T) (x : T) : GoMap := d.fields.map (fun f => (f.key, some ⟨f.type, d.get x f.name⟩))

/-- inspect.go:108-136 the filter function for one row, with the entries of the filter in the order of the `range`; `none` is
a panic: `CanConvert` of the zero Value, made from nil -/
def Desc.rowMatches (d : Desc T) (oor : OutOfRange) (x : T) : GoMap → Option Bool
  | [] => some true
  | (k, v) :: rest =>
    match d.fields.find? (fun f => f.key == k) with
    | none => some false
    | some f =>
      match v with
      | none => none
      | some fv =>
        if fv.type.kind.same f.type.kind then
          if fv.type = f.type ∧ Data.eq fv.data (d.get x f.name) then d.rowMatches oor x rest else some false
        else
          match convert oor fv f.type with
          | none => some false
          | some w => if Data.eq w.data (d.get x f.name) then d.rowMatches oor x rest else some false

/-- the outcome of `setFields` (inspect.go:208-234) -/
inductive SetOut (T : Type)
  | ok (x : T) | mismatch | noField | panic
deriving DecidableEq, Repr

/-- may `reflect.Value.Set` store a value of the first type in a variable of the second? (inspect.go:227): the same type, or
the same underlying type if one of them is a type literal, as []byte is -/
def assignable (a b : GoType) : Bool := a == b || (a.kind == .bytes && b.kind == .bytes && (a.name == 0 || b.name == 0))

/-- inspect.go:208-234 `setFields`. A key of `structs.Map` that is not the name of a field gives the zero Value
(inspect.go:217), on which `Type` and `Set` panic, as they do for nil (inspect.go:216). -/
def Desc.setFields (d : Desc T) (oor : OutOfRange) : GoMap → T → SetOut T
  | [], x => .ok x
  | (k, v) :: rest, x =>
    if d.fields.any (fun f => f.key == k) then
      match d.fields.find? (fun f => f.name == k), v with
      | some f, some tv =>
        if tv.type.kind.same f.type.kind then
          if assignable tv.type f.type then d.setFields oor rest (d.set x f.name tv.data) else .panic
        else
          match convert oor tv f.type with
          | none => .mismatch
          | some w => d.setFields oor rest (d.set x f.name w.data)
      | _, _ => .panic
    else .noField

/-- A table as `NewInspect` gets it (inspect.go:21-27), with what its calls depend on: the runtime's choices, the state of its
filter, and the order in which a `range` over a map visits its entries (inspect.go:112 for a row, inspect.go:213). -/
structure Info : Type 1 where
  T : Type
  F : Type
  name : String
  table : Table T F
  indexName : Index T → String
  /-- table.go:196-210 `Indexes`: the indexes in the order of their ids -/
  indexes : List (Index T)
  desc : Desc T
  env : Env T
  srt : (T → T → Bool) → List T → List T
  filt : F
  rangeRow : T → GoMap → GoMap
  range : GoMap → GoMap

/-- the arguments of `Query` (inspect.go:72), a nil map is `none`; nil and empty make no difference for the selector -/
structure IReq where
  table : String
  index : String
  selector : GoMap := []
  filter : Option GoMap := none
  limit : UInt64 := 0
  after : Option GoMap := none

/-- errors of `Query` (inspect.go:73-75, 197-203, 223, 229, 163) -/
inductive IErr
  | emptyTable | noTable | noIndex | mismatch | noField | query (e : Err)
deriving DecidableEq, Repr

/-- outcome of `Query`; `running`: still running after the given number of rounds (inspect.go:72) -/
inductive IOut
  | rows (l : List GoMap) | err (e : IErr) | panic | running
deriving DecidableEq, Repr

/-- inspect.go:176-180, 187-192: the index with that name; `PrimaryIndexName` is "primary" -/
def Info.findIndex (i : Info) (index : String) : Option (Index i.T) :=
  i.indexes.find? (fun idx => i.indexName idx == (if index == "" then "primary" else index))

/-- inspect.go:92-104: the index and its selector. The point is a pointer to a record (utils/reflect.go:19-31): if the records
are not pointers, the call of `SetPoint` panics. -/
def Info.withIndex (i : Info) (oor : OutOfRange) (idx : Index i.T) (selector : GoMap) : SetOut (Query i.T) :=
  if i.indexName idx == "primary" then .ok i.table.query
  else
    match i.desc.setFields oor (i.range selector) i.table.empty with
    | .ok p => if i.desc.pointer then .ok { i.table.query with index := idx, sel := .point p } else .panic
    | .mismatch => .mismatch
    | .noField => .noField
    | .panic => .panic

/-- inspect.go:146-154 After; as with the selector the record is passed as a pointer -/
def Info.withAfter (i : Info) (oor : OutOfRange) (q : Query i.T) : Option GoMap → SetOut (Query i.T)
  | none => .ok q
  | some a =>
    match i.desc.setFields oor (i.range a) i.table.empty with
    | .ok x => if i.desc.pointer then .ok { q with after := some x } else .panic
    | .mismatch => .mismatch
    | .noField => .noField
    | .panic => .panic

/-- inspect.go:106-140 the filter; the panic of a row is looked for in `Info.panics` -/
def Info.withFilter (i : Info) (oor : OutOfRange) (q : Query i.T) : Option GoMap → Query i.T
  | none => q
  | some f => { q with filter := some (fun x => (i.desc.rowMatches oor x (i.rangeRow x f)).getD false) }

/-- query.go:208-231: does the filter panic on one of the rows it is asked about? They are the rows of the scan in order, until
`limit` of them are accepted (0: all). -/
def Info.panics (i : Info) (oor : OutOfRange) (f : GoMap) : Nat → Bool → List i.T → Bool
  | _, _, [] => false
  | left, limited, x :: rest =>
    match i.desc.rowMatches oor x (i.rangeRow x f) with
    | none => true
    | some false => i.panics oor f left limited rest
    | some true => if limited ∧ left ≤ 1 then false else i.panics oor f (left - 1) limited rest

/-- inspect.go:106-173 the query is executed with filter, limit and After, and its rows made maps; the panic of a filter
counts only if the scan itself succeeds -/
def Info.exec (i : Info) (oor : OutOfRange) (db : KV) (fuel : Nat) (q : Query i.T) (filter : Option GoMap) (limit : UInt64) : IOut :=
  let bad : Bool := match filter, q.execute i.table i.env i.srt i.filt db none fuel with
    | some f, some (.ok rows) => i.panics oor f limit.toNat (limit != 0) rows
    | _, _ => false
  if bad then .panic
  else
    match ({ i.withFilter oor q filter with limit := limit }).execute i.table i.env i.srt i.filt db none fuel with
    | none => .running
    | some (.error .panic) => .panic
    | some (.error e) => .err (.query e)
    | some (.ok rows) => .rows (rows.map i.desc.toMap)

/-- inspect.go:72-174 `Query` on the table found -/
def Info.query (i : Info) (oor : OutOfRange) (db : KV) (fuel : Nat) (r : IReq) : IOut :=
  match i.findIndex r.index with
  | none => .err .noIndex
  | some idx =>
    match i.withIndex oor idx r.selector with
    | .mismatch => .err .mismatch
    | .noField => .err .noField
    | .panic => .panic
    | .ok q =>
      match i.withAfter oor q r.after with
      | .mismatch => .err .mismatch
      | .noField => .err .noField
      | .panic => .panic
      | .ok q => i.exec oor db fuel q r.filter r.limit

/-- inspect.go:72-206 `Query`, `findTableAndIndexInfo` -/
def inspectQuery (infos : List Info) (oor : OutOfRange) (db : KV) (fuel : Nat) (r : IReq) : IOut :=
  if r.table == "" then .err .emptyTable
  else
    match infos.find? (fun i => i.name == r.table) with
    | none => .err .noTable
    | some i => i.query oor db fuel r

/-- inspect.go:29-37 `Tables` -/
def inspectTables (infos : List Info) : List String := infos.map (·.name)

/-- inspect.go:39-52 `Indexes`; `none` is the error "table not found" -/
def inspectIndexes (infos : List Info) (table : String) : Option (List String) :=
  (infos.find? (fun i => table == i.name)).map (fun i => i.indexes.map i.indexName)

/-- inspect.go:54-70 `EntryFields`, with the kinds of the fields -/
def inspectFields (infos : List Info) (table : String) : Option (List (String × GoKind)) :=
  (infos.find? (fun i => table == i.name)).map (fun i => i.desc.fields.map (fun f => (f.key, f.type.kind)))

/-! ## the remote client -/

/-- the alphabet of base64 (encoding/base64 StdEncoding; inspect_handler.go:217 encodes []byte with it) -/
def b64Char (n : Nat) : UInt8 :=
  if n < 26 then UInt8.ofNat (65 + n) else if n < 52 then UInt8.ofNat (71 + n) else if n < 62 then UInt8.ofNat (n - 4)
  else if n = 62 then 43 else 47

/-- base64 with padding (encoding/base64 StdEncoding; inspect_handler.go:217) -/
def base64 : Bytes → Bytes
  | a :: b :: c :: rest =>
    let n := a.toNat * 65536 + b.toNat * 256 + c.toNat
    b64Char (n / 262144) :: b64Char (n / 4096 % 64) :: b64Char (n / 64 % 64) :: b64Char (n % 64) :: base64 rest
  | [a, b] => let n := a.toNat * 1024 + b.toNat * 4
    [b64Char (n / 4096), b64Char (n / 64 % 64), b64Char (n % 64), 61]
  | [a] => let n := a.toNat * 16
    [b64Char (n / 64), b64Char (n % 64), 61, 61]
  | [] => []

/-- What comes out when a value is encoded as JSON and decoded into interface{} (inspect_handler_client.go:147, 171,
inspect_handler.go:202, 217). `text`: what becomes of the bytes of a string (invalid UTF-8 is replaced). -/
def jsonAny (text : Bytes → Bytes) : GoAny → GoAny
  | none => none
  | some v =>
    match v.data with
    | .int n => some ⟨⟨.float, 0⟩, .flt (roundF n) 0⟩
    | .flt m e => some ⟨⟨.float, 0⟩, .flt m e⟩
    | .bytes b => if v.type.kind = .string then some ⟨⟨.string, 0⟩, .bytes (text b)⟩ else some ⟨⟨.string, 0⟩, .bytes (base64 b)⟩
    | .nilBytes => none
    | .bool b => some ⟨⟨.bool, 0⟩, .bool b⟩
    | .other id => some ⟨⟨if v.type.kind = .map then .map else .list, 0⟩, .other id⟩

/-- a map through JSON (inspect_handler_client.go:147) -/
def jsonMap (text : Bytes → Bytes) (m : GoMap) : GoMap := m.map (fun p => (p.1, jsonAny text p.2))

/-- inspect_handler_client.go:137-177 `Query` of the remote client, inspect_handler.go:185-228: request and answer go through
JSON; the network is left out, and a panic (which ends the connection) is passed on. -/
def remoteQuery (text : Bytes → Bytes) (infos : List Info) (oor : OutOfRange) (db : KV) (fuel : Nat) (r : IReq) : IOut :=
  match inspectQuery infos oor db fuel { r with
    selector := jsonMap text r.selector, filter := r.filter.map (jsonMap text), after := r.after.map (jsonMap text) } with
  | .rows l => .rows (l.map (jsonMap text))
  | o => o

end Bond
