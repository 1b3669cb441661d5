import Verif.Decimal
import Verif.Store
import Verif.Key
/-
Model of Open and MigratePebbleFormatVersion in bond.go and of version.go: what is on disk, and what a call does to it.
-/
namespace Bond

/-- strconv.ParseUint(s, 10, 64) (Go standard library); `none` is an error (bond.go:181, 577) -/
def parseUint (s : Bytes) : Option Nat :=
  if s = [] then none
  else if s.all (fun c => 48 ≤ c.toNat && c.toNat ≤ 57) then (if decValue s < 2 ^ 64 then some (decValue s) else none)
  else none

/-- strconv.ParseInt (Go standard library): the text without a leading sign (version.go:22) -/
def dropSign : Bytes → Bytes
  | 43 :: r => r
  | 45 :: r => r
  | r => r

/-- `ver, _ := strconv.ParseInt(s, 10, 32)` (Go standard library) with the error dropped, as in version.go:22: 0 for a syntax error, the
nearest 32-bit number if out of range -/
def parseInt32 (s : Bytes) : Int :=
  let digits := dropSign s
  let neg := s.head? == some 45
  if digits = [] then 0
  else if digits.all (fun c => 48 ≤ c.toNat && c.toNat ≤ 57) then
    let n : Int := decValue digits
    if neg then max (-n) (-2147483648) else min n 2147483647
  else 0

/-- A database directory: does `bond/` exist, the content of the file `bond/PEBBLE_FORMAT_VERSION`, the pebble store (its format version and
content), and whether pebble's lock on the directory is held (bond.go:138-232). -/
structure Disk where
  bondDir : Bool
  fmtFile : Option Bytes
  pebble : Option (Nat × KV)
  locked : Bool

/-- an empty or missing directory (bond.go:138-180) -/
def Disk.fresh : Disk := ⟨false, none, none, false⟩

/-- pebble.Open (external): refused if the directory is locked or for other reasons (`ok` depends on the version asked for and on what is
there); otherwise a new store gets the version asked for, and an old one is raised to it if it is lower (bond.go:194-197, 594-597). -/
def pebbleOpen (ok : Nat → Option Nat → Bool) (v : Nat) (d : Disk) : Option Disk :=
  if d.locked || !ok v (d.pebble.map Prod.fst) then none
  else
    match d.pebble with
    | none => some { d with pebble := some (v, KV.empty), locked := true }
    | some (f, c) => some { d with pebble := some (max f v, c), locked := true }

/-- version.go:15-24 `Version` -/
def dataVersion (c : KV) : Int :=
  match c.get bondDataVersionKey with
  | none => 0
  | some v => parseInt32 v

/-- Why a call failed. `torn`: the process died (returned in bond.go:138-232, 567-606). -/
inductive OErr | parse | format | pebble | data | io | torn
  deriving DecidableEq

/-- bond.go:165-190 the file with the format version. os.WriteFile truncates or creates the file, then writes: if `cut` is `some n` the
process dies when `n` bytes have been written. -/
def checkFormat (cut : Option Nat) (v : Nat) (d : Disk) : Disk × Option OErr :=
  match d.fmtFile with
  | none =>
    match cut with
    | some n => ({ d with fmtFile := some ((decimal v).take n) }, some .torn)
    | none => ({ d with fmtFile := some (decimal v) }, none)
  | some s =>
    match parseUint s with
    | none => (d, some .parse)
    | some e => if e ≠ v then (d, some .format) else (d, none)

/-- bond.go:223-229 and version.go:26-32 the data version. With another version the store stays open although no handle is returned. -/
def checkData (d : Disk) : Disk × Option OErr :=
  match d.pebble with
  | none => (d, some .pebble)
  | some (f, c) =>
    if dataVersion c = 0 then ({ d with pebble := some (f, c.set bondDataVersionKey (decimal 1)) }, none)
    else if dataVersion c ≠ 1 then (d, some .data)
    else (d, none)

/-- bond.go:138-232 `Open` with the format version `v` in the options. `cut`: see `checkFormat`. -/
def openCut (cut : Option Nat) (ok : Nat → Option Nat → Bool) (v : Nat) (d : Disk) : Disk × Option OErr :=
  match checkFormat cut v { d with bondDir := true } with
  | (d, some e) => (d, some e)
  | (d, none) =>
    match pebbleOpen ok v d with
    | none => (d, some .pebble)
    | some d => checkData d

/-- bond.go:138-232 `Open` -/
def openDB := openCut none

/-- bond.go:309-312 `Close`; also the effect of the end of the process -/
def Disk.close (d : Disk) : Disk := { d with locked := false }

/-- where the process dies in a migration: before pebble's upgrade, after it, after the file is truncated and `n` bytes are written (bond.go:584-606) -/
inductive MCut | start | upgraded | written (n : Nat)
  deriving DecidableEq

/-- bond.go:584-608 `MigratePebbleFormatVersion`; `cut` is where the process dies, if it does. Opening the file fails without the directory
`bond/`. -/
def migrate (cut : Option MCut) (ok : Nat → Option Nat → Bool) (u : Nat) (d : Disk) : Disk × Option OErr :=
  if cut = some .start then (d, some .torn)
  else
    match pebbleOpen ok u d with
    | none => (d, some .pebble)
    | some d =>
      if cut = some .upgraded then (d.close, some .torn)
      else if !d.bondDir then (d.close, some .io)
      else
        match cut with
        | some (.written n) => ({ d.close with fmtFile := some ((decimal u).take n) }, some .torn)
        | _ => ({ d.close with fmtFile := some (decimal u) }, none)

end Bond
