import Verif.Transactions
import Verif.Scan
/-
A filter that is initialised by one goroutine while others write the table (filter.go:24-75). The initialisation is a sequence of
atomic actions: Load, Clear, opening the iterator of a scan, one Add per key, and finally the store to `isInitialized`; they are
interleaved in any order with the actions of the goroutines of Transactions.lean.
-/
namespace Bond
variable {T F : Type}

/-- filter.go:24-28 `FilterInitializable`: the filter and `isInitialized` -/
structure Gate (F : Type) where
  inner : F
  ready : Bool

/-- filter.go:30-36 `MayContain` of `FilterInitializable`; `Add` is that of the filter (filter.go:25) -/
def gateFilter (fl : Filter F) : Filter (Gate F) where
  add g k := { g with inner := fl.add g.inner k }
  may g k := if g.ready then fl.may g.inner k else true

/-- the filter itself as the filter of the table, without `FilterInitializable` (filter.go:14-22) -/
def plainFilter (fl : Filter F) : Filter (Gate F) where
  add g k := { g with inner := fl.add g.inner k }
  may g k := fl.may g.inner k

/-- What an initialisation is given: what `Load` does to the filter in memory if it succeeds (`true`) and if it fails half way
(`false`) (bloom/bloom_filter.go:93-136), and the scanners (filter.go:56-75): `none` is the scanner of the table the goroutines
write, `some keys` the scanner of another table, with the keys it is going to deliver. -/
structure InitCfg (F : Type) where
  load : Bool → F → F
  scans : List (Option (List Bytes))

/-- Where the initialising goroutine is in filter.go:38-75: not begun, before `Clear`, before the next scanner, inside a scan with
the keys of its iterator still to come, before the store to `isInitialized`, returned without and with an error. -/
inductive InitPhase
  | start
  | clear
  | scan (rest : List (Option (List Bytes)))
  | add (keys : List Bytes) (rest : List (Option (List Bytes)))
  | store
  | done
  | failed
  deriving DecidableEq

/-- the keys of the iterator that `ScanForEach` opens without a batch (table.go:1015-1017, 1030-1056); `none` is a panic -/
def Table.initKeys (t : Table T F) (db : KV) : Option (List Bytes) :=
  (t.iterParts db none t.primaryIndex (.point t.empty)).map (fun parts => (walk parts false).map (·.1))

/-- One action of the initialising goroutine (filter.go:38-46, 56-75); `ok` says whether `Load`, `Clear` or the scan goes well at this
point. After it has returned it may be called again. -/
def Table.initStep (t : Table T (Gate F)) (fl : Filter F) (cfg : InitCfg F) (db : KV) (g : Gate F) (ok : Bool) :
    InitPhase → Gate F × InitPhase
  | .start => ({ g with inner := cfg.load ok g.inner }, if ok then .store else .clear)
  | .clear => (g, if ok then .scan cfg.scans else .failed)
  | .scan [] => (g, .store)
  | .scan (none :: rest) =>
    if ok then
      match t.initKeys db with
      | some keys => (g, .add keys rest)
      | none => (g, .failed)
    else (g, .failed)
  | .scan (some keys :: rest) => if ok then (g, .add keys rest) else (g, .failed)
  | .add [] rest => if ok then (g, .scan rest) else (g, .failed)
  | .add (k :: keys) rest => if ok then ({ g with inner := fl.add g.inner k }, .add keys rest) else (g, .failed)
  | .store => ({ g with ready := true }, .done)
  | .done => (g, .start)
  | .failed => (g, .start)

/-- the goroutines that write and the one that initialises (table.go:124-149, filter.go:24-28) -/
structure InitWorld (T F : Type) where
  w : TxWorld T (Gate F)
  phase : InitPhase

/-- One step: an action of a writing goroutine or a write by somebody else (`Sum.inl`, table.go:338-789), or an action of the
initialising goroutine (`Sum.inr`, filter.go:38-75). -/
def InitWorld.step (t : Table T (Gate F)) (fl : Filter F) (cfg : InitCfg F) (x : InitWorld T F) :
    (Nat ⊕ List WOp) ⊕ Bool → InitWorld T F
  | .inl a => { x with w := x.w.step t a }
  | .inr ok =>
    let r := t.initStep fl cfg x.w.db x.w.filt ok x.phase
    { w := { x.w with filt := r.1 }, phase := r.2 }

/-- the world after a schedule (table.go:338-789 and filter.go:38-75 interleaved) -/
def InitWorld.run (t : Table T (Gate F)) (fl : Filter F) (cfg : InitCfg F) (x : InitWorld T F)
    (sched : List ((Nat ⊕ List WOp) ⊕ Bool)) : InitWorld T F := sched.foldl (InitWorld.step t fl cfg) x

/-- the start: nothing has been done, the filter in memory is `f` and not initialised (filter.go:24-28) -/
def Table.initWorld (t : Table T (Gate F)) (db : KV) (f : F) (ks : List (Task T)) : InitWorld T F :=
  { w := t.txWorld db ⟨f, false⟩ ks, phase := .start }

end Bond
