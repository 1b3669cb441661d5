import Verif.Store
/-
Model of `Commit` (batch.go:134-152) with `OnCommit` callbacks that themselves use the batch they are given.
-/
namespace Bond

/-- what an `OnCommit` callback does with its batch (batch.go:94-108, 134-179): a write, which may depend on what it reads through a
batch with reads, that is the store with the writes of the batch so far; registering the callback with the given number; `Commit` -/
inductive OcAct
  | write (f : KV → WOp)
  | onCommit (id : Nat)
  | commit

/-- an `OnCommit` callback: its actions, and whether it returns no error, which may depend on what it reads at the end
(batch.go:165-167, 183) -/
structure OcCb where
  acts : List OcAct
  ok : KV → Bool

/-- batch.go:47-56 the batch, and the store behind it; `applied`: the batch was given to pebble's Commit with success -/
structure OcSt where
  store : KV
  ops : List WOp
  callbacks : List Nat
  applied : Bool

/-- how `Commit` ends (batch.go:134-152): without error, with an error, or with a panic of pebble, which refuses a batch that was
committed before -/
inductive OcRes | done | failed | panicked
deriving DecidableEq, Repr

/-- what is read through the batch (batch.go:94-96, 110-112) -/
def OcSt.view (s : OcSt) : KV := s.store.apply s.ops

/-- the actions of one callback; `commit` stands for `Commit` of the same batch, whose error the callback ignores (calls of
batch.go:94-179 made in the function called at batch.go:183). `none`: still running. -/
def ocActs (commit : OcSt → Option (OcSt × OcRes)) : List OcAct → OcSt → Option (OcSt × OcRes)
  | [], s => some (s, .done)
  | .write f :: acts, s => ocActs commit acts { s with ops := s.ops ++ [f s.view] }
  | .onCommit id :: acts, s => ocActs commit acts { s with callbacks := s.callbacks ++ [id] }
  | .commit :: acts, s =>
    match commit s with
    | none => none
    | some (s, .panicked) => some (s, .panicked)
    | some (s, _) => ocActs commit acts s

/-- batch.go:181-190 `notifyOnCommit` on the callbacks `ids` that were registered when it began -/
def ocNotify (commit : OcSt → Option (OcSt × OcRes)) (beh : Nat → OcCb) : List Nat → OcSt → Option (OcSt × OcRes)
  | [], s => some (s, .done)
  | id :: ids, s =>
    match ocActs commit (beh id).acts s with
    | none => none
    | some (s, .panicked) => some (s, .panicked)
    | some (s, _) => if (beh id).ok s.view then ocNotify commit beh ids s else some (s, .failed)

/-- batch.go:134-152 `Commit`; `engineOk` is whether pebble's Commit succeeds. The fuel is the depth of calls of `Commit` made inside
of `Commit`; `none`: it does not suffice. -/
def ocCommit (beh : Nat → OcCb) (engineOk : OcSt → Bool) : Nat → OcSt → Option (OcSt × OcRes)
  | 0, _ => none
  | fuel + 1, s =>
    if s.ops.isEmpty then some (s, .done)
    else
      match ocNotify (ocCommit beh engineOk fuel) beh s.callbacks s with
      | none => none
      | some (s, .panicked) => some (s, .panicked)
      | some (s, .failed) => some (s, .failed)
      | some (s, .done) =>
        if s.applied then some (s, .panicked)
        else if engineOk s then some ({ s with store := s.store.apply s.ops, applied := true }, .done)
        else some (s, .failed)

end Bond
