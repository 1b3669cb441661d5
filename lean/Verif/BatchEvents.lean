/-
Model of the callbacks of batch.go. Callbacks are known by a number; what they do is recorded as an event.
Assumption: a callback does not itself call Commit, Close, Apply, Reset or register callbacks on its batch.
-/
namespace Bond

/-- what happens, in order (calls made in batch.go:114-208) -/
inductive BEv
  | onCommit (id : Nat) (ok : Bool)
  | commit (ok : Bool)
  | apply (ok : Bool)
  | onCommitted (id : Nat)
  | onError (id : Nat)
  | onClose (id : Nat)
  | close (ok : Bool)
deriving DecidableEq, Repr

/-- Choices of the environment, depending on everything that happened before: does callback `id` return an error, does the storage
engine's Commit, Apply or Close fail (results used in batch.go:120, 126, 139, 144, 157, 183). -/
structure BEnv where
  cbOk : List BEv → Nat → Bool
  commitOk : List BEv → Bool
  applyOk : List BEv → Bool
  closeOk : List BEv → Bool

/-- batch.go:47-56 `_batch`: number of writes and the four lists of callbacks -/
structure CBatch where
  writes : Nat
  onCommit : List Nat
  onCommitted : List Nat
  onError : List Nat
  onClose : List Nat
deriving DecidableEq, Repr

/-- batch.go:58-70 a new batch -/
def CBatch.new : CBatch := ⟨0, [], [], [], []⟩

/-- batch.go:181-190 `notifyOnCommit`: events so far to events after, and whether there was no error -/
def notifyOnCommit (env : BEnv) : List Nat → List BEv → List BEv × Bool
  | [], tr => (tr, true)
  | id :: ids, tr =>
    let ok := env.cbOk tr id
    let tr := tr ++ [.onCommit id ok]
    if ok then notifyOnCommit env ids tr else (tr, false)

/-- batch.go:192-196 `notifyOnCommitted` -/
def CBatch.notifyOnCommitted (b : CBatch) (tr : List BEv) : List BEv := tr ++ b.onCommitted.map .onCommitted

/-- batch.go:198-202 `notifyOnError` -/
def CBatch.notifyOnError (b : CBatch) (tr : List BEv) : List BEv := tr ++ b.onError.map .onError

/-- batch.go:204-208 `notifyOnClose`: it runs the `onCommitted` callbacks -/
def CBatch.notifyOnClose (b : CBatch) (tr : List BEv) : List BEv := tr ++ b.onCommitted.map .onCommitted

/-- batch.go:134-152 `Commit` (also bond.go:293-295 `Apply` of the database); `false`: returned an error -/
def CBatch.commit (env : BEnv) (b : CBatch) (tr : List BEv) : List BEv × Bool :=
  if b.writes = 0 then (tr, true)
  else
    match notifyOnCommit env b.onCommit tr with
    | (tr, false) => (tr, false)
    | (tr, true) =>
      let ok := env.commitOk tr
      let tr := tr ++ [.commit ok]
      if ok then (b.notifyOnCommitted tr, true) else (b.notifyOnError tr, false)

/-- batch.go:114-132 `Apply`, seen from the batch that is applied to another one. The deferred `notifyOnCommitted` runs on the error
path too, after `notifyOnError`. -/
def CBatch.applyTo (env : BEnv) (b : CBatch) (tr : List BEv) : List BEv × Bool :=
  match notifyOnCommit env b.onCommit tr with
  | (tr, false) => (tr, false)
  | (tr, true) =>
    let ok := env.applyOk tr
    let tr := tr ++ [.apply ok]
    let tr := if ok then tr else b.notifyOnError tr
    (b.notifyOnCommitted tr, ok)

/-- batch.go:154-163 `Close` -/
def CBatch.close (env : BEnv) (b : CBatch) (tr : List BEv) : List BEv × Bool :=
  let tr := b.notifyOnClose tr
  let ok := env.closeOk tr
  let tr := tr ++ [.close ok]
  if ok then (tr, true) else (b.notifyOnError tr, false)

/-- the calls on one batch (batch.go:83-179) -/
inductive BCall
  | write
  | onCommit (id : Nat)
  | onCommitted (id : Nat)
  | onError (id : Nat)
  | onClose (id : Nat)
  | commit
  | apply
  | close
  | reset
deriving DecidableEq, Repr

/-- one call; batch.go:83-92 `Reset`, 165-179 the registrations -/
def CBatch.step (env : BEnv) (s : CBatch × List BEv) : BCall → CBatch × List BEv
  | .write => ({ s.1 with writes := s.1.writes + 1 }, s.2)
  | .onCommit id => ({ s.1 with onCommit := s.1.onCommit ++ [id] }, s.2)
  | .onCommitted id => ({ s.1 with onCommitted := s.1.onCommitted ++ [id] }, s.2)
  | .onError id => ({ s.1 with onError := s.1.onError ++ [id] }, s.2)
  | .onClose id => ({ s.1 with onClose := s.1.onClose ++ [id] }, s.2)
  | .commit => (s.1, (s.1.commit env s.2).1)
  | .apply => (s.1, (s.1.applyTo env s.2).1)
  | .close => (s.1, (s.1.close env s.2).1)
  | .reset => (CBatch.new, s.2)

/-- a history of calls on a new batch (calls of batch.go:83-179 on a batch of batch.go:58-70) -/
def CBatch.run (env : BEnv) (calls : List BCall) : CBatch × List BEv := calls.foldl (CBatch.step env) (CBatch.new, [])

end Bond
