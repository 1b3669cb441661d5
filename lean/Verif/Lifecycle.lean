import Verif.Key
/-
Model of `Close`, `OnClose` (bond.go:309-322) and `Compact` (bond.go:299-307).
-/
namespace Bond

/-- what a callback given to `OnClose` does with the database: a read or write (bond.go:225-281), `OnClose` for the callback with the given
number, `Close` (bond.go:309-316) -/
inductive CloseAct | use | onClose (id : Nat) | close
deriving DecidableEq, Repr

/-- what happens (bond.go:309-322): callback `id` is called; the database is used and is open or not; pebble is closed -/
inductive CloseEv | called (id : Nat) | used (isOpen : Bool) | pebbleClosed
deriving DecidableEq, Repr

/-- what is left to do: an action of a callback or of the caller, the call of a callback (bond.go:318-322), the `Close` of pebble (bond.go:311) -/
inductive CloseInstr | act (a : CloseAct) | call (id : Nat) | pebble
deriving DecidableEq, Repr

/-- bond.go:144-162 the parts of `_db` used here: the registered callbacks, and whether pebble is open; and what happened so far -/
structure CloseSt where
  callbacks : List Nat
  isOpen : Bool
  log : List CloseEv
deriving DecidableEq, Repr

/-- Runs `todo`; `beh id` is what callback `id` does; the flag of the result is false after a panic: pebble panics when it is used or
closed after it was closed. `none`: still running after `fuel` steps.
`Close` (bond.go:309-312) calls the callbacks that are registered when it begins (the slice is evaluated once by `range`, bond.go:319),
then closes pebble. `OnClose` appends (bond.go:314-316). -/
def closeRun (beh : Nat → List CloseAct) : Nat → List CloseInstr → CloseSt → Option (CloseSt × Bool)
  | _, [], s => some (s, true)
  | 0, _ :: _, _ => none
  | fuel + 1, i :: todo, s =>
    match i with
    | .act .use =>
      let s := { s with log := s.log ++ [.used s.isOpen] }
      if s.isOpen then closeRun beh fuel todo s else some (s, false)
    | .act (.onClose id) => closeRun beh fuel todo { s with callbacks := s.callbacks ++ [id] }
    | .act .close => closeRun beh fuel (s.callbacks.map .call ++ .pebble :: todo) s
    | .call id => closeRun beh fuel ((beh id).map .act ++ todo) { s with log := s.log ++ [.called id] }
    | .pebble => if s.isOpen then closeRun beh fuel todo { s with isOpen := false, log := s.log ++ [.pebbleClosed] } else some (s, false)

/-- bond.go:299-307 the upper end of the range given to pebble's `Compact`; the lower end is nil -/
def compactEnd : Bytes := keyEncode { tableID := 0xFF, indexID := 0xFF, index := [], indexOrder := [], primaryKey := [] }

/-- the keys that `Compact` asks pebble to compact (bond.go:306); pebble includes the upper end -/
def inCompact (k : Bytes) : Bool := ble k compactEnd

end Bond
