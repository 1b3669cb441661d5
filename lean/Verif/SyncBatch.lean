/-
Model of sync.go: SyncBatch.WithSync called by any number of goroutines, as an interleaving of steps.
-/
namespace Bond

/-- Where a call of WithSync is (sync.go:20-25): before `Lock`, inside `f` with so many steps of `f` left, before `Unlock`, returned;
or `f` has panicked and the panic left WithSync (there is no deferred Unlock). -/
inductive SPc
  | start | inF (left : Nat) | ret | finished | panicked
  deriving DecidableEq

/-- observable events: call `i`'s function starts, makes a step (any use of the batch), ends, panics (sync.go:20-25) -/
inductive SEv
  | begin (i : Nat) | work (i : Nat) | ended (i : Nat) | panic (i : Nat)
  deriving DecidableEq

/-- one SyncBatch (sync.go:7-11): the mutex, all calls of WithSync on it, and what has happened -/
structure SyncSys where
  mu : Bool
  pc : Nat → SPc
  trace : List SEv

/-- sync.go:13-18 `NewSyncBatch`: the mutex is free, nobody has called WithSync -/
def SyncSys.new : SyncSys := ⟨false, fun _ => .start, []⟩

/-- atomic steps the scheduler can choose (sync.go:20-25) -/
inductive SAct
  | lock (i : Nat) | step (i : Nat) | unlock (i : Nat) | panic (i : Nat)
  deriving DecidableEq

/-- sync.go:20-25 -/
def SyncSys.setPc (s : SyncSys) (i : Nat) (p : SPc) : Nat → SPc := fun j => if j = i then p else s.pc j

/-- sync.go:20-25 `WithSync`: Lock waits until the mutex is free; then `f` runs (`len i` steps for call `i`, the last one returns); then
Unlock. A disabled step leaves the system as it is. Several calls by one goroutine are calls with different numbers; the order a
goroutine puts on its own calls only removes schedules. -/
def SyncSys.act (len : Nat → Nat) (s : SyncSys) : SAct → SyncSys
  | .lock i =>
    match s.pc i, s.mu with
    | .start, false => { mu := true, pc := s.setPc i (.inF (len i)), trace := s.trace ++ [.begin i] }
    | _, _ => s
  | .step i =>
    match s.pc i with
    | .inF (k + 1) => { s with pc := s.setPc i (.inF k), trace := s.trace ++ [.work i] }
    | .inF 0 => { s with pc := s.setPc i .ret, trace := s.trace ++ [.ended i] }
    | _ => s
  | .unlock i =>
    match s.pc i with
    | .ret => { s with mu := false, pc := s.setPc i .finished }
    | _ => s
  | .panic i =>
    match s.pc i with
    | .inF _ => { s with pc := s.setPc i .panicked, trace := s.trace ++ [.panic i] }
    | _ => s

/-- a schedule of steps of calls of WithSync (sync.go:20-25) -/
def SyncSys.run (len : Nat → Nat) (s : SyncSys) (sched : List SAct) : SyncSys := sched.foldl (SyncSys.act len) s

end Bond
