/-
Model of utils/sync.go: PreAllocatedPool over sync.Pool. Buffers are numbered in the order of their allocation.
-/
namespace Bond

/-- utils/sync.go:23-30: the preallocated list and its size, the underlying sync.Pool (a bag), and the number of buffers allocated so
far by `New`. Every Get and Put runs under the mutex (utils/sync.go:52-53, 65-66), so concurrent use is a sequence of calls. -/
structure Pool where
  pre : List Nat
  size : Nat
  bag : List Nat
  next : Nat
  deriving DecidableEq

/-- sync.Pool.Get (Go standard library, as documented): any item of the bag, or a new one. `choice` is the item taken, if any (utils/sync.go:14-16). -/
def Pool.syncGet (p : Pool) (choice : Option Nat) : Nat × Pool :=
  match choice with
  | some x => if x ∈ p.bag then (x, { p with bag := p.bag.erase x }) else (p.next, { p with next := p.next + 1 })
  | none => (p.next, { p with next := p.next + 1 })

/-- utils/sync.go:31-48 `NewPreAllocatedPool`: `size` Gets on a new, empty sync.Pool -/
def Pool.new (size : Nat) : Pool :=
  (List.range size).foldl (fun p _ => let r := p.syncGet none; { r.2 with pre := p.pre ++ [r.1] }) ⟨[], size, [], 0⟩

/-- utils/sync.go:50-61 `Get`: the last preallocated item, or sync.Pool's -/
def Pool.get (p : Pool) (choice : Option Nat) : Nat × Pool :=
  match p.pre.getLast? with
  | some item => (item, { p with pre := p.pre.dropLast })
  | none => p.syncGet choice

/-- utils/sync.go:63-72 `Put` -/
def Pool.put (p : Pool) (x : Nat) : Pool :=
  if p.pre.length < p.size then { p with pre := p.pre ++ [x] } else { p with bag := p.bag ++ [x] }

/-- what can happen to a pool: Get and Put calls by any goroutines, and the garbage collector emptying parts of a sync.Pool (utils/sync.go:50-72) -/
inductive PoolAct
  | get (choice : Option Nat) | put (x : Nat) | gc (x : Nat)

/-- the pool and the buffers obtained and not yet put back; a Put of a buffer nobody holds is ignored here: clients put back only what
they hold (`C45_refuted_double_put` shows the pool does not protect itself) (utils/sync.go:50-72) -/
def Pool.act (s : Pool × List Nat) : PoolAct → Pool × List Nat
  | .get c => let r := s.1.get c; (r.2, r.1 :: s.2)
  | .put x => if x ∈ s.2 then (s.1.put x, s.2.erase x) else s
  | .gc x => ({ s.1 with bag := s.1.bag.erase x }, s.2)

/-- sequences of utils/sync.go:50-72 -/
def Pool.run (size : Nat) (acts : List PoolAct) : Pool × List Nat := acts.foldl Pool.act (Pool.new size, [])

end Bond
