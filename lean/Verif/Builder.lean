import Verif.Query
import Verif.Memory
/-
Model of the methods that build a query (query.go:43-153) with the memory of the `intersects` slices.
-/
namespace Bond
variable {T F : Type}

/-- query.go:27-41 the fields of `Query` except the table and `intersects` -/
structure QFields (T : Type) where
  index : Index T
  sel : Selector T
  reverse : Bool := false
  filter : Option (T → Bool) := none
  less : Option (T → T → Bool) := none
  offset : UInt64 := 0
  limit : UInt64 := 0
  after : Option T := none

/-- query.go:74-128 the calls that set one thing in a query: With (74-78), Filter (82-85), Order (88-91), Reverse (97-100),
Offset (109-112), Limit (118-121), After (124-128). The condition of Filter is the function `cond.Eval`. -/
inductive QCall (T : Type) where
  | with (idx : Index T) (sel : Selector T)
  | filter (f : T → Bool)
  | order (less : T → T → Bool)
  | reverse
  | offset (n : UInt64)
  | limit (n : UInt64)
  | after (x : T)

/-- query.go:74-128 the methods. They have value receivers, so they return a changed copy. -/
def QFields.call (q : QFields T) : QCall T → QFields T
  | .with idx sel => { q with index := idx, sel := sel }
  | .filter f => { q with filter := some f }
  | .order less => { q with less := some less }
  | .reverse => { q with reverse := !q.reverse }
  | .offset n => { q with offset := n }
  | .limit n => { q with limit := n }
  | .after x => { q with after := some x }

/-- query.go:27-41 the query with these fields and parts (`intersects`) -/
def QFields.query (q : QFields T) (parts : List (Query T)) : Query T :=
  { index := q.index, sel := q.sel, reverse := q.reverse, filter := q.filter, less := q.less, offset := q.offset,
    limit := q.limit, after := q.after, intersects := parts }

/-- query.go:27-41 the fields of a query -/
def Query.fields (q : Query T) : QFields T :=
  { index := q.index, sel := q.sel, reverse := q.reverse, filter := q.filter, less := q.less, offset := q.offset,
    limit := q.limit, after := q.after }

/-- header of a slice of queries: its array, length and capacity (the offset is always 0 in query.go). A nil slice has
capacity 0. -/
structure QSl where
  arr : Nat := 0
  len : Nat := 0
  cap : Nat := 0
deriving DecidableEq

/-- query.go:27-41 a `Query` as a Go value: the slice `intersects` is a header that refers to an array in memory -/
structure QM (T : Type) where
  own : QFields T
  intersects : QSl := {}

/-- the arrays of the `intersects` slices (query.go:150-153; Go memory): `cell a i` is element `i` of array `a`; arrays from `next` on are not yet allocated -/
structure QMem (T : Type) where
  cell : Nat → Nat → QM T
  next : Nat := 0

/-- the elements of a slice (read at query.go:393-428; Go memory) -/
def QMem.read (h : QMem T) (s : QSl) : List (QM T) := (List.range s.len).map (h.cell s.arr)

/-- store `xs` in array `a` from element `i` on (`append`, query.go:151; Go memory) -/
def QMem.write (h : QMem T) (a i : Nat) (xs : List (QM T)) : QMem T :=
  { h with cell := fun b j => if b = a ∧ i ≤ j then (xs[j - i]?).getD (h.cell b j) else h.cell b j }

/-- Go `append(s, xs...)` (query.go:151): in place if the capacity is enough, otherwise in a new array, whose capacity is
chosen by `grow` (Go language: at least the new length). -/
def QMem.append (grow : Nat → Nat → Nat) (h : QMem T) (s : QSl) (xs : List (QM T)) : QMem T × QSl :=
  if s.len + xs.length ≤ s.cap then (h.write s.arr s.len xs, { s with len := s.len + xs.length })
  else
    ({ h.write h.next 0 (h.read s ++ xs) with next := h.next + 1 },
      ⟨h.next, s.len + xs.length, max (grow s.cap (s.len + xs.length)) (s.len + xs.length)⟩)

/-- query.go:150-153 `Intersects` -/
def QM.addParts (grow : Nat → Nat → Nat) (h : QMem T) (q : QM T) (queries : List (QM T)) : QMem T × QM T :=
  let r := h.append grow q.intersects queries
  (r.1, { q with intersects := r.2 })

/-- A statement of the caller's program (calls of query.go:57-153). Each makes one new variable: a fresh query (`t.Query()`), the result of a call on
variable `v`, or `v.Intersects(vs...)`. -/
inductive QStmt (T : Type) where
  | new
  | call (v : Nat) (c : QCall T)
  | intersects (v : Nat) (vs : List Nat)

/-- one statement (query.go:43-55 `newQuery`, 74-128, 150-153) in memory; `none`: a variable that is not declared -/
def QStmt.step (q0 : QFields T) (grow : Nat → Nat → Nat) (s : QMem T × List (QM T)) : QStmt T → Option (QMem T × List (QM T))
  | .new => some (s.1, s.2 ++ [{ own := q0 }])
  | .call v c => do
    let q ← s.2[v]?
    some (s.1, s.2 ++ [{ q with own := q.own.call c }])
  | .intersects v vs => do
    let q ← s.2[v]?
    let qs ← vs.mapM (fun i => s.2[i]?)
    let r := q.addParts grow s.1 qs
    some (r.1, s.2 ++ [r.2])

/-- the program of the caller (query.go:43-153) -/
def QStmt.run (q0 : QFields T) (grow : Nat → Nat → Nat) : List (QStmt T) → QMem T × List (QM T) → Option (QMem T × List (QM T))
  | [], s => some s
  | p :: ps, s => (p.step q0 grow s).bind (QStmt.run q0 grow ps)

/-- query.go:131-148 the query that `Execute` sees when it is called on the value `q`: its fields and the elements of
`intersects` in memory. Of these `Execute` uses only their own fields (query.go:393-428), so their parts are left out. -/
def QM.load (h : QMem T) (q : QM T) : Query T := q.own.query ((h.read q.intersects).map (fun p => p.own.query []))

/-- the memory before any `Intersects` (query.go:43-55 leaves the slice nil): no arrays -/
def QMem.start (q0 : QFields T) : QMem T := { cell := fun _ _ => { own := q0 } }

end Bond
