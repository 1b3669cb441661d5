/-
Model of Go slices and of deriving queries with `Intersects`.
-/
namespace Bond
variable {E : Type}

/-- A Go slice value that starts at the beginning of its array: the number of the array on the heap, length and
capacity. The nil slice has capacity 0 (query.go:40). -/
structure GoSlice where
  arr : Nat
  len : Nat
  cap : Nat
deriving DecidableEq, Repr

/-- arrays allocated so far; unused places of an array hold `none` (memory behind query.go:40) -/
abbrev GoHeap (E : Type) := List (List (Option E))

/-- elements of a slice (reads of query.go:40) -/
def GoHeap.read (h : GoHeap E) (s : GoSlice) : List (Option E) := ((h[s.arr]?).getD []).take s.len

/-- overwrite the places from `i` on (inside `append`, query.go:151) -/
def overwrite {α : Type} (i : Nat) (xs l : List α) : List α := l.take i ++ xs ++ l.drop (i + xs.length)

/-- The Go builtin `append` (query.go:151): in place if the capacity suffices, otherwise into a new array whose
capacity is chosen by the runtime (`grow old needed`, at least `needed`). -/
def goAppend (grow : Nat → Nat → Nat) (h : GoHeap E) (s : GoSlice) (xs : List E) : GoHeap E × GoSlice :=
  if s.len + xs.length ≤ s.cap then
    (h.set s.arr (overwrite s.len (xs.map some) ((h[s.arr]?).getD [])), { s with len := s.len + xs.length })
  else
    let n := s.len + xs.length
    (h ++ [h.read s ++ xs.map some ++ List.replicate (grow s.cap n - n) none],
      { arr := h.length, len := n, cap := max n (grow s.cap n) })

/-- Queries as far as their list of intersections is concerned, in order of creation. A query is a Go struct passed by
value, so it carries a slice value. Elements are treated as opaque values (query.go:31-56, 150-153). -/
structure QHeap (E : Type) where
  heap : GoHeap E
  qs : List GoSlice

/-- a new query: query.go:43-55 -/
def QHeap.new (h : QHeap E) : QHeap E := { h with qs := h.qs ++ [⟨0, 0, 0⟩] }

/-- query.go:150-153 `Intersects`: `q.Intersects(xs...)` for the `i`-th query -/
def QHeap.intersects (grow : Nat → Nat → Nat) (h : QHeap E) (i : Nat) (xs : List E) : QHeap E :=
  match h.qs[i]? with
  | none => h
  | some s =>
    let (heap, s') := goAppend grow h.heap s xs
    { heap := heap, qs := h.qs ++ [s'] }

/-- the intersections of the `i`-th query as it is now (query.go:40) -/
def QHeap.view (h : QHeap E) (i : Nat) : Option (List (Option E)) := (h.qs[i]?).map h.heap.read

/-- Go's growth for small slices: double the capacity, or what is needed (inside `append`, query.go:151) -/
def doubling (old needed : Nat) : Nat := if needed ≤ 2 * old then 2 * old else needed

end Bond
