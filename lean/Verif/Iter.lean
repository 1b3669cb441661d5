import Verif.Read
/-
Model of the cursors of iter.go: a pebble iterator over a fixed list of entries, and `_iteratorMulti`, which walks
through several of them.
-/
namespace Bond

/-- Position of a pebble iterator (external): before the first entry, on an entry, or after the last one (iter.go:13-29). -/
inductive Pos
  | before
  | at (i : Nat)
  | after
deriving DecidableEq, Repr

namespace Pos

/-- pebble `Iterator.Valid` (iter.go:18) -/
def valid : Pos → Bool
  | .at _ => true
  | _ => false

/-- pebble `Iterator.First` on `n` entries (iter.go:14) -/
def first (n : Nat) : Pos := if n = 0 then .after else .at 0

/-- pebble `Iterator.Last` on `n` entries (iter.go:15) -/
def last (n : Nat) : Pos := if n = 0 then .before else .at (n - 1)

/-- pebble `Iterator.Next` on `n` entries; after backward exhaustion it moves to the first entry (iter.go:17) -/
def next (n : Nat) : Pos → Pos
  | .before => first n
  | .at i => if i + 1 < n then .at (i + 1) else .after
  | .after => .after

/-- pebble `Iterator.Prev` on `n` entries; after forward exhaustion it moves to the last entry (iter.go:16) -/
def prev (n : Nat) : Pos → Pos
  | .before => .before
  | .at i => if i = 0 then .before else .at (i - 1)
  | .after => last n

end Pos

/-- iter.go:72-78 `_iteratorMulti`: number of the current child and the position of that child. The children are
given by the lists of entries they visit. -/
structure MCur where
  idx : Nat
  pos : Pos
deriving DecidableEq, Repr

namespace MCur
variable {α : Type}

/-- number of entries of child `i` (iter.go:73) -/
def len (parts : List (List α)) (i : Nat) : Nat := (parts.getD i []).length

/-- iter.go:149-151 `Valid` -/
def valid (c : MCur) : Bool := c.pos.valid

/-- iter.go:172-178 `Key`/`Value`: the entry of the current child -/
def entry (parts : List (List α)) (c : MCur) : Option α :=
  match c.pos with
  | .at i => (parts.getD c.idx [])[i]?
  | _ => none

/-- iter.go:89-100 loop of `First` from child `i`, `fuel` children left; `c` is the state before -/
def firstLoop (parts : List (List α)) : Nat → Nat → MCur → MCur
  | 0, _, c => c
  | fuel + 1, i, _ =>
    let c' : MCur := { idx := i, pos := Pos.first (len parts i) }
    if c'.valid then c' else firstLoop parts fuel (i + 1) c'

/-- iter.go:89-100 `First` -/
def first (parts : List (List α)) (c : MCur) : MCur := firstLoop parts parts.length 0 c

/-- iter.go:102-113 loop of `Last`: the children below `n` in descending order -/
def lastLoop (parts : List (List α)) : Nat → MCur → MCur
  | 0, c => c
  | i + 1, _ =>
    let c' : MCur := { idx := i, pos := Pos.last (len parts i) }
    if c'.valid then c' else lastLoop parts i c'

/-- iter.go:102-113 `Last` -/
def last (parts : List (List α)) (c : MCur) : MCur := lastLoop parts parts.length c

/-- iter.go:115-130 `Prev`; `fuel` bounds the number of children visited (`idx + 1` is enough) -/
def prevLoop (parts : List (List α)) : Nat → MCur → MCur
  | 0, c => c
  | fuel + 1, c =>
    let p := Pos.prev (len parts c.idx) c.pos
    if p.valid then { c with pos := p }
    else if c.idx = 0 then { c with pos := p }
    else
      let c' : MCur := { idx := c.idx - 1, pos := Pos.last (len parts (c.idx - 1)) }
      if c'.valid then c' else prevLoop parts fuel c'

/-- iter.go:115-130 `Prev` -/
def prev (parts : List (List α)) (c : MCur) : MCur := prevLoop parts (c.idx + 1) c

/-- iter.go:132-147 `Next`; `fuel` bounds the number of children visited -/
def nextLoop (parts : List (List α)) : Nat → MCur → MCur
  | 0, c => c
  | fuel + 1, c =>
    let p := Pos.next (len parts c.idx) c.pos
    if p.valid then { c with pos := p }
    else if c.idx = parts.length - 1 then { c with pos := p }
    else
      let c' : MCur := { idx := c.idx + 1, pos := Pos.first (len parts (c.idx + 1)) }
      if c'.valid then c' else nextLoop parts fuel c'

/-- iter.go:132-147 `Next` -/
def next (parts : List (List α)) (c : MCur) : MCur := nextLoop parts (parts.length - c.idx) c

end MCur

/-- the calls on a cursor (iter.go:13-29) -/
inductive CurOp
  | first | last | next | prev
deriving DecidableEq, Repr

/-- one call on the multi cursor (iter.go:89-151) -/
def MCur.step {α : Type} (parts : List (List α)) (c : MCur) : CurOp → MCur
  | .first => c.first parts
  | .last => c.last parts
  | .next => c.next parts
  | .prev => c.prev parts

/-- table.go:1055 (1158, index.go:360) `for first(); it.Valid(); next()`: the entries visited, in order. -/
def MCur.collect {α : Type} (parts : List (List α)) (reverse : Bool) : Nat → MCur → List α
  | 0, _ => []
  | fuel + 1, c =>
    match c.entry parts with
    | none => []
    | some e => e :: MCur.collect parts reverse fuel (if reverse then c.prev parts else c.next parts)

/-- iter.go:80-87 `newIteratorMulti` (the child is created but not positioned) followed by a whole scan -/
def MCur.scan {α : Type} (parts : List (List α)) (reverse : Bool) : List α :=
  let c : MCur := { idx := 0, pos := .before }
  MCur.collect parts reverse (parts.flatten.length + 1) (if reverse then c.last parts else c.first parts)

end Bond
