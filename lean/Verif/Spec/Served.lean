import Verif.Spec.OwnWrites
/-
Specification side of scans whose callback does not fetch every row (C35).
-/
namespace Bond
variable {T F σ : Type}

/-- what a callback did: state, whether to go on, error -/
def Spec.goesOn (out : σ × Bool × Option Err) : Prop := out.2.1 = true ∧ out.2.2 = none

/-- How a scan of a secondary index serves the callback `f` with `rows` (index key and record), for callbacks that call `Get` at most once
per call; `o` is the result. Records are read in blocks of `n`; of the block read last, `left` rows are to come. If the callback does not
call `Get`, it is called for the next row when there is no block, and **again for the same row** inside a block. The relation holds
only if the scan ends. -/
inductive Spec.Served (f : σ → Bytes → Cb σ T) (n : Nat) : Nat → List (Bytes × T) → σ → ScanOut σ → Prop
  | done {left : Nat} {s : σ} : Served f n left [] s ⟨s, none⟩
  | stop {left : Nat} {k : Bytes} {x : T} {rows : List (Bytes × T)} {s : σ} (h : ¬ Spec.goesOn ((f s k).run (.ok x))) :
    Served f n left ((k, x) :: rows) s ⟨((f s k).run (.ok x)).1, ((f s k).run (.ok x)).2.2⟩
  | fetch {left : Nat} {k : Bytes} {x : T} {rows : List (Bytes × T)} {s : σ} {o : ScanOut σ} (h : Spec.goesOn ((f s k).run (.ok x)))
    (hg : (f s k).asked.isSome) (next : Served f n (if left = 0 then min (n - 1) rows.length else left - 1) rows ((f s k).run (.ok x)).1 o) :
    Served f n left ((k, x) :: rows) s o
  | pass {k : Bytes} {x : T} {rows : List (Bytes × T)} {s : σ} {o : ScanOut σ} (h : Spec.goesOn ((f s k).run (.ok x)))
    (hg : (f s k).asked = none) (next : Served f n 0 rows ((f s k).run (.ok x)).1 o) : Served f n 0 ((k, x) :: rows) s o
  | again {left : Nat} {k : Bytes} {x : T} {rows : List (Bytes × T)} {s : σ} {o : ScanOut σ} (h : Spec.goesOn ((f s k).run (.ok x)))
    (hg : (f s k).asked = none) (next : Served f n (left + 1) ((k, x) :: rows) ((f s k).run (.ok x)).1 o) :
    Served f n (left + 1) ((k, x) :: rows) s o

end Bond
