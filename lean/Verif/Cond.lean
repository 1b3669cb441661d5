/-
Model of cond/cond.go: condition trees for Query.Filter.
-/
namespace Bond

/-- the operations Go provides on a comparable, ordered type `V`: `assert.ObjectsAreEqual` (cond/cond.go:36, testify, not modelled
further) and the operators of constraints.Ordered -/
structure CondOps (V : Type) where
  objectsAreEqual : V → V → Bool
  gt : V → V → Bool
  ge : V → V → Bool
  lt : V → V → Bool
  le : V → V → Bool

/-- Condition values over records `R` compared through values `V`.
cond/cond.go:20-27 `Func`: a function, which may panic (`none`); 29-42 `Eq`; 44-102 `Gt`, `Gte`, `Lt`, `Lte`; 104-122 `And`; 124-142 `Or`;
144-156 `Not`; `nilCond` is a nil Cond given to a combinator. The value getters may panic as well. -/
inductive Cond (R V : Type) where
  | func (f : R → Option Bool)
  | eq (get : R → Option V) (v : V)
  | gt (get : R → Option V) (v : V)
  | gte (get : R → Option V) (v : V)
  | lt (get : R → Option V) (v : V)
  | lte (get : R → Option V) (v : V)
  | and (cs : List (Cond R V))
  | or (cs : List (Cond R V))
  | not (c : Cond R V)
  | nilCond

variable {R V : Type}

mutual
/-- cond/cond.go `Eval` methods: 20-22, 35-37, 50-52, 65-67, 80-82, 95-97, 107-113, 127-133, 149-151; `none` is a panic. -/
def Cond.eval (ops : CondOps V) (r : R) : Cond R V → Option Bool
  | .func f => f r
  | .eq get v => (get r).map fun x => ops.objectsAreEqual x v
  | .gt get v => (get r).map fun x => ops.gt x v
  | .gte get v => (get r).map fun x => ops.ge x v
  | .lt get v => (get r).map fun x => ops.lt x v
  | .lte get v => (get r).map fun x => ops.le x v
  | .and cs => Cond.andLoop ops r true cs
  | .or cs => Cond.orLoop ops r false cs
  | .not c => (Cond.eval ops r c).map (!·)
  | .nilCond => none
/-- cond/cond.go:107-113: `evalReturn = evalReturn && evaluable.(Cond[R]).Eval(r)`; Go's `&&` does not evaluate the right side (including
the type assertion, which panics for nil) when the left side is false -/
def Cond.andLoop (ops : CondOps V) (r : R) (evalReturn : Bool) : List (Cond R V) → Option Bool
  | [] => some evalReturn
  | c :: cs =>
    if evalReturn then
      match Cond.eval ops r c with
      | none => none
      | some b => Cond.andLoop ops r b cs
    else Cond.andLoop ops r false cs
/-- cond/cond.go:127-133: `evalReturn = evalReturn || …` -/
def Cond.orLoop (ops : CondOps V) (r : R) (evalReturn : Bool) : List (Cond R V) → Option Bool
  | [] => some evalReturn
  | c :: cs =>
    if evalReturn then Cond.orLoop ops r true cs
    else
      match Cond.eval ops r c with
      | none => none
      | some b => Cond.orLoop ops r b cs
end

end Bond
