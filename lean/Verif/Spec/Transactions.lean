import Verif.Transactions
import Verif.Spec.Batches
/-
Specification: the tasks are carried out one after the other, in the order in which they ended.
-/
namespace Bond
open Spec
variable {T F : Type}

/-- the step of one item on batch `i` -/
def Spec.itemStep (i : Nat) : (Env T × WCall T) ⊕ List WOp → BatchStep T
  | .inl (env, c) => .call i env c
  | .inr ops => .put i ops

/-- the steps of task `i`, without interruption -/
def Spec.taskSteps (i : Nat) : Task T → List (BatchStep T)
  | .direct env c => [.direct env c]
  | .batch _ l fin => l.map (itemStep i) ++ [match fin with
      | some ok => .commit i ok
      | none => .drop i]

/-- the steps of all tasks that ended, each without interruption, in the order in which they ended, and the writes of others -/
def Spec.oneByOne (ks : List (Task T)) (log : List (Nat ⊕ List WOp)) : List (BatchStep T) :=
  log.flatMap (fun x => match x with
    | .inl i => (ks[i]?.map (taskSteps i)).getD []
    | .inr ops => [.others ops])

/-- whether the batch of task `i` is a read-write batch -/
def Spec.taskRw (ks : List (Task T)) (i : Nat) : Bool :=
  match ks[i]? with
  | some (.batch rw _ _) => rw
  | _ => true

/-- the keys of the rows given to the calls of a task -/
def Spec.taskKeys (t : Table T F) : Task T → List Bytes
  | .direct _ c => c.keys t
  | .batch _ l _ => askedKeys t l

/-- the calls of a task, with their environments -/
def Spec.taskCalls : Task T → List (Env T × WCall T)
  | .direct env c => [(env, c)]
  | .batch _ l _ => l.filterMap Sum.getLeft?

/-- what a task puts into its batch for others is outside the table -/
def Spec.TaskPuts (t : Table T F) : Task T → Prop
  | .direct _ _ => True
  | .batch _ l _ => ∀ ops, .inr ops ∈ l → OutsideOps t ops

/-- Tasks that may run at the same time: no row key in two tasks; with a filter no UnsafeUpdate; others write outside the table. -/
structure Spec.Separate (t : Table T F) (ks : List (Task T)) : Prop where
  keys : ∀ (i j : Nat) (a b : Task T), i ≠ j → ks[i]? = some a → ks[j]? = some b → ∀ k ∈ taskKeys t a, k ∉ taskKeys t b
  env : ∀ a ∈ ks, ∀ c ∈ taskCalls a, c.1.OK t
  upd : t.filter = none ∨ ∀ a ∈ ks, ∀ c ∈ taskCalls a, ∀ trs olds, c.2 ≠ .unsafeUpdate trs olds
  puts : ∀ a ∈ ks, TaskPuts t a

end Bond
