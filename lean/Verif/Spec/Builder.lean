import Verif.Builder
/-
What building queries means: queries are values.
-/
namespace Bond
variable {T F : Type}

/-- what one call says about a query -/
def Spec.set (q : Query T) : QCall T → Query T
  | .with idx sel => { q with index := idx, sel := sel }
  | .filter f => { q with filter := some f }
  | .order less => { q with less := some less }
  | .reverse => { q with reverse := !q.reverse }
  | .offset n => { q with offset := n }
  | .limit n => { q with limit := n }
  | .after x => { q with after := some x }

/-- one statement, with queries as values: no statement changes a variable made before -/
def Spec.stmt (q0 : Query T) (vars : List (Query T)) : QStmt T → Option (List (Query T))
  | .new => some (vars ++ [q0])
  | .call v c => do
    let q ← vars[v]?
    some (vars ++ [Spec.set q c])
  | .intersects v vs => do
    let q ← vars[v]?
    let qs ← vs.mapM (fun i => vars[i]?)
    some (vars ++ [{ q with intersects := q.intersects ++ qs }])

/-- the program of the caller, with queries as values -/
def Spec.stmts (q0 : Query T) : List (QStmt T) → List (Query T) → Option (List (Query T))
  | [], vars => some vars
  | p :: ps, vars => (Spec.stmt q0 vars p).bind (Spec.stmts q0 ps)

/-- No list of parts is extended twice. `os` says for each variable which statement made its list of parts (`none`: it has no
parts); the calls other than `Intersects` keep the list of their receiver. `ext` are the lists that were already extended. -/
def Spec.noFork : List (QStmt T) → List (Option Nat) → List Nat → Bool
  | [], _, _ => true
  | .new :: ps, os, ext => Spec.noFork ps (os ++ [none]) ext
  | .call v _ :: ps, os, ext => Spec.noFork ps (os ++ [(os[v]?).getD none]) ext
  | .intersects v vs :: ps, os, ext =>
    if vs.isEmpty then Spec.noFork ps (os ++ [(os[v]?).getD none]) ext
    else
      match (os[v]?).getD none with
      | none => Spec.noFork ps (os ++ [some os.length]) ext
      | some o => !ext.contains o && Spec.noFork ps (os ++ [some os.length]) (o :: ext)

/-- what a call sets: 0 index and selector, 1 filter, 2 order, 3 direction, 4 offset, 5 limit, 6 start -/
def Spec.kind : QCall T → Nat
  | .with _ _ => 0
  | .filter _ => 1
  | .order _ => 2
  | .reverse => 3
  | .offset _ => 4
  | .limit _ => 5
  | .after _ => 6

/-- the last of the values that the calls give, or the one before the calls -/
def Spec.latest {α : Type} (get : QCall T → Option α) (cs : List (QCall T)) (start : α) : α :=
  ((cs.filterMap get).getLast?).getD start

/-- the filters given by the calls -/
def Spec.filters (cs : List (QCall T)) : List (T → Bool) := cs.filterMap (fun | .filter f => some f | _ => none)

end Bond
