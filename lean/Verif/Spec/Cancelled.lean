import Verif.Query
/-
Specification of reads with a context that may be cancelled at any moment.
-/
namespace Bond
variable {T F σ : Type}

/-- the environment with a context that answers `d` -/
def Env.withDone (env : Env T) (d : Nat → Bool) : Env T := { env with done := d }

/-- A callback that starts in `s` ends in a state that `s` leads to, whatever Get answers. -/
def Spec.Moves (R : σ → σ → Prop) (s : σ) : Cb σ T → Prop
  | .ret s' _ _ => R s s'
  | .get _ k => ∀ r, Spec.Moves R s (k r)

/-- Either nothing of a cancellation is noticed, or the scan ends with the error of the context, in a state on the way to the one in which
it would have ended. -/
def Spec.SameOrCut (d : Nat → Bool) (R : σ → σ → Prop) (o o' : ScanOut σ) : Prop :=
  o' = o ∨ ((∃ n, d n = true) ∧ o'.err = some .ctxDone ∧ R o'.s o.s)

/-- Either nothing of a cancellation is noticed, or the error of the context is returned. -/
def Spec.SameOrDone (d : Nat → Bool) {α : Type} (o o' : Except Err α) : Prop := o' = o ∨ ((∃ n, d n = true) ∧ o' = .error .ctxDone)

end Bond
