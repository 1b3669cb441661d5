import Verif.Context
/-
Property C59: batches in contexts.
-/
namespace Bond

/-- how a context is built up: from bond's functions and from values of other packages -/
inductive Spec.CtxStep
  | batch (b : Option Nat) | sync (b : Option Nat) | other (key : String) (v : CtxVal)

/-- building a context, outermost step first -/
def Spec.build (steps : List Spec.CtxStep) : Ctx :=
  steps.foldl (fun ctx s => match s with
    | .batch b => contextWithBatch ctx b
    | .sync b => contextWithSyncBatch ctx b
    | .other k v => ctx.withValue k v) []

/-- the last batch put in, if any -/
def Spec.lastBatch (steps : List Spec.CtxStep) : Option Nat :=
  (steps.filterMap fun s => match s with | .batch b => some b | _ => none).getLast?.getD none

/-- the last sync batch put in, if any -/
def Spec.lastSync (steps : List Spec.CtxStep) : Option Nat :=
  (steps.filterMap fun s => match s with | .sync b => some b | _ => none).getLast?.getD none

/-- no other package uses bond's key strings -/
def Spec.KeysApart (steps : List Spec.CtxStep) : Prop :=
  ∀ s ∈ steps, match s with | .other k _ => k ≠ "go-bond-batch" ∧ k ≠ "go-bond-sync-batch" | _ => True

/-- C59: however batches, sync batches and foreign values are nested, each retrieval gives the innermost value of its own kind, a nil
batch included, and nil if there is none. Missing: other packages using the same plain string keys (`C59_refuted`). -/
theorem C59_partial (steps : List Spec.CtxStep) (h : Spec.KeysApart steps) :
    contextRetrieveBatch (Spec.build steps) = some (Spec.lastBatch steps) ∧
    contextRetrieveSyncBatch (Spec.build steps) = some (Spec.lastSync steps) := by
  have hk : contextKeyName ≠ contextSyncKeyName := by decide
  generalize hr : steps.reverse = rs
  have : steps = rs.reverse := by rw [← hr]; simp
  subst this
  clear hr
  induction rs with
  | nil => exact ⟨rfl, rfl⟩
  | cons s rs ih =>
    have ih := ih (fun s' hs' => h s' (by simp at hs' ⊢; exact Or.inl hs'))
    have hb : ∀ s, Spec.build ((s :: rs).reverse) = (match s with
      | .batch b => contextWithBatch (Spec.build rs.reverse) b
      | .sync b => contextWithSyncBatch (Spec.build rs.reverse) b
      | .other k v => (Spec.build rs.reverse).withValue k v) := by
      intro s; simp [Spec.build]
    rw [hb]
    cases s with
    | batch b =>
      refine ⟨?_, ?_⟩
      · cases b <;> simp [contextRetrieveBatch, contextWithBatch, Ctx.withValue, Ctx.value, Spec.lastBatch]
      · rw [show Spec.lastSync ((Spec.CtxStep.batch b :: rs).reverse) = Spec.lastSync rs.reverse by simp [Spec.lastSync], ← ih.2]
        simp [contextRetrieveSyncBatch, contextWithBatch, Ctx.withValue, Ctx.value, hk]
    | sync b =>
      refine ⟨?_, ?_⟩
      · rw [show Spec.lastBatch ((Spec.CtxStep.sync b :: rs).reverse) = Spec.lastBatch rs.reverse by simp [Spec.lastBatch], ← ih.1]
        simp [contextRetrieveBatch, contextWithSyncBatch, Ctx.withValue, Ctx.value, hk.symm]
      · simp [contextRetrieveSyncBatch, contextWithSyncBatch, Ctx.withValue, Ctx.value, Spec.lastSync]
    | other k v =>
      have hne := h (.other k v) (by simp)
      simp only at hne
      refine ⟨?_, ?_⟩
      · rw [show Spec.lastBatch ((Spec.CtxStep.other k v :: rs).reverse) = Spec.lastBatch rs.reverse by simp [Spec.lastBatch], ← ih.1]
        simp [contextRetrieveBatch, Ctx.withValue, Ctx.value, contextKeyName, hne.1]
      · rw [show Spec.lastSync ((Spec.CtxStep.other k v :: rs).reverse) = Spec.lastSync rs.reverse by simp [Spec.lastSync], ← ih.2]
        simp [contextRetrieveSyncBatch, Ctx.withValue, Ctx.value, contextSyncKeyName, hne.2]

example : Spec.KeysApart [.batch (some 1), .other "user" (.other 3), .sync (some 7), .batch (some 2)] ∧
    Spec.lastBatch [.batch (some 1), .other "user" (.other 3), .sync (some 7), .batch (some 2)] = some 2 := by
  refine ⟨?_, rfl⟩
  intro s hs
  simp at hs
  rcases hs with rfl | rfl | rfl | rfl <;> simp

/-- C59 without the condition is false: the keys are plain strings, so a value another package stores under the same string makes
retrieval panic (or hides the batch). -/
theorem C59_refuted : contextRetrieveBatch (Spec.build [.batch (some 1), .other "go-bond-batch" (.other 0)]) = none ∧
    contextRetrieveBatch (Spec.build [.batch (some 1), .other "go-bond-batch" .nil]) = some none := by decide

end Bond
