/-
Model of context.go: batches carried by contexts.
-/
namespace Bond

/-- a value stored in a context: nil, a Batch, a *SyncBatch (possibly a nil pointer), or any other value (context.go:10-30) -/
inductive CtxVal
  | nil | batch (id : Nat) | sync (ptr : Option Nat) | other (n : Nat)
  deriving DecidableEq

/-- Go's contexts as far as values are concerned: a chain of `context.WithValue` layers, innermost first. Keys of other packages are
arbitrary (their type and value are folded into one string); bond's keys are plain strings (context.go:7-8). -/
abbrev Ctx := List (String × CtxVal)

/-- context.go:7 -/
def contextKeyName : String := "go-bond-batch"
/-- context.go:8 -/
def contextSyncKeyName : String := "go-bond-sync-batch"

/-- `ctx.Value` of the Go standard library: the innermost layer with this key; nil if there is none (used in context.go:15, 26) -/
def Ctx.value : Ctx → String → CtxVal
  | [], _ => .nil
  | (k, v) :: rest, key => if k = key then v else Ctx.value rest key

/-- `context.WithValue` (used in context.go:11, 22) -/
def Ctx.withValue (ctx : Ctx) (key : String) (v : CtxVal) : Ctx := (key, v) :: ctx

/-- context.go:10-12 `ContextWithBatch`; a nil Batch is stored as the nil interface value -/
def contextWithBatch (ctx : Ctx) (b : Option Nat) : Ctx :=
  ctx.withValue contextKeyName (match b with | some id => .batch id | none => .nil)

/-- context.go:14-19 `ContextRetrieveBatch`; the outer `none` is a panic of the type assertion -/
def contextRetrieveBatch (ctx : Ctx) : Option (Option Nat) :=
  match ctx.value contextKeyName with
  | .nil => some none
  | .batch id => some (some id)
  | _ => none

/-- context.go:21-23 `ContextWithSyncBatch`; a nil pointer is stored as a non-nil interface value holding it -/
def contextWithSyncBatch (ctx : Ctx) (b : Option Nat) : Ctx := ctx.withValue contextSyncKeyName (.sync b)

/-- context.go:25-30 `ContextRetrieveSyncBatch` -/
def contextRetrieveSyncBatch (ctx : Ctx) : Option (Option Nat) :=
  match ctx.value contextSyncKeyName with
  | .nil => some none
  | .sync p => some p
  | _ => none

end Bond
