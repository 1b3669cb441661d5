import Verif.Spec.LiveScan
/-
Specification side of scans whose callback writes to the table (C62).
-/
namespace Bond
open Spec
variable {T F σ : Type}

/-- the state in which the callback asks for its row, if it does -/
def Cb.asked : Cb σ T → Option σ
  | .get s _ => some s
  | .ret _ _ _ => none

/-- Calling a callback for `rows`, in order, until it asks to stop, where records are read in blocks of `n` rows. `m s` is the content of
the table when the callback is in state `s`. Of the block read last, which was read when the table held `blk`, `left` rows are to come;
when there is none, the row that the callback asks for and the following ones, `n` in all, are read as they are then. If one of them is
not there any more, the callback gets the error `notFound`. -/
def Spec.runBlocks (t : Table T F) (idx : Index T) (n : Nat) (m : σ → Rows T) (f : σ → Bytes → Cb σ T) :
    Nat → Rows T → List T → σ → ScanOut σ
  | _, _, [], s => ⟨s, none⟩
  | left, blk, x :: rows, s =>
    let c := f s (t.indexKey idx x)
    let r : Except Err T × Nat × Rows T :=
      match c.asked with
      | none => (.error .notFound, left, blk)
      | some s0 =>
        if left = 0 then
          (if ((x :: rows).take n).all (fun y => (m s0 (t.pk y)).isSome) then .ok ((m s0 (t.pk x)).getD x) else .error .notFound,
            ((x :: rows).take n).length - 1, m s0)
        else (.ok ((blk (t.pk x)).getD x), left - 1, blk)
    let out := c.run r.1
    if !out.2.1 || out.2.2.isSome then ⟨out.1, out.2.2⟩ else Spec.runBlocks t idx n m f r.2.1 r.2.2 rows out.1

/-- `inv` holds in all states that the callback gets to: those in which it asks for a row and those in which it returns. -/
structure CbInv (f : σ → Bytes → Cb σ T) (inv : σ → Prop) : Prop where
  asks : ∀ s k s0, inv s → (f s k).asked = some s0 → inv s0
  returns : ∀ s k r, inv s → inv ((f s k).run r).1

/-- The assumptions: whenever the callback is in a state `s` with `inv s`, the database (seen through an optional read-write batch) stores
the rows `m s`, as the write properties say, and the filter covers them; the rest as in `Setting`. The filter only grows, so its last
state is taken for the whole scan. -/
structure OwnSetting (t : Table T F) (env : Env T) (filt : F) (view : σ → KV × Option Batch) (inv : σ → Prop) (m : σ → Rows T) : Prop where
  wf : t.WF
  rt : t.RoundTripFresh
  ok : env.OK t
  alive : ∀ n, env.done n = false
  prefetch : 0 < t.prefetch
  content : ∀ s, inv s → ∃ V, readable (view s).1 (view s).2 = some V ∧ Holds t V (m s)
  covers : ∀ s, inv s → FilterCovers t filt (m s)

end Bond
