import Verif.Spec.Scans
import Verif.LiveScan
/-
Specification side of scans during which others write.
-/
namespace Bond
open Spec
variable {T F σ : Type}

/-- Each part of the selector as a selector of its own. -/
def Selector.single (idx : Index T) : Selector T → List (Selector T)
  | .point p => [.point p]
  | .points ps => ps.map (fun p => if idx.id = primaryIndexID then .range p p else .point p)
  | .range lo hi => [.range lo hi]
  | .ranges rs => rs.map (fun r => .range r.1 r.2)

/-- `Spec.Visited t m idx N f n rows s o`: from moment `n` on, and not after moment `N`, the callback `f` is called for
`rows`, in order, until it asks to stop. It gets each row's index key as listed, and as record the row with that primary
key as it is at some moment, not before the moment of the row before. If some row still to be visited is gone at such a
moment, the callback may be given the error `notFound` instead. `o` is the final state and error. -/
inductive Spec.Visited (t : Table T F) (m : Nat → Rows T) (idx : Index T) (N : Nat) (f : σ → Bytes → Cb σ T) :
    Nat → List T → σ → ScanOut σ → Prop
  | nil {n s} : Spec.Visited t m idx N f n [] s ⟨s, none⟩
  | skip {n x rows s s' o} : f s (t.indexKey idx x) = .ret s' true none → Spec.Visited t m idx N f n rows s' o →
      Spec.Visited t m idx N f n (x :: rows) s o
  | skipStop {n x rows s s' cont err} : f s (t.indexKey idx x) = .ret s' cont err → (cont = true → err.isSome) →
      Spec.Visited t m idx N f n (x :: rows) s ⟨s', err⟩
  | row {n n' x r rows s s' o} : n ≤ n' → n' ≤ N → m n' (t.pk x) = some r →
      (f s (t.indexKey idx x)).run (.ok r) = (s', true, none) → Spec.Visited t m idx N f n' rows s' o →
      Spec.Visited t m idx N f n (x :: rows) s o
  | rowStop {n n' x r rows s s' cont err} : n ≤ n' → n' ≤ N → m n' (t.pk x) = some r →
      (f s (t.indexKey idx x)).run (.ok r) = (s', cont, err) → (cont = true → err.isSome) →
      Spec.Visited t m idx N f n (x :: rows) s ⟨s', err⟩
  | gone {n n' x y rows s s' cont err} : n ≤ n' → n' ≤ N → y ∈ x :: rows → m n' (t.pk y) = none →
      (f s (t.indexKey idx x)).run (.error .notFound) = (s', cont, err) → (cont = true → err.isSome) →
      Spec.Visited t m idx N f n (x :: rows) s ⟨s', err⟩

/-- The callback asks to stop when `Get` fails. -/
def StopsOnError (f : σ → Bytes → Cb σ T) : Prop :=
  ∀ s k e, (f s k).oneGet → ((f s k).run (.error e)).2.1 = true → ((f s k).run (.error e)).2.2.isSome

/-- rows of each part of a selector (counted from `i` on), each at the moment `opened i`: what `ScanIndex` yields for
that part alone when the database stays as it is at that moment -/
inductive Spec.LiveRows (t : Table T F) (env : Env T) (filt : F) (h : Nat → KV) (opened : Nat → Nat) (idx : Index T) :
    Nat → List (Selector T) → List (List T) → Prop
  | nil {i} : Spec.LiveRows t env filt h opened idx i [] []
  | cons {i sel sels rows parts} : Yields t env filt (h (opened i)) none idx sel false rows →
      Spec.LiveRows t env filt h opened idx (i + 1) sels parts →
      Spec.LiveRows t env filt h opened idx i (sel :: sels) (rows :: parts)

/-- The assumptions: at every moment the database stores rows, as the write properties say, and the filter covers them;
the rest as in `Setting`. The filter only grows, so its last state is taken for all moments. -/
structure LiveSetting (t : Table T F) (env : Env T) (filt : F) (h : Nat → KV) (m : Nat → Rows T) : Prop where
  wf : t.WF
  rt : t.RoundTripFresh
  ok : env.OK t
  alive : ∀ n, env.done n = false
  prefetch : 0 < t.prefetch
  content : ∀ n, Holds t (h n) (m n)
  covers : ∀ n, FilterCovers t filt (m n)

end Bond
