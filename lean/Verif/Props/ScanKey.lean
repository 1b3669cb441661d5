import Verif.ScanKey
import Verif.Props.Scans
/-
Property C80: the key that a scan hands to its callback.
-/
namespace Bond
open Spec
variable {T F σ : Type}

/-- The callback reads its key no more. -/
def KCb.NoKey : KCb σ T → Prop
  | .ret _ _ _ => True
  | .get _ k => ∀ r, (k r).NoKey
  | .key _ => False

/-- The callback reads its key only before its first `Get`. -/
def KCb.KeyFirst : KCb σ T → Prop
  | .ret _ _ _ => True
  | .get _ k => ∀ r, (k r).NoKey
  | .key k => ∀ b, (k b).KeyFirst

/-! ## C80 The key bytes stay those of the row during the callback

Full statement: for every scan and every callback, whenever the callback reads the bytes of its key it finds the key of
its row: the scan is the one in which the key is passed by value. Refuted for secondary indexes (`C80_refuted`): `Get`
prefetches by moving the iterator whose memory the key is. -/

theorem runOuterK_noKey (t : Table T F) (env : Env T) (filt : F) (view : σ → KV × Option Batch)
    (mem : List (Bytes × Bytes) → Bytes) (key : Bytes) (c : KCb σ T) (hc : c.NoKey) (moved : Bool) (p : PSt) :
    t.runOuterK env filt view mem key moved p c = t.runOuter env filt view p (c.fix key) := by
  induction c generalizing moved p with
  | ret s cont err => rfl
  | get s k ih =>
    simp only [Table.runOuterK, KCb.fix, Table.runOuter]
    cases t.prefetchAndGetValue env filt (view s).1 (view s).2 p with
    | none => rfl
    | some o => exact ih o.2 (hc o.2) _ _
  | key k => exact absurd hc (by simp [KCb.NoKey])

theorem runOuterK_keyFirst (t : Table T F) (env : Env T) (filt : F) (view : σ → KV × Option Batch)
    (mem : List (Bytes × Bytes) → Bytes) (key : Bytes) (c : KCb σ T) (hc : c.KeyFirst) (p : PSt) :
    t.runOuterK env filt view mem key false p c = t.runOuter env filt view p (c.fix key) := by
  induction c with
  | ret s cont err => rfl
  | get s k _ =>
    simp only [Table.runOuterK, KCb.fix, Table.runOuter]
    cases t.prefetchAndGetValue env filt (view s).1 (view s).2 p with
    | none => rfl
    | some o => exact runOuterK_noKey t env filt view mem key _ (hc o.2) _ _
  | key k ih =>
    simp only [Table.runOuterK, KCb.fix, Bool.false_eq_true, if_false]
    exact ih key (hc key)

theorem collectKeys_one (t : Table T F) (ht : t.prefetch ≤ 1) (l : List (Bytes × Bytes)) (keys ik : List Bytes)
    {rest keys' ik'} (h : t.collectKeys l keys ik = some (rest, keys', ik')) : rest = l := by
  cases l with
  | nil => simp only [Table.collectKeys, Option.some.injEq, Prod.mk.injEq] at h; exact h.1.symm
  | cons e l =>
    obtain ⟨k, v⟩ := e
    rw [Table.collectKeys] at h
    cases hk : toDataKeyBytes k with
    | none => simp [hk] at h
    | some key =>
      simp only [hk, List.length_append, List.length_cons, List.length_nil] at h
      rw [if_neg (by omega)] at h
      simp only [Option.some.injEq, Prod.mk.injEq] at h
      exact h.1.symm

theorem prefetch_one_rest (t : Table T F) (ht : t.prefetch ≤ 1) (env : Env T) (filt : F) (db : KV) (ob : Option Batch) (p p' : PSt)
    (r : Except Err T) (h : t.prefetchAndGetValue env filt db ob p = some (p', r)) : p'.rest = p.rest := by
  unfold Table.prefetchAndGetValue at h
  cases hc : t.collectKeys p.rest p.keys p.indexKeys with
  | none => simp [hc] at h
  | some o =>
    obtain ⟨rest, keys, ik⟩ := o
    have hr := collectKeys_one t ht _ _ _ hc
    simp only [hc] at h
    split at h
    · simp at h
    · simp only [Option.some.injEq, Prod.mk.injEq] at h
      rw [← h.1]; exact hr
    · rename_i values _
      unfold Table.getPrefetchedValue at h
      split at h
      · simp at h
      · split at h <;>
          (simp only [Option.some.injEq, Prod.mk.injEq] at h; rw [← h.1]; exact hr)

theorem runOuterK_one (t : Table T F) (ht : t.prefetch ≤ 1) (env : Env T) (filt : F) (view : σ → KV × Option Batch)
    (mem : List (Bytes × Bytes) → Bytes) (key : Bytes) (c : KCb σ T) (p : PSt) :
    t.runOuterK env filt view mem key false p c = t.runOuter env filt view p (c.fix key) := by
  induction c generalizing p with
  | ret s cont err => rfl
  | get s k ih =>
    simp only [Table.runOuterK, KCb.fix, Table.runOuter]
    cases h : t.prefetchAndGetValue env filt (view s).1 (view s).2 p with
    | none => rfl
    | some o =>
      have hr := prefetch_one_rest t ht env filt _ _ _ _ _ h
      simp only [hr, bne_self_eq_false, Bool.or_false]
      exact ih o.2 o.1
  | key k ih =>
    simp only [Table.runOuterK, KCb.fix, Bool.false_eq_true, if_false]
    exact ih key p

theorem outerLoopK_eq (t : Table T F) (env : Env T) (filt : F) (view : σ → KV × Option Batch)
    (mem : List (Bytes × Bytes) → Bytes) (f : σ → KCb σ T)
    (hf : ∀ s k p, t.runOuterK env filt view mem k false p (f s) = t.runOuter env filt view p ((f s).fix k))
    (innerFuel fuel clock : Nat) (p : PSt) (s : σ) :
    t.outerLoopK env filt view mem f innerFuel fuel clock p s =
      t.outerLoop env filt view (fun s k => (f s).fix k) innerFuel fuel clock p s := by
  induction fuel generalizing clock p s with
  | zero => rfl
  | succ fuel ih =>
    simp only [Table.outerLoopK, Table.outerLoop, hf, ih]
    cases p.rest with
    | nil => rfl
    | cons e l =>
      simp only
      split
      · rfl
      · cases t.runOuter env filt view p ((f s).fix e.1) with
        | none => rfl
        | some o =>
          obtain ⟨p', s', cont, err⟩ := o
          simp only
          split
          · rfl
          · cases t.innerLoop (fun s k => (f s).fix k) innerFuel p' s' <;> rfl

theorem scanK_eq (t : Table T F) (env : Env T) (filt : F) (view : σ → KV × Option Batch)
    (mem : List (Bytes × Bytes) → Bytes) (idx : Index T) (sel : Selector T) (f : σ → KCb σ T) (reverse : Bool) (fuel : Nat) (s : σ)
    (hf : idx.id = primaryIndexID ∨
      ∀ s k p, t.runOuterK env filt view mem k false p (f s) = t.runOuter env filt view p ((f s).fix k)) :
    t.scanIndexForEachK env filt view mem idx sel f reverse fuel s =
      t.scanIndexForEach env filt view idx sel (fun s k => (f s).fix k) reverse fuel s := by
  unfold Table.scanIndexForEachK Table.scanIndexForEach
  cases t.iterParts (view s).1 (view s).2 idx sel with
  | none => rfl
  | some parts =>
    by_cases hi : idx.id = primaryIndexID
    · simp only [hi, if_true]
    · simp only [hi, if_false]
      exact outerLoopK_eq t env filt view mem f (hf.resolve_left hi) _ _ _ _ _

/-- C80 on the primary index: for all callbacks, however often and whenever they read their key, and whatever the
iterator's memory holds after it moved. -/
theorem C80_primary (t : Table T F) (env : Env T) (filt : F) (view : σ → KV × Option Batch)
    (mem : List (Bytes × Bytes) → Bytes) (sel : Selector T) (f : σ → KCb σ T) (reverse : Bool) (fuel : Nat) (s : σ) :
    t.scanIndexForEachK env filt view mem t.primaryIndex sel f reverse fuel s =
      t.scanIndexForEach env filt view t.primaryIndex sel (fun s k => (f s).fix k) reverse fuel s :=
  scanK_eq t env filt view mem _ sel f reverse fuel s (Or.inl rfl)

/-- C80 on every index for callbacks that read their key only before their first `Get`. -/
theorem C80_partial (t : Table T F) (env : Env T) (filt : F) (view : σ → KV × Option Batch)
    (mem : List (Bytes × Bytes) → Bytes) (idx : Index T) (sel : Selector T) (f : σ → KCb σ T) (hf : ∀ s, (f s).KeyFirst)
    (reverse : Bool) (fuel : Nat) (s : σ) :
    t.scanIndexForEachK env filt view mem idx sel f reverse fuel s =
      t.scanIndexForEach env filt view idx sel (fun s k => (f s).fix k) reverse fuel s :=
  scanK_eq t env filt view mem idx sel f reverse fuel s
    (Or.inr (fun s k p => runOuterK_keyFirst t env filt view mem k (f s) (hf s) p))

/-- C80 on every index and for all callbacks of a table with prefetch size 1 (or 0). -/
theorem C80_prefetchOne (t : Table T F) (ht : t.prefetch ≤ 1) (env : Env T) (filt : F) (view : σ → KV × Option Batch)
    (mem : List (Bytes × Bytes) → Bytes) (idx : Index T) (sel : Selector T) (f : σ → KCb σ T)
    (reverse : Bool) (fuel : Nat) (s : σ) :
    t.scanIndexForEachK env filt view mem idx sel f reverse fuel s =
      t.scanIndexForEach env filt view idx sel (fun s k => (f s).fix k) reverse fuel s :=
  scanK_eq t env filt view mem idx sel f reverse fuel s (Or.inr (fun s k p => runOuterK_one t ht env filt view mem k (f s) p))

theorem lift_fix (key : Bytes) (c : Cb σ T) : c.lift.fix key = c := by
  induction c with
  | ret s cont err => rfl
  | get s k ih => simp only [Cb.lift, KCb.fix, ih]

theorem lift_noKey (c : Cb σ T) : c.lift.NoKey := by
  induction c with
  | ret s cont err => trivial
  | get s k ih => exact ih

theorem lift_keyFirst (c : Cb σ T) : c.lift.KeyFirst := by
  cases c with
  | ret s cont err => trivial
  | get s k => exact fun r => lift_noKey (k r)

/-- Queries read the key of a row before they get its record, so C80 holds for them on every index: a query is the scan
with `Query.callback`. -/
theorem C80_query (t : Table T F) (env : Env T) (filt : F) (db : KV) (ob : Option Batch)
    (mem : List (Bytes × Bytes) → Bytes) (q : Query T) (sel : Selector T) (fuel : Nat) (s : QSt T) :
    t.scanIndexForEachK env filt (fun _ => (db, ob)) mem q.index sel (q.callbackK t) q.reverse fuel s =
      t.scanIndexForEach env filt (fun _ => (db, ob)) q.index sel (q.callback t) q.reverse fuel s := by
  have hfix : (fun s k => (q.callbackK t s).fix k) = q.callback t := by
    funext s k
    unfold Query.callbackK Query.callback
    cases q.after with
    | none => exact lift_fix k _
    | some a =>
      simp only
      split
      · simp only [KCb.fix]
        cases keyDecode k with
        | none => rfl
        | some x =>
          cases keyDecode (t.indexKey q.index a) with
          | none => rfl
          | some y =>
            simp only
            split
            · rfl
            · exact lift_fix k _
      · exact lift_fix k _
  rw [← hfix]
  refine C80_partial t env filt _ mem q.index sel (q.callbackK t) (fun s => ?_) q.reverse fuel s
  unfold Query.callbackK
  cases q.after with
  | none => exact lift_keyFirst _
  | some a =>
    simp only
    split
    · intro b
      simp only
      cases keyDecode b with
      | none => trivial
      | some x =>
        cases keyDecode (t.indexKey q.index a) with
        | none => trivial
        | some y =>
          simp only
          split
          · trivial
          · exact lift_keyFirst _
    · exact lift_keyFirst _

/-- a callback that gets the record and then notes the key with it -/
def exGetThenKey (s : List (Bytes × Rec)) : KCb (List (Bytes × Rec)) Rec :=
  .get s (fun
    | .error e => .ret s false (some e)
    | .ok x => .key (fun k => .ret (s ++ [(k, x)]) true none))

/-- a callback that notes the key and then gets the record -/
def exKeyThenGet (s : List (Bytes × Rec)) : KCb (List (Bytes × Rec)) Rec :=
  .key (fun k => .get s (fun
    | .error e => .ret s false (some e)
    | .ok x => .ret (s ++ [(k, x)]) true none))

example : ∀ s, (exKeyThenGet s).KeyFirst := fun s b r => by cases r <;> exact trivial

/-- with prefetch size 1 the callback that reads its key last is served as well -/
example : ({ exTable with prefetch := 1 } : Table Rec Unit).scanIndexForEachK (stdEnv exTable) () (fun _ => (exDB, none))
    (fun _ => []) exIndex (.range (0, 0) (255, 255)) exGetThenKey false 5 [] =
    some ⟨[(exTable.indexKey exIndex (1, 5), (1, 5)), (exTable.indexKey exIndex (2, 6), (2, 6))], none⟩ := by decide

/-- the callback that reads its key first gets both rows with their keys, whatever the memory holds later -/
example : exTable.scanIndexForEachK (stdEnv exTable) () (fun _ => (exDB, none)) (fun _ => []) exIndex
    (.range (0, 0) (255, 255)) exKeyThenGet false 5 [] =
    some ⟨[(exTable.indexKey exIndex (1, 5), (1, 5)), (exTable.indexKey exIndex (2, 6), (2, 6))], none⟩ := by decide

/-- C80 is false on secondary indexes: a callback that gets the record (1, 5) and then notes the key. Both rows were
prefetched, so the iterator has moved; with an iterator whose memory then holds the key of the last entry, the callback
notes the key of (2, 6) with the record (1, 5). -/
theorem C80_refuted :
    exTable.scanIndexForEachK (stdEnv exTable) () (fun _ => (exDB, none))
      (fun _ => exTable.indexKey exIndex (2, 6)) exIndex (.range (0, 0) (255, 255)) exGetThenKey false 5 [] =
      some ⟨[(exTable.indexKey exIndex (2, 6), (1, 5)), (exTable.indexKey exIndex (2, 6), (2, 6))], none⟩ ∧
    exTable.scanIndexForEach (stdEnv exTable) () (fun _ => (exDB, none)) exIndex (.range (0, 0) (255, 255))
      (fun s k => (exGetThenKey s).fix k) false 5 [] =
      some ⟨[(exTable.indexKey exIndex (1, 5), (1, 5)), (exTable.indexKey exIndex (2, 6), (2, 6))], none⟩ := by
  decide

end Bond
