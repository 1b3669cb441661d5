import Verif.Props.Writes
import Verif.Props.UpsertExact
import Verif.Spec.Cancelled
/-
C119: write calls whose context is done before or while they run.
-/
namespace Bond
open Spec Table
variable {T F : Type}

/-- a part of a write call, as a function of the answers of the context, that starts with answer number `c` and asks at least `lo` and at most `n` times
when it succeeds -/
def Asks (f : (Nat → Bool) → WSt T F × Option Err) (c lo n : Nat) : Prop :=
  ∀ d, ((∀ k, c ≤ k → k < c + n → d k = false) → f d = f (fun _ => false)) ∧
    ((f d).2 = none → f d = f (fun _ => false) ∧ c + lo ≤ (f d).1.clock ∧ (f d).1.clock ≤ c + n ∧ ∀ k, c ≤ k → k < (f d).1.clock → d k = false)

theorem asks_fail (s : WSt T F) (e : Err) (c lo n : Nat) : Asks (fun _ => (s, some e)) c lo n :=
  fun _ => ⟨fun _ => rfl, fun h => by cases h⟩

theorem asks_end (s : WSt T F) : Asks (fun _ => (s, none)) s.clock 0 0 :=
  fun _ => ⟨fun _ => rfl, fun _ => ⟨rfl, by simp, by simp, fun k h1 h2 => by simp only at h2; omega⟩⟩

theorem asks_check {g : (Nat → Bool) → WSt T F × Option Err} {c lo n : Nat} (h : Asks g (c + 1) lo n) (s : WSt T F) (e : Err) :
    Asks (fun d => if d c = true then (s, some e) else g d) c (lo + 1) (n + 1) := by
  intro d
  constructor
  · intro hd
    have h0 : d c = false := hd c (Nat.le_refl _) (by omega)
    simp only [h0, Bool.false_eq_true, if_false]
    exact (h d).1 (fun k h1 h2 => hd k (by omega) (by omega))
  · intro hd
    cases h0 : d c with
    | true => simp [h0] at hd
    | false =>
      simp only [h0, Bool.false_eq_true, if_false] at hd ⊢
      obtain ⟨h1, h2, h3, h4⟩ := (h d).2 hd
      refine ⟨h1, by omega, by omega, fun k k1 k2 => ?_⟩
      by_cases hk : k = c
      · rw [hk]; exact h0
      · exact h4 k (by omega) k2

theorem asks_weaken {f : (Nat → Bool) → WSt T F × Option Err} {c lo n lo' n' : Nat} (h : Asks f c lo n) (h1 : lo' ≤ lo) (h2 : n ≤ n') : Asks f c lo' n' := by
  intro d
  refine ⟨fun hd => (h d).1 (fun k k1 k2 => hd k k1 (by omega)), fun hd => ?_⟩
  obtain ⟨a, b, c, e⟩ := (h d).2 hd
  exact ⟨a, by omega, by omega, e⟩

theorem asks_insertLoop (t : Table T F) (env : Env T) (entries : List (Bytes × Bytes)) (trs : List T) (keys : List (Bytes × Nat)) (prev : Option Bytes)
    (s : WSt T F) : Asks (fun d => t.insertLoop (env.withDone d) entries trs prev keys s) s.clock keys.length keys.length := by
  induction keys generalizing prev s with
  | nil => exact asks_end s
  | cons e rest ih =>
    obtain ⟨key, j⟩ := e
    simp only [insertLoop, Env.withDone, List.length_cons]
    refine asks_check ?_ _ _
    by_cases hx : prev = some key ∨ (t.existIter s.filt entries key).isSome = true
    · simp only [if_pos hx]; exact asks_fail _ _ _ _ _
    · simp only [if_neg hx]
      cases trs[j]? with
      | none => exact asks_fail _ _ _ _ _
      | some tr =>
        simp only
        cases t.ser tr with
        | none => exact asks_fail _ _ _ _ _
        | some data => exact ih (some key) ⟨_, _, s.clock + 1, _⟩

theorem asks_updateLoop (t : Table T F) (env : Env T) (entries : List (Bytes × Bytes)) (trs : List T) (keys : List (Bytes × Nat))
    (s : WSt T F) : Asks (fun d => t.updateLoop (env.withDone d) entries trs keys s) s.clock keys.length keys.length := by
  induction keys generalizing s with
  | nil => exact asks_end s
  | cons e rest ih =>
    obtain ⟨key, j⟩ := e
    simp only [updateLoop, Env.withDone, List.length_cons]
    refine asks_check ?_ _ _
    by_cases hx : rest.head?.map Prod.fst = some key
    · simp only [if_pos hx]; exact ih { s with clock := s.clock + 1 }
    · simp only [if_neg hx]
      cases seekExact entries key with
      | none => exact asks_fail _ _ _ _ _
      | some v =>
        simp only
        cases t.deser s.oldTr v with
        | none => exact asks_fail _ _ _ _ _
        | some old =>
          simp only
          cases trs[j]? with
          | none => exact asks_fail _ _ _ _ _
          | some tr =>
            simp only
            cases t.ser tr with
            | none => exact asks_fail _ _ _ _ _
            | some data => exact ih ⟨_, _, s.clock + 1, _⟩

theorem asks_deleteLoop (t : Table T F) (env : Env T) (trs : List T) (s : WSt T F) :
    Asks (fun d => t.deleteLoop (env.withDone d) trs s) s.clock trs.length trs.length := by
  induction trs generalizing s with
  | nil => exact asks_end s
  | cons tr rest ih =>
    simp only [deleteLoop, Env.withDone, List.length_cons]
    exact asks_check (ih { s with ops := _, clock := s.clock + 1 }) _ _

theorem asks_unsafeInsertLoop (t : Table T F) (env : Env T) (trs : List T) (s : WSt T F) :
    Asks (fun d => t.unsafeInsertLoop (env.withDone d) trs s) s.clock trs.length trs.length := by
  induction trs generalizing s with
  | nil => exact asks_end s
  | cons tr rest ih =>
    simp only [unsafeInsertLoop, Env.withDone, List.length_cons]
    refine asks_check ?_ _ _
    cases t.ser tr with
    | none => exact asks_fail _ _ _ _ _
    | some data => exact ih ⟨_, _, s.clock + 1, _⟩

theorem asks_unsafeUpdateLoop (t : Table T F) (env : Env T) (ps : List (T × T)) (s : WSt T F) :
    Asks (fun d => t.unsafeUpdateLoop (env.withDone d) ps s) s.clock ps.length ps.length := by
  induction ps generalizing s with
  | nil => exact asks_end s
  | cons p rest ih =>
    obtain ⟨tr, old⟩ := p
    simp only [unsafeUpdateLoop, Env.withDone, List.length_cons]
    refine asks_check ?_ _ _
    cases t.ser tr with
    | none => exact asks_fail _ _ _ _ _
    | some data => exact ih { s with ops := _, clock := s.clock + 1 }

theorem upsertDup_length (oc : OnConflict T) (trs : List T) (key : Bytes) (rest : List (Bytes × Nat)) (i : Nat) (x y : T)
    {r : List (Bytes × Nat) × Nat × T × T} (h : upsertDup oc trs key rest i x y = some r) : r.1.length ≤ rest.length := by
  induction rest generalizing i x y with
  | nil => simp only [upsertDup, Option.some.injEq] at h; subst h; exact Nat.le_refl _
  | cons e rest ih =>
    obtain ⟨k, j⟩ := e
    simp only [upsertDup] at h
    split at h
    · split at h
      · cases h
      · have := ih _ _ _ h; simp only [List.length_cons]; omega
    · simp only [Option.some.injEq] at h; subst h; exact Nat.le_refl _

theorem asks_upsertLoop (t : Table T F) (env : Env T) (oc : OnConflict T) (entries : List (Bytes × Bytes)) (trs : List T) (fuel i : Nat)
    (keys : List (Bytes × Nat)) (s : WSt T F) (hf : keys.length ≤ fuel) :
    Asks (fun d => t.upsertLoop (env.withDone d) oc entries trs fuel i keys s) s.clock (min 1 keys.length) keys.length := by
  induction fuel generalizing i keys s with
  | zero =>
    have : keys = [] := List.length_eq_zero_iff.1 (by omega)
    subst this
    simp only [upsertLoop]
    exact asks_end s
  | succ fuel ih =>
    cases keys with
    | nil => simp only [upsertLoop]; exact asks_end s
    | cons e rest =>
      obtain ⟨key, j⟩ := e
      simp only [upsertLoop]
      cases trs[j]? with
      | none => exact asks_fail _ _ _ _ _
      | some tr =>
        simp only [Env.withDone]
        refine asks_weaken (lo := 0 + 1) (n := rest.length + 1) (asks_check ?_ _ _) (by omega) (by simp)
        cases t.existIter s.filt entries key with
        | none =>
          simp only
          cases hu : upsertDup oc trs key rest i tr s.oldTr with
          | none => exact asks_fail _ _ _ _ _
          | some r =>
            obtain ⟨rest', i', tr', old'⟩ := r
            have hl := upsertDup_length oc trs key rest i _ _ hu
            simp only at hl ⊢
            cases t.ser tr' with
            | none => exact asks_fail _ _ _ _ _
            | some data =>
              simp only [List.length_cons] at hf
              exact asks_weaken (ih (i' + 1) rest' ⟨_, _, s.clock + 1, _⟩ (by omega)) (by omega) hl
        | some v =>
          simp only
          cases t.deser s.oldTr v with
          | none => exact asks_fail _ _ _ _ _
          | some old =>
            simp only [Option.map_some]
            cases hu : upsertDup oc trs key rest i (oc old tr).1 (oc old tr).2 with
            | none => exact asks_fail _ _ _ _ _
            | some r =>
              obtain ⟨rest', i', tr', old'⟩ := r
              have hl := upsertDup_length oc trs key rest i _ _ hu
              simp only at hl ⊢
              cases t.ser tr' with
              | none => exact asks_fail _ _ _ _ _
              | some data =>
                simp only [List.length_cons] at hf
                exact asks_weaken (ih (i' + 1) rest' ⟨_, _, s.clock + 1, _⟩ (by omega)) (by omega) hl

theorem asks_forChunks {α : Type} (f : (Nat → Bool) → List α → WSt T F → WSt T F × Option Err) (lo : Nat → Nat) {cs : List (List α)}
    (h : ∀ c ∈ cs, ∀ s, Asks (fun d => f d c s) s.clock (lo c.length) c.length) (s : WSt T F) :
    Asks (fun d => forChunks (f d) cs s) s.clock ((cs.map (fun c => lo c.length)).sum) cs.flatten.length := by
  induction cs generalizing s with
  | nil => exact asks_end s
  | cons c cs ih =>
    have h0 := h c (by simp)
    have ih := fun s => ih (fun c hc => h c (by simp [hc])) s
    intro d
    simp only [forChunks, List.flatten_cons, List.length_append, List.map_cons, List.sum_cons]
    constructor
    · intro hd
      have e := (h0 s d).1 (fun k h1 h2 => hd k h1 (by omega))
      simp only at e
      rw [e]
      rcases hr : f (fun _ => false) c s with ⟨s', o⟩
      cases o with
      | some _ => rfl
      | none =>
        have b := ((h0 s (fun _ => false)).2 (by simp only [hr])).2
        simp only [hr] at b
        exact (ih s' d).1 (fun k h1 h2 => hd k (by omega) (by omega))
    · intro hd
      rcases hr : f d c s with ⟨s', o⟩
      rw [hr] at hd
      cases o with
      | some _ => simp at hd
      | none =>
        obtain ⟨b1, b2, b3, b4⟩ := (h0 s d).2 (by simp only [hr])
        simp only [hr] at b1 b2 b3 b4
        rw [← b1]
        simp only at hd ⊢
        obtain ⟨c1, c2, c3, c4⟩ := (ih s' d).2 hd
        simp only at c1 c2 c3 c4
        refine ⟨c1, by omega, by omega, fun k k1 k2 => ?_⟩
        by_cases hk : k < s'.clock
        · exact b4 k k1 hk
        · exact c4 k (by omega) k2

/-- the records given to a write call -/
def Spec.records : WCall T → List T
  | .insert trs => trs
  | .update trs => trs
  | .upsert _ trs => trs
  | .delete trs => trs
  | .unsafeInsert trs => trs
  | .unsafeUpdate trs _ => trs

/-- Upsert -/
def Spec.isUpsert : WCall T → Bool
  | .upsert _ _ => true
  | _ => false

theorem finish_withDone (env : Env T) (d : Nat → Bool) (db : KV) (ob : Option Batch) (r : WSt T F × Option Err) :
    finish (env.withDone d) db ob r = finish env db ob r := rfl

theorem finish_err {env : Env T} {db : KV} {ob : Option Batch} {r : WSt T F × Option Err} (h : (finish env db ob r).err = none) : r.2 = none := by
  unfold finish at h
  cases ob with
  | some b => exact h
  | none =>
    simp only at h
    cases hr : r.2 with
    | none => rfl
    | some e => rw [hr] at h; simp at h

theorem finish_failed_db {env : Env T} {db : KV} {ob : Option Batch} {r : WSt T F × Option Err} (h : (finish env db ob r).err ≠ none) :
    (finish env db ob r).db = db := by
  unfold finish at h ⊢
  cases ob with
  | some b => rfl
  | none =>
    simp only at h ⊢
    cases hr : r.2 with
    | some e => rfl
    | none =>
      rw [hr] at h
      simp only at h ⊢
      split
      · rfl
      · split
        · rename_i h1 h2; rw [if_neg h1, if_pos h2] at h; simp at h
        · rfl

theorem asks_call {env : Env T} {db : KV} {ob : Option Batch} {f : (Nat → Bool) → WSt T F × Option Err} {lo n : Nat} (h : Asks f 0 lo n)
    (out : (Nat → Bool) → WOut F) (ho : ∀ d, out d = finish env db ob (f d)) (d : Nat → Bool) :
    ((∀ k, k < n → d k = false) → out d = out (fun _ => false)) ∧
    ((out d).err = none → out d = out (fun _ => false) ∧ ∀ k, k < lo → d k = false) ∧ ((out d).err ≠ none → (out d).db = db) := by
  rw [ho d, ho]
  refine ⟨fun hd => by rw [(h d).1 (fun k _ h2 => hd k (by omega))], fun he => ?_, finish_failed_db⟩
  obtain ⟨h1, h2, h3, h4⟩ := (h d).2 (finish_err he)
  exact ⟨by rw [← h1], fun k hk => h4 k (by omega) (by omega)⟩

theorem sum_length {α : Type} (l : List (List α)) : (l.map (fun c => c.length)).sum = l.flatten.length := by
  induction l with
  | nil => rfl
  | cons c l ih => rw [List.map_cons, List.sum_cons, ih, List.flatten_cons, List.length_append]

theorem sum_min {α : Type} (l : List (List α)) (h : 0 < l.flatten.length) : 0 < (l.map (fun c => min 1 c.length)).sum := by
  induction l with
  | nil => simp at h
  | cons c l ih =>
    simp only [List.flatten_cons, List.length_append, List.map_cons, List.sum_cons] at h ⊢
    cases c with
    | nil => have := ih (by simpa using h); omega
    | cons x xs => simp only [List.length_cons]; omega

/-- C119. The context answers `d 0`, `d 1`, ... (true: done) when it is asked; `false` forever is a context that is never done.
(1) A call that succeeds has exactly the result and effect that it has with a context that is never done.
(2) So has every call, also a failing one, if the context is not done yet at the answers that a call of this size may ask for.
(3) If the context is done when the call starts and there is a record, the call fails.
(4) Insert, Update, Delete, UnsafeInsert and UnsafeUpdate ask before every record: they fail if it is done at any of these moments.
(5) A call that fails leaves the database as it was. -/
theorem C119 {t : Table T F} {env : Env T} (ok : env.OK t) (db : KV) (filt : F) (ob : Option Batch) (c : WCall T) (d : Nat → Bool) :
    let out := t.run (env.withDone d) db filt ob c
    let calm := t.run (env.withDone (fun _ => false)) db filt ob c
    (out.err = none → out = calm) ∧
    ((∀ k, k < (records c).length → d k = false) → out = calm) ∧
    (records c ≠ [] → d 0 = true → out.err ≠ none) ∧
    (isUpsert c = false → ∀ k, k < (records c).length → d k = true → out.err ≠ none) ∧
    (out.err ≠ none → out.db = db) := by
  intro out calm
  have key : ∃ lo, (0 < (records c).length → 0 < lo) ∧ (isUpsert c = false → lo = (records c).length) ∧
      ((∀ k, k < (records c).length → d k = false) → out = calm) ∧
      (out.err = none → out = calm ∧ ∀ k, k < lo → d k = false) ∧ (out.err ≠ none → out.db = db) := by
    have hbs : 0 < persistentBatchSize := by decide
    cases c with
    | insert trs =>
      have h := asks_forChunks (fun d => t.insertChunk (env.withDone d) db ob) (fun n => n) (cs := batched trs persistentBatchSize)
        (fun c _ s => by
          have := asks_insertLoop t env ((readView db ob s.ops).scan (((sortKeys env (c.map t.key)).map Prod.fst).headD []) t.dataKeySpaceEnd) c
            (sortKeys env (c.map t.key)) none s
          rw [(sortKeys_idx ok).2.2] at this
          exact this) ⟨[], filt, 0, t.nil⟩
      rw [sum_length, batched_flatten trs hbs] at h
      exact ⟨trs.length, fun h => h, fun _ => rfl, asks_call h (fun d => t.run (env.withDone d) db filt ob (.insert trs)) (fun _ => rfl) d⟩
    | update trs =>
      have h := asks_forChunks (fun d => t.updateChunk (env.withDone d) db ob) (fun n => n) (cs := batched trs persistentBatchSize)
        (fun c _ s => by
          have := asks_updateLoop t env ((readView db ob s.ops).scan (((sortKeys env (c.map t.key)).map Prod.fst).headD []) t.dataKeySpaceEnd) c
            (sortKeys env (c.map t.key)) s
          rw [(sortKeys_idx ok).2.2] at this
          exact this) ⟨[], filt, 0, t.nil⟩
      rw [sum_length, batched_flatten trs hbs] at h
      exact ⟨trs.length, fun h => h, fun _ => rfl, asks_call h (fun d => t.run (env.withDone d) db filt ob (.update trs)) (fun _ => rfl) d⟩
    | upsert oc trs =>
      have h := asks_forChunks (fun d => t.upsertChunk (env.withDone d) db ob oc) (min 1) (cs := batched trs persistentBatchSize)
        (fun c _ s => by
          have := asks_upsertLoop t env oc ((readView db ob s.ops).scan (((sortKeys env (c.map t.key)).map Prod.fst).headD []) t.dataKeySpaceEnd) c
            (sortKeys env (c.map t.key)).length 0 (sortKeys env (c.map t.key)) s (Nat.le_refl _)
          have e := (sortKeys_idx (t := t) ok (trs := c)).2.2
          rw [e] at this
          simp only [upsertChunk]
          exact asks_weaken (lo := min 1 c.length) (n := c.length) (by
            have e' : ∀ d, sortKeys (env.withDone d) (c.map t.key) = sortKeys env (c.map t.key) := fun _ => rfl
            simp only [e', e]
            exact this) (Nat.le_refl _) (Nat.le_refl _)) ⟨[], filt, 0, t.nil⟩
      have hpos := sum_min (batched trs persistentBatchSize)
      rw [batched_flatten trs hbs] at h hpos
      exact ⟨_, hpos, fun hu => by simp [isUpsert] at hu, asks_call h (fun d => t.run (env.withDone d) db filt ob (.upsert oc trs)) (fun _ => rfl) d⟩
    | delete trs =>
      exact ⟨trs.length, fun h => h, fun _ => rfl, asks_call (asks_deleteLoop t env trs ⟨[], filt, 0, t.nil⟩)
        (fun d => t.run (env.withDone d) db filt ob (.delete trs)) (fun _ => rfl) d⟩
    | unsafeInsert trs =>
      have h := asks_forChunks (fun d => t.unsafeInsertLoop (env.withDone d)) (fun n => n) (cs := batched trs persistentBatchSize)
        (fun c _ s => asks_unsafeInsertLoop t env c s) ⟨[], filt, 0, t.nil⟩
      rw [sum_length, batched_flatten trs hbs] at h
      exact ⟨trs.length, fun h => h, fun _ => rfl, asks_call h (fun d => t.run (env.withDone d) db filt ob (.unsafeInsert trs)) (fun _ => rfl) d⟩
    | unsafeUpdate trs olds =>
      refine ⟨trs.length, fun h => h, fun _ => rfl, ?_⟩
      by_cases hl : trs.length = olds.length
      · have hz : (trs.zip olds).length = trs.length := by rw [List.length_zip]; omega
        have h := asks_unsafeUpdateLoop t env (trs.zip olds) ⟨[], filt, 0, t.nil⟩
        rw [hz] at h
        exact asks_call h (fun d => t.run (env.withDone d) db filt ob (.unsafeUpdate trs olds))
          (fun _ => by show Table.unsafeUpdate _ _ _ _ _ _ _ = _; unfold Table.unsafeUpdate; rw [if_neg (by omega)]; rfl) d
      · have e : ∀ d, t.run (env.withDone d) db filt ob (.unsafeUpdate trs olds) = ⟨db, ob, filt, some .sizeMismatch, []⟩ := by
          intro d; show Table.unsafeUpdate _ _ _ _ _ _ _ = _; unfold Table.unsafeUpdate; rw [if_pos hl]
        have e1 : out = _ := e d
        have e2 : calm = _ := e _
        refine ⟨fun _ => by rw [e1, e2], fun h => ?_, fun _ => by rw [e1]⟩
        rw [e1] at h
        cases h
  obtain ⟨lo, k1, k2, k3, k4, k5⟩ := key
  refine ⟨fun h => (k4 h).1, k3, fun hne h0 he => ?_, fun hu k hk h0 he => ?_, k5⟩
  · have := (k4 he).2 0 (k1 (List.length_pos_iff.2 hne))
    rw [this] at h0; cases h0
  · have := (k4 he).2 k (by rw [k2 hu]; exact hk)
    rw [this] at h0; cases h0

/-- two records: done at the second answer fails and changes nothing, done at the third is not noticed -/
example : (stdEnv exTable).OK exTable ∧
    (let run := fun n => exTable.run ((stdEnv exTable).withDone (fun k => decide (n ≤ k))) exDB () none (.insert [(3, 7), (4, 8)])
     (run 1).err = some .ctxDone ∧ (run 1).db.get (exTable.key (3, 7)) = none ∧ (run 2).err = none ∧ ((run 2).db.get (exTable.key (4, 8))).isSome = true) := by
  refine ⟨stdEnv_ok exTable, by decide, by decide, by decide, by decide⟩

/-- Upsert asks once for each row: with one row given twice a context that is done at the second answer is not noticed -/
example : (exTable.run ((stdEnv exTable).withDone (fun k => decide (1 ≤ k))) exDB () none (.upsert (fun _ x => (x, x)) [(3, 7), (3, 8)])).err = none := by decide

end Bond
