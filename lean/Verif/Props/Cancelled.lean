import Verif.Spec.Cancelled
import Verif.StdEnv
import Verif.Machine
import Verif.Props.Queries
/-
C103: a read whose context is cancelled at any moment is complete or returns an error.
-/
namespace Bond
open Spec
variable {T F σ : Type}

theorem run_moves {R : σ → σ → Prop} {s : σ} (r : Except Err T) : ∀ c : Cb σ T, Moves R s c → R s (c.run r).1
  | .ret _ _ _, h => h
  | .get _ k, h => by unfold Cb.run; exact run_moves r (k r) (h r)

theorem primary_moves {R : σ → σ → Prop} (hR : ∀ s, R s s) (hT : ∀ a b c, R a b → R b c → R a c) (t : Table T F) (d : Nat → Bool)
    {f : σ → Bytes → Cb σ T} (hf : ∀ s k, Moves R s (f s k)) : ∀ (l : List (Bytes × Bytes)) (n : Nat) (s : σ),
    R s (t.scanPrimaryLoop d f l n s).s := by
  intro l
  induction l with
  | nil => intro n s; exact hR s
  | cons e l ih =>
    intro n s
    unfold Table.scanPrimaryLoop
    split
    · exact hR s
    · have := run_moves (t.decode e.2) _ (hf s e.1)
      simp only
      split
      · exact this
      · exact hT _ _ _ this (ih _ _)

theorem primary_cut {R : σ → σ → Prop} (hR : ∀ s, R s s) (hT : ∀ a b c, R a b → R b c → R a c) (t : Table T F) {d0 : Nat → Bool}
    (h0 : ∀ n, d0 n = false) (d : Nat → Bool) {f : σ → Bytes → Cb σ T} (hf : ∀ s k, Moves R s (f s k)) : ∀ (l : List (Bytes × Bytes)) (n : Nat) (s : σ),
    SameOrCut d R (t.scanPrimaryLoop d0 f l n s) (t.scanPrimaryLoop d f l n s) := by
  intro l
  induction l with
  | nil => intro n s; exact Or.inl rfl
  | cons e l ih =>
    intro n s
    by_cases hd : d n = true
    · refine Or.inr ⟨⟨n, hd⟩, ?_⟩
      have hm := primary_moves hR hT t d0 hf (e :: l) n s
      rw [show t.scanPrimaryLoop d f (e :: l) n s = ⟨s, some .ctxDone⟩ by unfold Table.scanPrimaryLoop; rw [if_pos hd]]
      exact ⟨rfl, hm⟩
    · unfold Table.scanPrimaryLoop
      simp only [h0, hd, Bool.false_eq_true, if_false]
      split
      · exact Or.inl rfl
      · exact ih _ _

theorem outer_moves {R : σ → σ → Prop} {s : σ} (t : Table T F) (env : Env T) (filt : F) (view : σ → KV × Option Batch) : ∀ (c : Cb σ T) (p : PSt),
    Moves R s c → ∀ {p' s' cont err}, t.runOuter env filt view p c = some (p', s', cont, err) → R s s'
  | .ret _ _ _, p, h => by intro he; cases he; exact h
  | .get s1 k, p, h => by
    intro he
    unfold Table.runOuter at he
    split at he
    · cases he
    · exact outer_moves t env filt view (k _) _ (h _) he

theorem inner_moves {R : σ → σ → Prop} {s : σ} (t : Table T F) : ∀ (c : Cb σ T) (p : PSt),
    Moves R s c → ∀ {p' s' cont err}, t.runInner p c = some (p', s', cont, err) → R s s'
  | .ret _ _ _, p, h => by intro he; cases he; exact h
  | .get s1 k, p, h => by
    intro he
    unfold Table.runInner at he
    split at he
    · cases he
    · exact inner_moves t (k _) _ (h _) he

theorem innerLoop_moves {R : σ → σ → Prop} (hR : ∀ s, R s s) (hT : ∀ a b c, R a b → R b c → R a c) (t : Table T F)
    {f : σ → Bytes → Cb σ T} (hf : ∀ s k, Moves R s (f s k)) : ∀ (n : Nat) (p : PSt) (s : σ),
    (∀ o, t.innerLoop f n p s = .stop o → R s o.s) ∧ (∀ p' s', t.innerLoop f n p s = .go (p', s') → R s s') := by
  intro n
  induction n with
  | zero =>
    intro p s
    unfold Table.innerLoop
    split
    · exact ⟨fun o h => (by cases h), fun p' s' h => (by cases h)⟩
    · exact ⟨fun o h => (by cases h), fun p' s' h => by cases h; exact hR s⟩
  | succ n ih =>
    intro p s
    unfold Table.innerLoop
    split
    · split
      · exact ⟨fun o h => (by cases h; exact hR s), fun p' s' h => by cases h⟩
      · split
        · exact ⟨fun o h => (by cases h; exact hR s), fun p' s' h => by cases h⟩
        · rename_i k _ _ p1 s1 cont err he
          have h1 := inner_moves t _ p (hf s k) he
          split
          · exact ⟨fun o h => (by cases h; exact h1), fun p' s' h => by cases h⟩
          · exact ⟨fun o h => hT _ _ _ h1 ((ih p1 s1).1 o h), fun p' s' h => hT _ _ _ h1 ((ih p1 s1).2 p' s' h)⟩
    · exact ⟨fun o h => (by cases h), fun p' s' h => by cases h; exact hR s⟩

theorem outerLoop_moves {R : σ → σ → Prop} (hR : ∀ s, R s s) (hT : ∀ a b c, R a b → R b c → R a c) (t : Table T F) (env : Env T) (filt : F)
    (view : σ → KV × Option Batch) {f : σ → Bytes → Cb σ T} (hf : ∀ s k, Moves R s (f s k)) (m : Nat) : ∀ (n clock : Nat) (p : PSt) (s : σ) o,
    t.outerLoop env filt view f m n clock p s = some o → R s o.s := by
  intro n
  induction n with
  | zero =>
    intro clock p s o h
    unfold Table.outerLoop at h
    split at h
    · cases h; exact hR s
    · cases h
  | succ n ih =>
    intro clock p s o h
    unfold Table.outerLoop at h
    split at h
    · cases h; exact hR s
    · rename_i k _ _ _
      split at h
      · cases h; exact hR s
      · split at h
        · cases h; exact hR s
        · rename_i p1 s1 cont err he
          have h1 := outer_moves t env filt view _ p (hf s k) he
          split at h
          · cases h; exact h1
          · split at h
            · cases h
            · rename_i o1 hi
              cases h
              exact hT _ _ _ h1 ((innerLoop_moves hR hT t hf m p1 s1).1 _ hi)
            · rename_i p2 s2 hi
              exact hT _ _ _ (hT _ _ _ h1 ((innerLoop_moves hR hT t hf m p1 s1).2 _ _ hi)) (ih _ _ _ _ h)

theorem runOuter_done (t : Table T F) (env : Env T) (d : Nat → Bool) (filt : F) (view : σ → KV × Option Batch) : ∀ (c : Cb σ T) (p : PSt),
    t.runOuter (env.withDone d) filt view p c = t.runOuter env filt view p c
  | .ret _ _ _, p => rfl
  | .get s1 k, p => by
    unfold Table.runOuter
    rw [show t.prefetchAndGetValue (env.withDone d) filt (view s1).1 (view s1).2 p = t.prefetchAndGetValue env filt (view s1).1 (view s1).2 p from rfl]
    cases t.prefetchAndGetValue env filt (view s1).1 (view s1).2 p with
    | none => rfl
    | some r => exact runOuter_done t env d filt view (k r.2) r.1

theorem outerLoop_cut {R : σ → σ → Prop} (hR : ∀ s, R s s) (hT : ∀ a b c, R a b → R b c → R a c) (t : Table T F) {env : Env T}
    (h0 : ∀ n, env.done n = false) (d : Nat → Bool) (filt : F)
    (view : σ → KV × Option Batch) {f : σ → Bytes → Cb σ T} (hf : ∀ s k, Moves R s (f s k)) (m : Nat) : ∀ (n clock : Nat) (p : PSt) (s : σ) o,
    t.outerLoop env filt view f m n clock p s = some o →
    ∃ o', t.outerLoop (env.withDone d) filt view f m n clock p s = some o' ∧ SameOrCut d R o o' := by
  intro n
  induction n with
  | zero =>
    intro clock p s o h
    exact ⟨o, h, Or.inl rfl⟩
  | succ n ih =>
    intro clock p s o h
    have hm := outerLoop_moves hR hT t env filt view hf m _ _ _ _ _ h
    unfold Table.outerLoop at h ⊢
    split at h
    · exact ⟨o, h, Or.inl rfl⟩
    · simp only [h0, Bool.false_eq_true, if_false] at h
      simp only [runOuter_done]
      by_cases hd : d clock = true
      · rw [if_pos (show (env.withDone d).done clock = true from hd)]
        exact ⟨_, rfl, Or.inr ⟨⟨clock, hd⟩, rfl, hm⟩⟩
      · rw [if_neg (show ¬ (env.withDone d).done clock = true from hd)]
        split at h
        · exact ⟨o, h, Or.inl rfl⟩
        · split at h
          · rename_i hc
            rw [if_pos hc]
            exact ⟨o, h, Or.inl rfl⟩
          · rename_i hc
            rw [if_neg hc]
            split at h
            · cases h
            · exact ⟨o, h, Or.inl rfl⟩
            · exact ih _ _ _ _ h

/-- C103, ForEach scans: whenever the context is cancelled, the scan ends as if it were not, or with the error of the context in a state on the
way there: the callback was called for the first rows only. For all tables, contents (also broken ones), selectors, and callbacks,
which may write. -/
theorem C103_forEach {R : σ → σ → Prop} (hR : ∀ s, R s s) (hT : ∀ a b c, R a b → R b c → R a c) (t : Table T F) {env : Env T}
    (h0 : ∀ n, env.done n = false) (d : Nat → Bool) (filt : F)
    (view : σ → KV × Option Batch) {f : σ → Bytes → Cb σ T} (hf : ∀ s k, Moves R s (f s k)) (idx : Index T) (sel : Selector T) (reverse : Bool)
    (fuel : Nat) (s : σ) {o : ScanOut σ} (h : t.scanIndexForEach env filt view idx sel f reverse fuel s = some o) :
    ∃ o', t.scanIndexForEach (env.withDone d) filt view idx sel f reverse fuel s = some o' ∧ SameOrCut d R o o' := by
  unfold Table.scanIndexForEach at h ⊢
  split at h
  · exact ⟨o, h, Or.inl rfl⟩
  · split at h
    · rename_i hi
      rw [if_pos hi]
      cases h
      exact ⟨_, rfl, primary_cut hR hT t h0 d hf _ _ _⟩
    · rename_i hi
      rw [if_neg hi]
      exact outerLoop_cut hR hT t h0 d filt view hf _ _ _ _ _ _ h

/-- C103, scans: the rows returned are all, or the first ones with the error of the context. -/
theorem C103_scanIndex (t : Table T F) {env : Env T} (h0 : ∀ n, env.done n = false) (d : Nat → Bool) (filt : F) (db : KV) (ob : Option Batch)
    (idx : Index T) (sel : Selector T) (reverse : Bool) (fuel : Nat) (tr : List T) {o : ScanOut (List T)}
    (h : t.scanIndex env filt db ob idx sel reverse fuel tr = some o) :
    ∃ o', t.scanIndex (env.withDone d) filt db ob idx sel reverse fuel tr = some o' ∧ SameOrCut d (· <+: ·) o o' := by
  refine C103_forEach (fun s => List.prefix_refl s) (fun a b c => List.IsPrefix.trans) t h0 d filt _ ?_ idx sel reverse fuel tr h
  intro s k r
  cases r with
  | ok x => exact List.prefix_append s [x]
  | error e => exact List.prefix_refl s

theorem getChunks_done (t : Table T F) (env : Env T) (d : Nat → Bool) (f : F) (db : KV) (ob : Option Batch) (cap : Nat) (l : List (List T)) :
    t.getChunks (env.withDone d) f db ob cap l = t.getChunks env f db ob cap l := by
  induction l with
  | nil => rfl
  | cons c l ih =>
    unfold Table.getChunks
    rw [ih]
    rfl

theorem getMany_done (t : Table T F) (env : Env T) (d : Nat → Bool) (f : F) (db : KV) (ob : Option Batch) (l : List T) :
    t.getMany (env.withDone d) f db ob l = t.getMany env f db ob l := getChunks_done ..

/-- C103, Get with any selector -/
theorem C103_get (t : Table T F) {env : Env T} (h0 : ∀ n, env.done n = false) (d : Nat → Bool) (filt : F) (db : KV) (ob : Option Batch)
    (sel : Selector T) (fuel : Nat) {o : Except Err (List T)} (h : t.get env filt db ob sel fuel = some o) :
    ∃ o', t.get (env.withDone d) filt db ob sel fuel = some o' ∧ SameOrDone d o o' := by
  have key : ∀ sel : Selector T, (match t.scanIndex env filt db ob t.primaryIndex sel false fuel [] with
      | none => none | some ⟨trs, none⟩ => some (.ok trs) | some ⟨_, some e⟩ => some (.error e)) = some o →
      ∃ o', (match t.scanIndex (env.withDone d) filt db ob t.primaryIndex sel false fuel [] with
      | none => none | some ⟨trs, none⟩ => some (.ok trs) | some ⟨_, some e⟩ => some (.error e)) = some o' ∧ SameOrDone d o o' := by
    intro sel h
    cases hs : t.scanIndex env filt db ob t.primaryIndex sel false fuel [] with
    | none => rw [hs] at h; cases h
    | some o1 =>
      obtain ⟨o', h1, h2⟩ := C103_scanIndex t h0 d filt db ob t.primaryIndex sel false fuel [] hs
      rw [h1]
      rcases h2 with rfl | ⟨hd, he, _⟩
      · exact ⟨o, by rw [hs] at h; exact h, Or.inl rfl⟩
      · cases o' with
        | mk s e => cases he; exact ⟨_, rfl, Or.inr ⟨hd, rfl⟩⟩
  cases sel with
  | point p => exact ⟨o, h, Or.inl rfl⟩
  | points ps => exact ⟨o, by simp only [Table.get, getMany_done] at h ⊢; exact h, Or.inl rfl⟩
  | range a b => exact key _ h
  | ranges rs => exact key _ h

theorem collectSet_cut {d0 : Nat → Bool} (h0 : ∀ n, d0 n = false) (d : Nat → Bool) (keep : Bytes → Bool) : ∀ (l : List (Bytes × Bytes)) (n : Nat) (m : KV),
    SameOrDone d (collectSet d0 keep l n m) (collectSet d keep l n m) := by
  intro l
  induction l with
  | nil => intro n m; exact Or.inl rfl
  | cons e l ih =>
    intro n m
    unfold collectSet
    simp only [h0, Bool.false_eq_true, if_false]
    by_cases hd : d n = true
    · rw [if_pos hd]; exact Or.inr ⟨⟨n, hd⟩, rfl⟩
    · rw [if_neg hd]
      split
      · exact Or.inl rfl
      · exact ih _ _

theorem intersectLoop_cut (t : Table T F) {env : Env T} (h0 : ∀ n, env.done n = false) (d : Nat → Bool) (db : KV) (ob : Option Batch) :
    ∀ (qs : List (Query T)) (n : Nat) (m : KV), SameOrDone d (t.intersectLoop env db ob qs n m) (t.intersectLoop (env.withDone d) db ob qs n m) := by
  intro qs
  induction qs with
  | nil => intro n m; exact Or.inl rfl
  | cons q qs ih =>
    intro n m
    unfold Table.intersectLoop
    cases t.iterParts db ob q.index q.sel with
    | none => exact Or.inl rfl
    | some parts =>
      simp only
      rcases collectSet_cut h0 d (fun k => (m.get k).isSome) parts.flatten n KV.empty with h | ⟨hd, h⟩
      · rw [show (env.withDone d).done = d from rfl, h]
        cases collectSet env.done (fun k => (m.get k).isSome) parts.flatten n KV.empty with
        | error e => exact Or.inl rfl
        | ok r => exact ih _ _
      · rw [show (env.withDone d).done = d from rfl, h]
        exact Or.inr ⟨hd, rfl⟩

theorem intersect_cut (t : Table T F) {env : Env T} (h0 : ∀ n, env.done n = false) (d : Nat → Bool) (db : KV) (ob : Option Batch) (idx : Index T)
    (sel : Selector T) (qs : List (Query T)) : SameOrDone d (t.intersect env db ob idx sel qs) (t.intersect (env.withDone d) db ob idx sel qs) := by
  unfold Table.intersect
  cases t.iterParts db ob idx sel with
  | none => exact Or.inl rfl
  | some parts =>
    simp only
    rw [show (env.withDone d).done = d from rfl]
    rcases collectSet_cut h0 d (fun _ => true) parts.flatten 0 KV.empty with h | ⟨hd, h⟩
    · rw [h]
      cases collectSet env.done (fun _ => true) parts.flatten 0 KV.empty with
      | error e => exact Or.inl rfl
      | ok r =>
        simp only
        rcases intersectLoop_cut t h0 d db ob qs r.1 r.2 with g | ⟨hd, g⟩
        · rw [g]; exact Or.inl rfl
        · rw [g]; exact Or.inr ⟨hd, rfl⟩
    · rw [h]
      exact Or.inr ⟨hd, rfl⟩

/-- C103, queries: a query with any filter, order, After, Offset, Limit and Intersects returns what it returns without the cancellation, or the
error of the context and no rows. -/
theorem C103_query (t : Table T F) {env : Env T} (h0 : ∀ n, env.done n = false) (d : Nat → Bool) (srt : (T → T → Bool) → List T → List T)
    (filt : F) (db : KV) (ob : Option Batch) (q : Query T) (fuel : Nat) {o : Except Err (List T)} (h : q.execute t env srt filt db ob fuel = some o) :
    ∃ o', q.execute t (env.withDone d) srt filt db ob fuel = some o' ∧ SameOrDone d o o' := by
  unfold Query.execute at h ⊢
  split at h
  · rename_i hi
    rw [if_pos hi]
    unfold Query.executeQuery at h ⊢
    simp only at h ⊢
    split at h
    · exact ⟨o, h, Or.inl rfl⟩
    · rename_i sel hsel
      cases hs : t.scanIndexForEach env filt (fun _ => (db, ob)) q.index sel (q.callback t) q.reverse fuel {} with
      | none => rw [hs] at h; cases h
      | some o1 =>
        obtain ⟨o', h1, h2⟩ := C103_forEach (R := fun _ _ => True) (fun _ => trivial) (fun _ _ _ _ _ => trivial) t h0 d filt
          (fun _ => (db, ob)) (f := q.callback t) (fun s k => moves_true _) q.index sel q.reverse fuel {} hs
        rw [h1]
        rcases h2 with rfl | ⟨hd, he, _⟩
        · exact ⟨o, by rw [hs] at h; exact h, Or.inl rfl⟩
        · cases o' with
          | mk s e => cases he; exact ⟨_, rfl, Or.inr ⟨hd, rfl⟩⟩
  · rename_i hi
    rw [if_neg hi]
    cases h
    refine ⟨_, rfl, ?_⟩
    unfold Query.executeIntersect
    split
    · exact Or.inl rfl
    · rcases intersect_cut t h0 d db ob q.index q.sel q.intersects with g | ⟨hd, g⟩
      · rw [g]; exact Or.inl rfl
      · rw [g]; exact Or.inr ⟨hd, rfl⟩
where
  moves_true {s : QSt T} : ∀ c : Cb (QSt T) T, Moves (fun _ _ => True) s c
  | .ret _ _ _ => trivial
  | .get _ k => fun r => moves_true (k r)

/-! The theorems at the test database and contexts that are done from the start, or after one row. -/

example : exTable.scanIndex (stdEnv exTable) () exDB none exTable.primaryIndex (.range (1, 0) (2, 0)) false 9 [] = some ⟨[(1, 5), (2, 6)], none⟩ ∧
    exTable.scanIndex ((stdEnv exTable).withDone (fun n => decide (1 ≤ n))) () exDB none exTable.primaryIndex (.range (1, 0) (2, 0)) false 9 [] =
      some ⟨[(1, 5)], some .ctxDone⟩ ∧
    exTable.get ((stdEnv exTable).withDone (fun _ => true)) () exDB none (.range (1, 0) (2, 0)) 9 = some (.error .ctxDone) ∧
    exQuery.execute exTable ((stdEnv exTable).withDone (fun _ => true)) insSort () exDB none 9 = some (.error .ctxDone) := by decide

example := C103_scanIndex exTable (env := stdEnv exTable) (fun _ => rfl) (fun n => decide (1 ≤ n)) () exDB none exTable.primaryIndex (.range (1, 0) (2, 0))
  false 9 [] (o := ⟨[(1, 5), (2, 6)], none⟩) (by decide)

example := C103_forEach (R := fun a b : List Rec => a <+: b) (fun _ => List.prefix_rfl) (fun _ _ _ h h' => h.trans h') exTable (env := stdEnv exTable)
  (fun _ => rfl) (fun n => decide (1 ≤ n)) () (fun _ => (exDB, none)) (f := scanIndexCb) (by intro s k r; cases r with | ok x => exact List.prefix_append s [x] | error e => exact List.prefix_refl s) exTable.primaryIndex (.range (1, 0) (2, 0))
  false 9 [] (o := ⟨[(1, 5), (2, 6)], none⟩) (by decide)

example := C103_get exTable (env := stdEnv exTable) (fun _ => rfl) (fun _ => true) () exDB none (.range (1, 0) (2, 0)) 9 (o := .ok [(1, 5), (2, 6)]) (by decide)

example := C103_query exTable (env := stdEnv exTable) (fun _ => rfl) (fun _ => true) insSort () exDB none exQuery 9 (o := .ok [(1, 5), (2, 6)]) (by decide)

/-! More fuel gives the same result. -/

theorem innerLoop_more (t : Table T F) (f : σ → Bytes → Cb σ T) : ∀ (n k : Nat) (p : PSt) (s : σ),
    (t.innerLoop f n p s = .running) ∨ t.innerLoop f (n + k) p s = t.innerLoop f n p s := by
  intro n
  induction n with
  | zero =>
    intro k p s
    by_cases hv : p.vidx < p.values.length
    · exact Or.inl (by unfold Table.innerLoop; rw [if_pos hv])
    · refine Or.inr ?_
      cases k with
      | zero => rfl
      | succ k => unfold Table.innerLoop; rw [if_neg hv, if_neg hv]
  | succ n ih =>
    intro k p s
    rw [show n + 1 + k = (n + k) + 1 by omega]
    unfold Table.innerLoop
    by_cases hv : p.vidx < p.values.length
    · rw [if_pos hv, if_pos hv]
      split
      · exact Or.inr rfl
      · split
        · exact Or.inr rfl
        · split
          · exact Or.inr rfl
          · exact ih k _ _
    · rw [if_neg hv, if_neg hv]
      exact Or.inr rfl

theorem outerLoop_more (t : Table T F) (env : Env T) (filt : F) (view : σ → KV × Option Batch) (f : σ → Bytes → Cb σ T) (m j : Nat) :
    ∀ (n k clock : Nat) (p : PSt) (s : σ) o, t.outerLoop env filt view f m n clock p s = some o →
      t.outerLoop env filt view f (m + j) (n + k) clock p s = some o := by
  intro n
  induction n with
  | zero =>
    intro k clock p s o h
    unfold Table.outerLoop at h
    split at h
    · rename_i hp
      cases k with
      | zero => unfold Table.outerLoop; rw [if_pos hp]; exact h
      | succ k => unfold Table.outerLoop; rw [hp]; exact h
    · cases h
  | succ n ih =>
    intro k clock p s o h
    rw [show n + 1 + k = (n + k) + 1 by omega]
    unfold Table.outerLoop at h ⊢
    split at h
    · exact h
    · split at h
      · rename_i hd
        rw [if_pos hd]; exact h
      · rename_i hd
        rw [if_neg hd]
        split at h
        · exact h
        · split at h
          · rename_i hc
            rw [if_pos hc]; exact h
          · rename_i p1 s1 cont err he hc
            rw [if_neg hc]
            rcases innerLoop_more t f m j p1 s1 with hr | hr
            · rw [hr] at h; cases h
            · rw [hr]
              split at h
              · cases h
              · exact h
              · exact ih k _ _ _ _ h

/-- A scan that ends with some fuel ends in the same way with more. -/
theorem scan_more (t : Table T F) (env : Env T) (filt : F) (view : σ → KV × Option Batch) (f : σ → Bytes → Cb σ T) (idx : Index T) (sel : Selector T)
    (reverse : Bool) (s : σ) {n : Nat} {o : ScanOut σ} (h : t.scanIndexForEach env filt view idx sel f reverse n s = some o) {fuel : Nat}
    (hf : n ≤ fuel) : t.scanIndexForEach env filt view idx sel f reverse fuel s = some o := by
  obtain ⟨k, rfl⟩ := Nat.exists_eq_add_of_le hf
  unfold Table.scanIndexForEach at h ⊢
  split at h
  · exact h
  · split at h
    · rename_i hi
      rw [if_pos hi]; exact h
    · rename_i hi
      rw [if_neg hi]
      exact outerLoop_more t env filt view f n k n k _ _ _ _ h

theorem scanIndex_more (t : Table T F) (env : Env T) (filt : F) (db : KV) (ob : Option Batch) (idx : Index T) (sel : Selector T)
    (reverse : Bool) (tr : List T) {n : Nat} {o : ScanOut (List T)} (h : t.scanIndex env filt db ob idx sel reverse n tr = some o) {fuel : Nat}
    (hf : n ≤ fuel) : t.scanIndex env filt db ob idx sel reverse fuel tr = some o := by
  unfold Table.scanIndex at h ⊢
  exact scan_more t env filt _ _ idx sel reverse tr h hf

theorem query_more (t : Table T F) (env : Env T) (srt : (T → T → Bool) → List T → List T)
    (filt : F) (db : KV) (ob : Option Batch) (q : Query T) {n : Nat} {o : Except Err (List T)} (h : q.execute t env srt filt db ob n = some o) {fuel : Nat}
    (hf : n ≤ fuel) : q.execute t env srt filt db ob fuel = some o := by
  unfold Query.execute at h ⊢
  split at h
  · rename_i hi
    rw [if_pos hi]
    unfold Query.executeQuery at h ⊢
    simp only at h ⊢
    split at h
    · exact h
    · rename_i sel hsel
      cases hs : t.scanIndexForEach env filt (fun _ => (db, ob)) q.index sel (q.callback t) q.reverse n {} with
      | none => rw [hs] at h; cases h
      | some o1 => rw [scan_more t env filt _ _ _ _ _ _ hs hf]; rw [hs] at h; exact h
  · rename_i hi
    rw [if_neg hi]
    exact h

end Bond
