import Verif.ScanLemmas
import Verif.Spec.Served
/-
Scans whose callback need not fetch every row: what the loops of `scanForEachSecondaryIndex` do.
-/
namespace Bond
open Spec
variable {T F σ : Type}

/-- at most one `Get` per call -/
def AtMostOnce (f : σ → Bytes → Cb σ T) : Prop := ∀ s k, (f s k).noGet ∨ (f s k).oneGet

/-- the loop over prefetched rows stands before `todo` -/
structure InnerAt (t : Table T F) (done todo : List (Bytes × T)) (p : PSt) : Prop where
  values : p.values = serAll t (done ++ todo)
  keys : p.indexKeys = (done ++ todo).map Prod.fst
  vidx : p.vidx = done.length

/-- rows whose records can be read whatever the callback does -/
structure RowsOK (t : Table T F) (filt : F) (view : σ → KV × Option Batch) (rows : List (Bytes × T)) : Prop where
  keys : RowKeys t rows
  sees : ∀ s, Sees t filt view s rows

theorem RowsOK.tail {t : Table T F} {filt : F} {view : σ → KV × Option Batch} {r : Bytes × T} {rows : List (Bytes × T)}
    (h : RowsOK t filt view (r :: rows)) : RowsOK t filt view rows :=
  ⟨fun q hq => h.keys q (by simp [hq]), fun s q hq => h.sees s q (by simp [hq])⟩

theorem RowsOK.ser {t : Table T F} {filt : F} {view : σ → KV × Option Batch} {rows : List (Bytes × T)}
    (h : RowsOK t filt view rows) (s : σ) {r : Bytes × T} (hr : r ∈ rows) : (t.ser r.2).isSome := by
  obtain ⟨b, hb, _⟩ := h.sees s r hr; simp [hb]

theorem goesOn_iff {s' : σ} {c : Bool} {e : Option Err} : goesOn (s', c, e) ↔ ¬ (!c || e.isSome) = true := by
  unfold goesOn; cases c <;> cases e <;> simp

/-- a call inside a block -/
theorem runInner_at {t : Table T F} (rt : t.RoundTripFresh) {f : σ → Bytes → Cb σ T} (hf : AtMostOnce f) {done todo : List (Bytes × T)}
    {k : Bytes} {x : T} {p : PSt} (h : InnerAt t done ((k, x) :: todo) p) (hs : (t.ser x).isSome) (s : σ) :
    ∃ p', t.runInner p (f s k) = some (p', (f s k).run (.ok x)) ∧ p'.rest = p.rest ∧
      (((f s k).asked.isSome ∧ InnerAt t (done ++ [(k, x)]) todo p') ∨ ((f s k).asked = none ∧ InnerAt t done ((k, x) :: todo) p')) := by
  rcases hf s k with ⟨s', c, e, he⟩ | ⟨s0, g, hg, hng⟩
  · rw [he]
    exact ⟨p, rfl, rfl, Or.inr ⟨rfl, h⟩⟩
  · rw [hg, Table.runInner, getPrefetched_eq rt h.values h.vidx hs]
    simp only
    obtain ⟨s1, c1, e1, h1⟩ := hng (.ok x)
    refine ⟨{ p with vidx := done.length + 1 }, ?_, rfl, Or.inl ⟨rfl, ⟨?_, ?_, ?_⟩⟩⟩
    · rw [h1, Table.runInner, Cb.run, h1, Cb.run]
    · simp [h.values]
    · simp [h.keys]
    · simp

theorem innerAt_lt {t : Table T F} {done todo : List (Bytes × T)} {r : Bytes × T} {p : PSt} (h : InnerAt t done (r :: todo) p) :
    p.vidx < p.values.length ∧ p.indexKeys[p.vidx]? = some r.1 := by
  refine ⟨by rw [h.values, h.vidx, serAll]; simp, ?_⟩
  rw [h.keys, h.vidx, List.map_append, List.getElem?_append_right (by simp)]; simp

theorem innerAt_end {t : Table T F} {f : σ → Bytes → Cb σ T} {done : List (Bytes × T)} {p : PSt} (h : InnerAt t done [] p) (fuel : Nat) (s : σ) :
    t.innerLoop f fuel p s = .go (p, s) := by
  have : ¬ p.vidx < p.values.length := by rw [h.values, h.vidx, serAll]; simp
  cases fuel <;> rw [Table.innerLoop, if_neg this]

/-- what the inner loop does fits the specification -/
theorem servedInner {t : Table T F} (rt : t.RoundTripFresh) {f : σ → Bytes → Cb σ T} (hf : AtMostOnce f) {n : Nat} (fuel : Nat)
    (done todo : List (Bytes × T)) (p : PSt) (s : σ) (h : InnerAt t done todo p) (hser : ∀ r ∈ todo, (t.ser r.2).isSome) :
    t.innerLoop f fuel p s = .running ∨
    (∃ o, t.innerLoop f fuel p s = .stop o ∧ ∀ more, Served f n todo.length (todo ++ more) s o) ∨
    ∃ p' s', t.innerLoop f fuel p s = .go (p', s') ∧ p'.rest = p.rest ∧
      ∀ more o, Served f n 0 more s' o → Served f n todo.length (todo ++ more) s o := by
  induction fuel generalizing done todo p s with
  | zero =>
    cases todo with
    | nil => exact Or.inr (Or.inr ⟨p, s, innerAt_end h 0 s, rfl, fun _ _ h => h⟩)
    | cons r todo => left; rw [Table.innerLoop, if_pos (innerAt_lt h).1]
  | succ fuel ih =>
    cases todo with
    | nil => exact Or.inr (Or.inr ⟨p, s, innerAt_end h _ s, rfl, fun _ _ h => h⟩)
    | cons r todo =>
      obtain ⟨k, x⟩ := r
      obtain ⟨h1, h2⟩ := innerAt_lt h
      obtain ⟨p', hr, hrest, hcase⟩ := runInner_at rt hf h (hser (k, x) (by simp)) s
      rw [Table.innerLoop, if_pos h1]
      simp only [h2, hr]
      by_cases hgo : goesOn ((f s k).run (.ok x))
      · have hc := goesOn_iff.1 hgo
        simp only [hc]
        rcases hcase with ⟨ha, hat⟩ | ⟨ha, hat⟩
        · have hstep : ∀ more o, Served f n todo.length (todo ++ more) ((f s k).run (.ok x)).1 o →
              Served f n ((k, x) :: todo).length (((k, x) :: todo) ++ more) s o := by
            intro more o ho
            exact .fetch hgo ha (by simpa using ho)
          rcases ih _ todo p' _ hat (fun r hr => hser r (by simp [hr])) with h3 | ⟨o, h3, h4⟩ | ⟨p'', s'', h3, h4, h5⟩
          · exact Or.inl h3
          · exact Or.inr (Or.inl ⟨o, h3, fun more => hstep _ _ (h4 more)⟩)
          · exact Or.inr (Or.inr ⟨p'', s'', h3, by rw [h4, hrest], fun more o ho => hstep _ _ (h5 more o ho)⟩)
        · have hstep : ∀ more o, Served f n ((k, x) :: todo).length (((k, x) :: todo) ++ more) ((f s k).run (.ok x)).1 o →
              Served f n ((k, x) :: todo).length (((k, x) :: todo) ++ more) s o := fun more o ho => .again hgo ha ho
          rcases ih _ ((k, x) :: todo) p' _ hat hser with h3 | ⟨o, h3, h4⟩ | ⟨p'', s'', h3, h4, h5⟩
          · exact Or.inl h3
          · exact Or.inr (Or.inl ⟨o, h3, fun more => hstep _ _ (h4 more)⟩)
          · exact Or.inr (Or.inr ⟨p'', s'', h3, by rw [h4, hrest], fun more o ho => hstep _ _ (h5 more o ho)⟩)
      · have hc : (!((f s k).run (.ok x)).2.1 || ((f s k).run (.ok x)).2.2.isSome) = true := by
          apply Classical.byContradiction
          intro hc
          exact hgo (goesOn_iff.2 hc)
        simp only [hc, if_true]
        exact Or.inr (Or.inl ⟨_, rfl, fun more => .stop hgo⟩)

/-- what a call outside blocks does -/
theorem runOuter_at {t : Table T F} (rt : t.RoundTripFresh) {env : Env T} (ok : env.OK t) {filt : F} {view : σ → KV × Option Batch}
    (hp : 0 < t.prefetch) {f : σ → Bytes → Cb σ T} (hf : AtMostOnce f) {k : Bytes} {x : T} {rows : List (Bytes × T)}
    (hr : RowsOK t filt view ((k, x) :: rows)) (s : σ) :
    ∃ p' done, t.runOuter env filt view (PSt.mk ((k, []) :: rows.map (fun r => (r.1, ([] : Bytes)))) [] [] [] 0) (f s k) =
        some (p', (f s k).run (.ok x)) ∧
      (((f s k).asked.isSome ∧ InnerAt t done (rows.take (t.prefetch - 1)) p' ∧
          p'.rest.tail = (rows.drop (t.prefetch - 1)).map (fun r => (r.1, ([] : Bytes)))) ∨
        ((f s k).asked = none ∧ InnerAt t done [] p' ∧ p'.rest.tail = rows.map (fun r => (r.1, ([] : Bytes))))) := by
  rcases hf s k with ⟨s', c, e, he⟩ | ⟨s0, g, hg, hng⟩
  · rw [he]
    exact ⟨_, [], rfl, Or.inr ⟨rfl, ⟨rfl, rfl, rfl⟩, rfl⟩⟩
  · obtain ⟨rest', keys', hpre, htail⟩ := prefetch_eq (view := view) rt ok hp (fun _ => []) hr.keys
      (fun r hr' => hr.sees s0 r (List.mem_of_mem_take hr'))
    obtain ⟨n, hn⟩ : ∃ n, t.prefetch = n + 1 := ⟨t.prefetch - 1, by omega⟩
    simp only [List.map_cons] at hpre
    rw [hg, Table.runOuter, hpre]
    simp only
    obtain ⟨s1, c1, e1, h1⟩ := hng (.ok x)
    refine ⟨PSt.mk rest' keys' ((((k, x) :: rows).take t.prefetch).map Prod.fst) (serAll t (((k, x) :: rows).take t.prefetch)) 1, [(k, x)], ?_,
      Or.inl ⟨rfl, ⟨?_, ?_, ?_⟩, ?_⟩⟩
    · rw [h1, Table.runOuter, Cb.run, h1, Cb.run]
    · simp [hn, serAll]
    · simp [hn]
    · rfl
    · simpa [hn] using htail

/-- results of the outer loop fit the specification -/
theorem servedOuter {t : Table T F} (rt : t.RoundTripFresh) {env : Env T} (ok : env.OK t) (hd : ∀ n, env.done n = false) {filt : F}
    {view : σ → KV × Option Batch} (hp : 0 < t.prefetch) {f : σ → Bytes → Cb σ T} (hf : AtMostOnce f) (innerFuel fuel : Nat)
    (rows : List (Bytes × T)) (hr : RowsOK t filt view rows) (clock : Nat) (s : σ) (o : ScanOut σ)
    (h : t.outerLoop env filt view f innerFuel fuel clock (PSt.mk (rows.map (fun r => (r.1, ([] : Bytes)))) [] [] [] 0) s = some o) :
    Served f t.prefetch 0 rows s o := by
  induction fuel generalizing rows clock s with
  | zero =>
    cases rows with
    | nil => rw [Table.outerLoop] at h; simp at h; subst h; exact .done
    | cons r rows => rw [Table.outerLoop] at h; simp at h
  | succ fuel ih =>
    cases rows with
    | nil => rw [Table.outerLoop] at h; simp at h; subst h; exact .done
    | cons r rows =>
      obtain ⟨k, x⟩ := r
      obtain ⟨p', done, h1, hcase⟩ := runOuter_at rt ok hp hf hr s
      rw [Table.outerLoop] at h
      simp only [List.map_cons, hd, Bool.false_eq_true, if_false, h1] at h
      by_cases hgo : goesOn ((f s k).run (.ok x))
      · have hc := goesOn_iff.1 hgo
        simp only [hc] at h
        rcases hcase with ⟨ha, hat, htail⟩ | ⟨ha, hat, htail⟩
        · have hlen : (rows.take (t.prefetch - 1)).length = min (t.prefetch - 1) rows.length := by simp
          refine .fetch hgo ha ?_
          rw [if_pos rfl, ← hlen]
          rcases servedInner (n := t.prefetch) rt hf innerFuel _ _ p' ((f s k).run (.ok x)).1 hat
            (fun r hr' => hr.ser s (by simp [List.mem_of_mem_take hr'])) with h3 | ⟨o', h3, h4⟩ | ⟨p'', s'', h3, h4, h5⟩
          · rw [h3] at h; simp at h
          · rw [h3] at h; simp at h; subst h
            have := h4 (rows.drop (t.prefetch - 1))
            rwa [List.take_append_drop] at this
          · rw [h3] at h
            simp only [Bool.false_eq_true, if_false] at h
            rw [h4, htail] at h
            have := h5 (rows.drop (t.prefetch - 1)) o (ih _ ⟨fun q hq => hr.tail.keys q (List.mem_of_mem_drop hq),
              fun s q hq => hr.tail.sees s q (List.mem_of_mem_drop hq)⟩ _ _ h)
            rwa [List.take_append_drop] at this
        · rw [innerAt_end hat] at h
          simp only [Bool.false_eq_true, if_false] at h
          rw [htail] at h
          exact .pass hgo ha (ih rows hr.tail _ _ h)
      · have hc : (!((f s k).run (.ok x)).2.1 || ((f s k).run (.ok x)).2.2.isSome) = true := by
          apply Classical.byContradiction
          intro hc
          exact hgo (goesOn_iff.2 hc)
        simp only [hc, if_true, Option.some.injEq] at h
        subst h
        exact .stop hgo

/-- the code after the inner loop, table.go:1181-1191 -/
def afterInner (t : Table T F) (env : Env T) (filt : F) (view : σ → KV × Option Batch) (f : σ → Bytes → Cb σ T) (innerFuel fuel clock : Nat) :
    LoopRes (ScanOut σ) (PSt × σ) → Option (ScanOut σ)
  | .running => none
  | .stop o => some o
  | .go (p'', s'') => t.outerLoop env filt view f innerFuel fuel clock (PSt.mk p''.rest.tail [] [] [] 0) s''

/-- the specification is met with enough fuel -/
theorem served_runs {t : Table T F} (rt : t.RoundTripFresh) {env : Env T} (ok : env.OK t) (hd : ∀ n, env.done n = false) {filt : F}
    {view : σ → KV × Option Batch} (hp : 0 < t.prefetch) {f : σ → Bytes → Cb σ T} (hf : AtMostOnce f) {left : Nat}
    {rows : List (Bytes × T)} {s : σ} {o : ScanOut σ} (h : Served f t.prefetch left rows s o) (hr : RowsOK t filt view rows) :
    ∃ N, (left = 0 → ∀ b c clock, N ≤ b → N ≤ c →
        t.outerLoop env filt view f c b clock (PSt.mk (rows.map (fun r => (r.1, ([] : Bytes)))) [] [] [] 0) s = some o) ∧
      ∀ done todo more p, rows = todo ++ more → todo.length = left → InnerAt t done todo p → p.rest.tail = more.map (fun r => (r.1, ([] : Bytes))) →
        ∀ a b c clock, N ≤ a → N ≤ b → N ≤ c → afterInner t env filt view f c b clock (t.innerLoop f a p s) = some o := by
  -- at the end of a block the outer loop goes on
  have hzero : ∀ {rows : List (Bytes × T)} {s : σ} {N : Nat}, (∀ b c clock, N ≤ b → N ≤ c →
        t.outerLoop env filt view f c b clock (PSt.mk (rows.map (fun r => (r.1, ([] : Bytes)))) [] [] [] 0) s = some o) →
      ∀ (done todo more : List (Bytes × T)) (p : PSt), rows = todo ++ more → todo.length = 0 → InnerAt t done todo p →
        p.rest.tail = more.map (fun r => (r.1, ([] : Bytes))) →
        ∀ a b c clock, N ≤ a → N ≤ b → N ≤ c → afterInner t env filt view f c b clock (t.innerLoop f a p s) = some o := by
    intro rows s N h1 done todo more p e1 e2 hat hrest a b c clock _ hb hc
    have : todo = [] := List.eq_nil_of_length_eq_zero e2
    subst this
    simp only [List.nil_append] at e1
    subst e1
    rw [innerAt_end hat, afterInner, hrest]
    exact h1 b c clock hb hc
  induction h with
  | done =>
    rename_i left s
    have h1 : ∀ b c clock, 0 ≤ b → 0 ≤ c →
        t.outerLoop env filt view f c b clock (PSt.mk (([] : List (Bytes × T)).map (fun r => (r.1, ([] : Bytes)))) [] [] [] 0) s = some ⟨s, none⟩ := by
      intro b c clock _ _
      cases b <;> rw [Table.outerLoop] <;> rfl
    refine ⟨0, fun _ => h1, ?_⟩
    intro done todo more p e1 e2
    obtain ⟨e3, e4⟩ := List.append_eq_nil_iff.1 e1.symm
    subst e3; subst e4
    exact hzero h1 done [] [] p rfl rfl
  | stop hgo =>
    rename_i left k x rows s
    have hc : (!((f s k).run (.ok x)).2.1 || ((f s k).run (.ok x)).2.2.isSome) = true := by
      apply Classical.byContradiction
      intro hc
      exact hgo (goesOn_iff.2 hc)
    have h1 : ∀ b c clock, 1 ≤ b → 1 ≤ c →
        t.outerLoop env filt view f c b clock (PSt.mk (((k, x) :: rows).map (fun r => (r.1, ([] : Bytes)))) [] [] [] 0) s =
          some ⟨((f s k).run (.ok x)).1, ((f s k).run (.ok x)).2.2⟩ := by
      intro b c clock hb _
      obtain ⟨b, rfl⟩ : ∃ n, b = n + 1 := ⟨b - 1, by omega⟩
      obtain ⟨p', done, g1, _⟩ := runOuter_at (env := env) rt ok hp hf hr s
      rw [Table.outerLoop]
      simp only [List.map_cons, hd, Bool.false_eq_true, if_false, g1, hc, if_true]
    refine ⟨1, fun _ => h1, ?_⟩
    intro done todo more p e1 e2 hat hrest a b c clock ha hb hc'
    cases todo with
    | nil => exact hzero h1 done [] more p e1 rfl hat hrest a b c clock ha hb hc'
    | cons r todo =>
      simp only [List.cons_append, List.cons.injEq] at e1
      obtain ⟨e1, e3⟩ := e1
      subst e1
      obtain ⟨a, rfl⟩ : ∃ n, a = n + 1 := ⟨a - 1, by omega⟩
      obtain ⟨g1, g2⟩ := innerAt_lt hat
      obtain ⟨p', g3, _, _⟩ := runInner_at rt hf hat (hr.ser s (r := (k, x)) (by simp)) s
      rw [Table.innerLoop, if_pos g1]
      simp only [g2, g3, hc, if_true, afterInner]
  | fetch hgo ha next ih =>
    rename_i left k x rows s o
    obtain ⟨N, hN1, hN2⟩ := ih hr.tail hzero
    have hc := goesOn_iff.1 hgo
    have h1 : left = 0 → ∀ b c clock, N + 1 ≤ b → N + 1 ≤ c →
        t.outerLoop env filt view f c b clock (PSt.mk (((k, x) :: rows).map (fun r => (r.1, ([] : Bytes)))) [] [] [] 0) s = some o := by
      intro hl b c clock hb hc'
      obtain ⟨b, rfl⟩ : ∃ n, b = n + 1 := ⟨b - 1, by omega⟩
      obtain ⟨p', done, g1, hcase⟩ := runOuter_at (env := env) rt ok hp hf hr s
      rcases hcase with ⟨_, hat, htail⟩ | ⟨hno, _⟩
      · have := hN2 done (rows.take (t.prefetch - 1)) (rows.drop (t.prefetch - 1)) p' (List.take_append_drop _ _).symm
          (by rw [if_pos hl]; simp) hat htail c b c (clock + 1) (by omega) (by omega) (by omega)
        rw [Table.outerLoop]
        simp only [List.map_cons, hd, Bool.false_eq_true, if_false, g1, hc]
        revert this
        generalize t.innerLoop f c p' ((f s k).run (.ok x)).1 = res
        intro this
        cases res with
        | running => exact this
        | stop o' => exact this
        | go q => exact this
      · rw [hno] at ha; cases ha
    refine ⟨N + 1, h1, ?_⟩
    intro done todo more p e1 e2 hat hrest a b c clock ha' hb hc'
    cases todo with
    | nil =>
      have hl : left = 0 := by simpa using e2.symm
      exact hzero (h1 hl) done [] more p e1 rfl hat hrest a b c clock ha' hb hc'
    | cons r todo =>
      simp only [List.cons_append, List.cons.injEq] at e1
      obtain ⟨e1, e3⟩ := e1
      subst e1
      obtain ⟨a, rfl⟩ : ∃ n, a = n + 1 := ⟨a - 1, by omega⟩
      obtain ⟨g1, g2⟩ := innerAt_lt hat
      obtain ⟨p', g3, g4, hcase⟩ := runInner_at rt hf hat (hr.ser s (r := (k, x)) (by simp)) s
      rcases hcase with ⟨_, hat'⟩ | ⟨hno, _⟩
      · rw [Table.innerLoop, if_pos g1]
        simp only [g2, g3, hc]
        simp only [List.length_cons] at e2
        exact hN2 _ todo more p' e3 (by rw [if_neg (by omega)]; omega) hat' (by rw [g4]; exact hrest) a b c clock (by omega) (by omega) (by omega)
      · rw [hno] at ha; cases ha
  | pass hgo ha next ih =>
    rename_i k x rows s o
    obtain ⟨N, hN1, hN2⟩ := ih hr.tail hzero
    have hc := goesOn_iff.1 hgo
    have h1 : ∀ b c clock, N + 1 ≤ b → N + 1 ≤ c →
        t.outerLoop env filt view f c b clock (PSt.mk (((k, x) :: rows).map (fun r => (r.1, ([] : Bytes)))) [] [] [] 0) s = some o := by
      intro b c clock hb hc'
      obtain ⟨b, rfl⟩ : ∃ n, b = n + 1 := ⟨b - 1, by omega⟩
      obtain ⟨p', done, g1, hcase⟩ := runOuter_at (env := env) rt ok hp hf hr s
      rcases hcase with ⟨hyes, _⟩ | ⟨_, hat, htail⟩
      · rw [ha] at hyes; cases hyes
      · rw [Table.outerLoop]
        simp only [List.map_cons, hd, Bool.false_eq_true, if_false, g1, hc, innerAt_end hat, htail]
        exact hN1 rfl b c _ (by omega) (by omega)
    exact ⟨N + 1, fun _ => h1, hzero h1⟩
  | again hgo ha next ih =>
    rename_i left k x rows s o
    obtain ⟨N, hN1, hN2⟩ := ih hr hzero
    have hc := goesOn_iff.1 hgo
    refine ⟨N + 1, by omega, ?_⟩
    intro done todo more p e1 e2 hat hrest a b c clock ha' hb hc'
    cases todo with
    | nil => simp at e2
    | cons r todo =>
      have e1' := e1
      simp only [List.cons_append, List.cons.injEq] at e1
      obtain ⟨e1, e3⟩ := e1
      subst e1
      obtain ⟨a, rfl⟩ : ∃ n, a = n + 1 := ⟨a - 1, by omega⟩
      obtain ⟨g1, g2⟩ := innerAt_lt hat
      obtain ⟨p', g3, g4, hcase⟩ := runInner_at rt hf hat (hr.ser s (r := (k, x)) (by simp)) s
      rcases hcase with ⟨hyes, _⟩ | ⟨_, hat'⟩
      · rw [ha] at hyes; cases hyes
      · rw [Table.innerLoop, if_pos g1]
        simp only [g2, g3, hc]
        exact hN2 _ _ more p' e1' e2 hat' (by rw [g4]; exact hrest) a b c clock (by omega) (by omega) (by omega)

end Bond
