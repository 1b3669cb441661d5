import Verif.ResourceLemmas
/-
Property theorems C83: every call gives back the iterators, batches and buffers it takes.
-/
namespace Bond
open RM

/-- After the call exactly what was held before is held, and nothing was used or given back that was not held. -/
def Spec.Clean {α : Type} (m : RM α) (s : RSt) : Prop := (m s).2.held.Perm s.held ∧ (m s).2.bad = s.bad

/-- The call is clean however it ends: with success, an error or a panic of a user function. `ext` is the batch given
by the caller, who holds it. -/
def Spec.CleanAlways {α : Type} (ext : Option Res) (m : RM α) : Prop :=
  ∀ s : RSt, (∀ b, ext = some b → b ∈ s.held) → Spec.Clean m s

/-- The call is clean whenever it returns, with success or an error. -/
def Spec.CleanReturn {α : Type} (m : RM α) : Prop := ∀ s : RSt, (m s).1 ≠ .panic → Spec.Clean m s

/-- what `Clean` forbids: using or giving back what is not held is always noted, and a program that does it with nothing noted before is not clean;
neither is one that takes something and keeps it, or gives back something of the caller. -/
theorem clean_detects (r : Res) (k : ResKind) (s : RSt) :
    (r ∉ s.held → (touch r s).2.bad = true ∧ (release r s).2.bad = true ∧
      (s.bad = false → ¬ Spec.Clean (touch r) s ∧ ¬ Spec.Clean (release r) s)) ∧
    ¬ Spec.Clean (acquire k) s ∧ (r ∈ s.held → ¬ Spec.Clean (release r) s) := by
  refine ⟨fun h => ?_, fun h => ?_, fun h hc => ?_⟩
  · have h1 : (touch r s).2.bad = true := by unfold touch; rw [if_neg h]
    have h2 : (release r s).2.bad = true := by unfold release; rw [if_neg h]
    refine ⟨h1, h2, fun hb => ⟨fun hc => ?_, fun hc => ?_⟩⟩
    · have := hc.2; rw [h1, hb] at this; cases this
    · have := hc.2; rw [h2, hb] at this; cases this
  · have := h.1.length_eq
    simp [acquire] at this
  · have := hc.1.length_eq
    unfold release at this
    rw [if_pos h] at this
    simp only [List.length_erase_of_mem h] at this
    have := List.length_pos_of_mem h
    omega

theorem cleanAlways_of {α : Type} {ext : Option Res} {m : RM α} (h : Tidy true ext.toList m) :
    Spec.CleanAlways ext m := by
  intro s hs
  have := h s s.held (.refl _) (fun x hx => hs x (by simpa using hx))
  unfold Spec.Clean
  revert this
  rcases m s with ⟨o, s'⟩
  intro this
  cases o with
  | ok a => exact ⟨(this.1 a rfl).2, (this.1 a rfl).1⟩
  | err => exact ⟨(this.2.1 rfl).2, (this.2.1 rfl).1⟩
  | panic => exact ⟨(this.2.2 rfl rfl).2, (this.2.2 rfl rfl).1⟩

theorem cleanReturn_of {α : Type} {m : RM α} (h : Tidy false [] m) : Spec.CleanReturn m := by
  intro s hp
  have := h s s.held (.refl _) (fun x hx => nomatch hx)
  unfold Spec.Clean
  revert this hp
  rcases m s with ⟨o, s'⟩
  intro hp this
  cases o with
  | ok a => exact ⟨(this.1 a rfl).2, (this.1 a rfl).1⟩
  | err => exact ⟨(this.2.1 rfl).2, (this.2.1 rfl).1⟩
  | panic => exact absurd rfl hp

/-- C83: Insert, Update, Delete, Upsert and UnsafeInsert are clean for any number of rows, chunks and indexes, with an
own batch or the caller's, whatever fails and whichever user function panics. -/
theorem C83_writes (ext : Option Res) (nIdx : Nat) (chunks : List Nat) (rows : Nat) :
    Spec.CleanAlways ext (insertR ext nIdx chunks) ∧ Spec.CleanAlways ext (updateR ext nIdx chunks) ∧
    Spec.CleanAlways ext (deleteR ext nIdx rows) ∧ Spec.CleanAlways ext (upsertR ext nIdx chunks) ∧
    Spec.CleanAlways ext (unsafeInsertR ext nIdx chunks) := by
  have he : ∀ b, ext = some b → b ∈ ext.toList := fun b e => by simp [e]
  exact ⟨cleanAlways_of (.insert he), cleanAlways_of (.update he), cleanAlways_of (.delete he),
    cleanAlways_of (.upsert he), cleanAlways_of (.unsafeInsert he)⟩

/-- an Insert of two rows with one index into the caller's batch; it fails and the caller's batch is what is left -/
example : insertR (some (0, .batch)) 1 [2] ⟨1, [(0, .batch)], false,
      [false, false, false, false, false, false, false, false, true, true]⟩ =
    (.err, ⟨7, [(0, .batch)], false, []⟩) := by decide +kernel

/-- C83: Exist and Get with a point or several points are clean, whatever fails or panics. -/
theorem C83_gets (n : Nat) : Spec.CleanAlways none existApiR ∧ Spec.CleanAlways none getPointR ∧
    Spec.CleanAlways none (getPointsR n) :=
  ⟨cleanAlways_of .existApi, cleanAlways_of .getPoint, cleanAlways_of .getPoints⟩

/-- A callback of a scan that gives back what it takes by the time it returns. -/
abbrev Spec.TidyCallback (cb : CbR) : Prop := Moves.CbTidy [] cb

/-- C83 for scans and queries, part: whenever they return (not: if a user function panics), with success or an error,
they are clean: for primary and secondary indexes, all selectors, both directions, every callback that gives back what
it takes, any number of entries and any block size. -/
theorem C83_scans_partial (sel : RSel) (sels : List RSel) (cb : CbR) (hc : Spec.TidyCallback cb) (reverse : Bool)
    (size inner fuel n : Nat) :
    Spec.CleanReturn (primaryScanR sel cb reverse fuel) ∧
    Spec.CleanReturn (secondaryScanR sel cb reverse size inner fuel) ∧
    Spec.CleanReturn (intersectR fuel sels) ∧ Spec.CleanReturn (queryIntersectR fuel sels n) :=
  ⟨cleanReturn_of (.primaryScan hc), cleanReturn_of (.secondaryScan hc), cleanReturn_of .intersect,
    cleanReturn_of .queryIntersect⟩

/-- the callbacks of queries are such callbacks -/
theorem C83_query_callbacks : Spec.TidyCallback queryCbR ∧ Spec.TidyCallback querySkipCbR :=
  ⟨Moves.queryCb, Moves.querySkipCb⟩

/-- a reverse query by an index with three points, which takes 18 resources -/
example : secondaryScanR (.points 3) queryCbR true 2 4 5 ⟨0, [], false,
    [false, false, false, false, false, false, false, false, true, false, true]⟩ = (.ok (), ⟨18, [], false, []⟩) := by
  decide +kernel

/-- C83 fails for scans if the callback (or a filter of a query) panics: the pebble iterator and the buffers of its
bounds are not given back although the application may go on after a `recover`. -/
theorem C83_scan_refuted_panic :
    ¬ ∀ (sel : RSel) (cb : CbR), Spec.TidyCallback cb → ∀ fuel,
      Spec.CleanAlways none (primaryScanR sel cb false fuel) := by
  intro h
  have h1 := (h .point queryCbR Moves.queryCb 1 ⟨0, [], false, [false, false, false, true, false, false, true, true]⟩
    (fun b e => nomatch e)).1
  have h2 := h1.length_eq
  revert h2
  decide +kernel

/-! ## iterators -/

/-- C83: an iterator made by `Index.Iter`, for any selector, after any sequence of First, Last, Next and Prev: at most
one pebble iterator is open for it, its calls used and closed only what was open, and `Close` gives back everything it
holds, so that what was held before is held again. -/
theorem C83_iterators (sel : RSel) (ops : List CurOp) (s s1 : RSt) (it : RIter)
    (h : openCalls sel ops s = (.ok it, s1)) :
    s1.held.countP (fun r => decide (r.2 = .iter)) ≤ s.held.countP (fun r => decide (r.2 = .iter)) + 1 ∧
    s1.bad = s.bad ∧ (it.close s1).2.held.Perm s.held ∧ (it.close s1).2.bad = s.bad := by
  have h1 := (Moves.openCalls (B := []) (pre := []) sel ops s s.held (.refl _) (fun x hx => nomatch hx)).1 it
    (by rw [h])
  rw [h] at h1
  have h2 := kinds_open (Rets.openCalls (sel := sel) (ops := ops) s it s1 h)
  have hp : s1.held.Perm (it.own ++ s.held) := by simpa using h1.2
  refine ⟨?_, h1.1, ?_⟩
  · rw [hp.countP_eq, List.countP_append]
    unfold openIters at h2
    omega
  · have h3 := Moves.closeIter (pan := true) (B := []) (pre := []) (it := it) s1 s.held (by simpa using hp)
      (fun x hx => nomatch hx)
    revert h3
    rcases it.close s1 with ⟨o, s2⟩
    intro h3
    have h4 : Holds.Now s1 s2 s.held := by
      cases o with
      | ok a => exact h3.1 a rfl
      | err => exact h3.2.1 rfl
      | panic => exact h3.2.2 rfl rfl
    exact ⟨h4.2, h4.1.trans h1.1⟩

/-- three points, First, then Next to the second point: its pebble iterator is open, the earlier ones are closed -/
example : openCalls (.points 3) [.first, .next, .next] ⟨0, [], false,
    [false, false, false, false, false, false, false, false, true, false, false, true, true]⟩ =
    (.ok (.multi 1 (some (8, .iter)) [[(0, .keyBuf), (1, .keyBuf)], [(2, .keyBuf), (3, .keyBuf)],
      [(4, .keyBuf), (5, .keyBuf)]]),
      ⟨9, [(8, .iter), (5, .keyBuf), (4, .keyBuf), (3, .keyBuf), (2, .keyBuf), (1, .keyBuf), (0, .keyBuf)], false, []⟩) := by
  decide +kernel

/-! ## ReIndex -/

/-- C83 for ReIndex, part: if it succeeds, its iterator is closed and the only things not given back are the batches
that were committed because they were full, as many as full blocks of rows: none for tables smaller than one block. -/
theorem C83_reIndex_partial (nIdx size rows : Nat) (hs : 0 < size) (s : RSt)
    (h : (reIndexR nIdx size rows s).1 = .ok ()) :
    ∃ l : List Res, (reIndexR nIdx size rows s).2.held.Perm (l ++ s.held) ∧ l.length = rows / size ∧
      (∀ r ∈ l, r.2 = .batch) ∧ (reIndexR nIdx size rows s).2.bad = s.bad := by
  rcases e : reIndexR nIdx size rows s with ⟨o, s'⟩
  rw [e] at h
  cases h
  obtain ⟨l, h1, h2, h3⟩ := reIndex_ok hs e
  exact ⟨l, h3.2, h1, h2, h3.1⟩

example : reIndexR 1 3 4 ⟨0, [], false, []⟩ = (.ok (), ⟨3, [(1, .batch)], false, []⟩) := by decide +kernel

/-- C83 fails for ReIndex with an error: a row that cannot be deserialized leaves the pebble iterator open. -/
theorem C83_reIndex_refuted : ¬ ∀ nIdx size rows, Spec.CleanReturn (reIndexR nIdx size rows) := by
  intro h
  have h1 := h 1 3 4 ⟨0, [], false, [false, false, true]⟩ (by decide +kernel)
  have h2 := h1.1.length_eq
  revert h2
  decide +kernel

/-! ## UnsafeUpdate -/

/-- C83 for UnsafeUpdate, part: in the caller's batch a successful call is clean. -/
theorem C83_unsafeUpdate_partial (b : Res) (nIdx rows : Nat) (s : RSt) (hb : b ∈ s.held)
    (h : (unsafeUpdateR (some b) nIdx rows s).1 = .ok ()) : Spec.Clean (unsafeUpdateR (some b) nIdx rows) s := by
  unfold Spec.Clean
  rcases e : unsafeUpdateR (some b) nIdx rows s with ⟨o, s'⟩
  rw [e] at h
  cases h
  have := OkMoves.unsafeUpdate (B := [b]) (ext := some b) (fun b' e' => by cases e'; simp) s s.held (.refl _)
    (by intro x hx; rw [List.mem_singleton.1 hx]; exact hb) s' e
  exact ⟨this.2, this.1⟩

/-- C83 fails for UnsafeUpdate without a batch: every successful call leaves its batch unclosed. -/
theorem C83_unsafeUpdate_refuted (nIdx rows : Nat) (s : RSt) (h : (unsafeUpdateR none nIdx rows s).1 = .ok ()) :
    ∃ r : Res, r.2 = .batch ∧ (unsafeUpdateR none nIdx rows s).2.held.Perm (r :: s.held) := by
  rcases e : unsafeUpdateR none nIdx rows s with ⟨o, s'⟩
  rw [e] at h
  cases h
  obtain ⟨r, hr, hn⟩ := OkMoves.unsafeUpdate (B := []) (ext := none) (fun b' e' => nomatch e') s s.held (.refl _)
    (fun _ hx => nomatch hx) s' e
  exact ⟨r, hr, hn.2⟩

example : (unsafeUpdateR none 1 1 ⟨0, [], false, []⟩).1 = .ok () := by decide +kernel

/-- C83 fails for UnsafeUpdate in the caller's batch: if a write fails, the caller's batch is closed under them. -/
theorem C83_unsafeUpdate_refuted_ext : ¬ ∀ b nIdx rows, Spec.CleanAlways (some b) (unsafeUpdateR (some b) nIdx rows) := by
  intro h
  have h1 := (h (0, .batch) 1 1 ⟨1, [(0, .batch)], false, [false, false, false, true]⟩
    (fun b e => by cases e; simp)).1.length_eq
  revert h1
  decide +kernel

end Bond
