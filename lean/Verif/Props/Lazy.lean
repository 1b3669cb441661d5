import Verif.Props.Served
/-
C115: what `lazy.Get` returns.
-/
namespace Bond
open Spec
variable {T F σ : Type}

/-- the callback with a log of what its calls of `Get` return, each with the key of the call of the callback -/
def Spec.loggedCb (k : Bytes) : List (Bytes × Except Err T) → Cb σ T → Cb (σ × List (Bytes × Except Err T)) T
  | log, .ret s c e => .ret (s, log) c e
  | log, .get s g => .get (s, log) (fun r => loggedCb k (log ++ [(k, r)]) (g r))

/-- the same for a callback that keeps state -/
def Spec.logged (f : σ → Bytes → Cb σ T) (st : σ × List (Bytes × Except Err T)) (k : Bytes) : Cb (σ × List (Bytes × Except Err T)) T :=
  loggedCb k st.2 (f st.1 k)

theorem loggedCb_noGet {k : Bytes} {log : List (Bytes × Except Err T)} {c : Cb σ T} (h : c.noGet) : (loggedCb k log c).noGet := by
  obtain ⟨s, co, e, rfl⟩ := h
  exact ⟨_, _, _, rfl⟩

theorem logged_once {f : σ → Bytes → Cb σ T} (h : AtMostOnce f) : AtMostOnce (logged f) := by
  intro st k
  rcases h st.1 k with h | ⟨s, g, he, hg⟩
  · exact Or.inl (loggedCb_noGet h)
  · refine Or.inr ⟨(st.1 |> fun _ => s, st.2), fun r => loggedCb k (st.2 ++ [(k, r)]) (g r), ?_, fun r => loggedCb_noGet (hg r)⟩
    unfold logged
    rw [he]
    rfl

/-- running the callback with one answer logs this answer only -/
theorem loggedCb_run (k : Bytes) (r : Except Err T) (c : Cb σ T) (log : List (Bytes × Except Err T)) :
    ∀ e ∈ ((loggedCb k log c).run r).1.2, e ∈ log ∨ e = (k, r) := by
  induction c generalizing log with
  | ret s co e => intro e he; exact Or.inl he
  | get s g ih =>
    intro e he
    rcases ih r (log ++ [(k, r)]) e he with h | h
    · rcases List.mem_append.1 h with h | h
      · exact Or.inl h
      · exact Or.inr (List.mem_singleton.1 h)
    · exact Or.inr h

theorem runRows_logged (f : σ → Bytes → Cb σ T) {P : Bytes × Except Err T → Prop} (rows : List (Bytes × T)) (hr : ∀ r ∈ rows, P (r.1, .ok r.2))
    (st : σ × List (Bytes × Except Err T)) (h : ∀ e ∈ st.2, P e) : ∀ e ∈ (runRows (logged f) rows st).s.2, P e := by
  induction rows generalizing st with
  | nil => exact h
  | cons r rows ih =>
    obtain ⟨k, x⟩ := r
    have hl : ∀ e ∈ ((logged f st k).run (.ok x)).1.2, P e := by
      intro e he
      rcases loggedCb_run k (.ok x) (f st.1 k) st.2 e he with h' | rfl
      · exact h e h'
      · exact hr (k, x) (by simp)
    rw [runRows]
    generalize (logged f st k).run (.ok x) = out at hl
    obtain ⟨s', c, e⟩ := out
    simp only at hl ⊢
    split
    · exact hl
    · exact ih (fun r hr' => hr r (by simp [hr'])) _ hl

theorem served_logged (f : σ → Bytes → Cb σ T) {P : Bytes × Except Err T → Prop} {n left : Nat} {rows : List (Bytes × T)}
    {st : σ × List (Bytes × Except Err T)} {o : ScanOut (σ × List (Bytes × Except Err T))} (h : Served (logged f) n left rows st o)
    (hr : ∀ r ∈ rows, P (r.1, .ok r.2)) (hst : ∀ e ∈ st.2, P e) : ∀ e ∈ o.s.2, P e := by
  have hl : ∀ (st : σ × List (Bytes × Except Err T)) (k : Bytes) (x : T), P (k, .ok x) → (∀ e ∈ st.2, P e) →
      ∀ e ∈ ((logged f st k).run (.ok x)).1.2, P e := by
    intro st k x hp hst e he
    rcases loggedCb_run k (.ok x) (f st.1 k) st.2 e he with h' | rfl
    · exact hst e h'
    · exact hp
  induction h with
  | done => exact hst
  | stop h => exact hl _ _ _ (hr (_, _) List.mem_cons_self) hst
  | fetch h hg _ ih => exact ih (fun r hr' => hr r (by simp [hr'])) (hl _ _ _ (hr (_, _) List.mem_cons_self) hst)
  | pass h hg _ ih => exact ih (fun r hr' => hr r (by simp [hr'])) (hl _ _ _ (hr (_, _) List.mem_cons_self) hst)
  | again h hg _ ih => exact ih hr (hl _ _ _ (hr (_, _) List.mem_cons_self) hst)

/-- C115: whatever the callback does, if it calls `Get` at most once per call, or the scan is one of the primary index, every `Get` returns,
without error, the stored row whose index key is the key that the callback was given.
Missing for the full C115: scans of other indexes with callbacks that call `Get` again in the same call, see `C115_refuted_next`. -/
theorem C115_partial {t : Table T F} {env : Env T} {filt : F} {db : KV} {ob : Option Batch} {m : Rows T}
    (S : Setting t env filt db ob m) {idx : Index T} (hi : IsIndex t idx) {sel : Selector T} (hs : sel.OK idx) (reverse : Bool)
    {f : σ → Bytes → Cb σ T} (hf : idx = t.primaryIndex ∨ AtMostOnce f) (s : σ) (fuel : Nat) {o : ScanOut (σ × List (Bytes × Except Err T))}
    (h : t.scanIndexForEach env filt (fun _ => (db, ob)) idx sel (logged f) reverse fuel (s, []) = some o) :
    ∀ k r, (k, r) ∈ o.s.2 → ∃ x, m (t.pk x) = some x ∧ idx.filter x = true ∧ t.indexKey idx x = k ∧ r = .ok x := by
  obtain ⟨parts, h1, h2, h3⟩ := S.parts hi hs
  have hrows : ∀ r ∈ seen t idx (dir reverse parts.flatten),
      ∃ x, m (t.pk x) = some x ∧ idx.filter x = true ∧ t.indexKey idx x = r.1 ∧ (.ok r.2 : Except Err T) = .ok x := by
    intro r hr
    obtain ⟨x, hx, rfl⟩ := List.mem_map.1 hr
    obtain ⟨hm, hfi⟩ := h1.indexed x ((mem_dir _ _ _).1 hx)
    exact ⟨x, hm, hfi, rfl, rfl⟩
  intro k r hkr
  by_cases hp : idx = t.primaryIndex
  · have hid : idx.id = primaryIndexID := by rw [hp]; rfl
    obtain ⟨N, hN⟩ := h3 reverse (logged f) (fun _ => True) (Or.inl hid)
    have hind : t.scanIndexForEach env filt (fun _ => (db, ob)) idx sel (logged f) reverse fuel (s, []) =
        t.scanIndexForEach env filt (fun _ => (db, ob)) idx sel (logged f) reverse N (s, []) := by
      simp only [Table.scanIndexForEach, if_pos hid]
    rw [hind, hN N (Nat.le_refl _)] at h
    cases h
    exact runRows_logged f (P := fun e => ∃ x, m (t.pk x) = some x ∧ idx.filter x = true ∧ t.indexKey idx x = e.1 ∧ e.2 = .ok x)
      _ hrows (s, []) (by simp) (k, r) hkr
  · have hin : idx ∈ t.indexes := by rcases hi with h | h; exact h; exact absurd h hp
    have hone : AtMostOnce f := by rcases hf with h | h; exact absurd h hp; exact h
    obtain ⟨rows, hy, hex⟩ := C35_exact S hin hs reverse (logged_once hone)
    have hrr : rows = dir reverse parts.flatten := by
      obtain ⟨N, hN⟩ := hy
      obtain ⟨M, hM⟩ := h2 reverse
      have e1 := hN (max N M) (Nat.le_max_left _ _) []
      have e2 := hM (max N M) (Nat.le_max_right _ _) []
      rw [e1] at e2
      simpa using e2
    subst hrr
    exact served_logged f (P := fun e => ∃ x, m (t.pk x) = some x ∧ idx.filter x = true ∧ t.indexKey idx x = e.1 ∧ e.2 = .ok x)
      (((hex (s, []) o).1).1 ⟨fuel, h⟩) hrows (by simp) (k, r) hkr

/-- a callback that calls `Get` twice in every call and goes on -/
def twiceCb (s : Unit) (_ : Bytes) : Cb Unit Rec := .get s (fun _ => .get s (fun _ => .ret s true none))

/-- a callback that calls `Get` twice for the first row and once for the others -/
def firstTwiceCb (first : Bool) (_ : Bytes) : Cb Bool Rec :=
  if first then .get true (fun _ => .get true (fun _ => .ret false true none)) else .get false (fun _ => .ret false true none)

/-- what a scan of the test table logs, and its error -/
def exLog (db : KV) (idx : Index Rec) (sel : Selector Rec) (f : σ → Bytes → Cb σ Rec) (s : σ) : Option (List (Bytes × Option Rec) × Option Err) :=
  (exTable.scanIndexForEach (stdEnv exTable) () (fun _ => (db, none)) idx sel (logged f) false 9 (s, [])).map
    (fun o => (o.s.2.map (fun e => (e.1, e.2.toOption)), o.err))

/-- the theorem at a scan of the primary index with two calls of `Get` for every row, and at one of another index with one call or none -/
example (o : ScanOut (Unit × List (Bytes × Except Err Rec))) := C115_partial exSetting (Or.inr rfl) (sel := .range (0, 0) (9, 0))
  (by exact ⟨by simp [Selector.elems], by simp [Table.primaryIndex]⟩) false (f := twiceCb) (Or.inl rfl) () 9 (o := o)
example (o : ScanOut ((Nat × List (Bytes ⊕ Rec)) × List (Bytes × Except Err Rec))) :=
  C115_partial exSetting exIndex_is exRange_ok true (Or.inr everyOtherCb_once) (0, []) 9 (o := o)

/-- two `Get`s for each of two rows of the primary index, and a `Get` for every other call on the other index -/
example : exLog exDB exTable.primaryIndex (.range (0, 0) (9, 0)) twiceCb () =
      some ([(exTable.key (1, 5), some (1, 5)), (exTable.key (1, 5), some (1, 5)), (exTable.key (2, 6), some (2, 6)), (exTable.key (2, 6), some (2, 6))], none) ∧
    exLog exDB exIndex (.range (0, 0) (9, 9)) everyOtherCb (0, []) =
      some ([(exTable.indexKey exIndex (1, 5), some (1, 5)), (exTable.indexKey exIndex (2, 6), some (2, 6))], none) := by
  exact ⟨by decide +kernel, by decide +kernel⟩

/-- C115 is false for scans of an index: the second `Get` for the first row returns the record of the second row, the callback is never
called for the second row, and the scan ends without an error. -/
theorem C115_refuted_next : exLog exDB exIndex (.range (0, 0) (9, 9)) twiceCb () =
    some ([(exTable.indexKey exIndex (1, 5), some (1, 5)), (exTable.indexKey exIndex (1, 5), some (2, 6))], none) := by
  decide +kernel

/-- three rows whose order in the index is the opposite of the order of their keys -/
def crossDB : KV := (exTable.insert (stdEnv exTable) KV.empty () none [(1, 7), (2, 6), (3, 5)]).db

/-- C115 is false for later calls too, although they call `Get` once: after two `Get`s for the first row, the callback is called with the key of
row 1 and gets the record of row 3. The keys of the block were sorted in place by the first `Get`, so the second one reads the records in the order of
the keys, while the callback is called in the order of the index. Row 1 is never returned; the scan ends without an error. -/
theorem C115_refuted_later : exLog crossDB exIndex (.range (0, 0) (9, 9)) firstTwiceCb true =
    some ([(exTable.indexKey exIndex (3, 5), some (3, 5)), (exTable.indexKey exIndex (3, 5), some (2, 6)),
      (exTable.indexKey exIndex (1, 7), some (3, 5))], none) := by
  decide +kernel

/-- If there is one row, or as many as ScanPrefetchSize, the second `Get` panics. -/
theorem C115_refuted_panic : exLog exDB exIndex (.point (0, 5)) twiceCb () = some ([], some .panic) ∧
    ({ exTable with prefetch := 2 }.scanIndexForEach (stdEnv exTable) () (fun _ => (exDB, none)) exIndex (.range (0, 0) (9, 9)) twiceCb false 9 ()) =
      some ⟨(), some .panic⟩ := by
  decide +kernel

end Bond
