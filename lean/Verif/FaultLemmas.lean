import Verif.Faults
import Verif.LoopLemmas
/-
Lemmas about reads that fail.
-/
namespace Bond
variable {T F σ : Type}

/-- Every way the callback can end from here reports an error. -/
def Cb.Fails : Cb σ T → Prop
  | .ret _ _ err => err.isSome
  | .get _ k => ∀ r, (k r).Fails

/-- The callback never ends the scan without an error, and once `Get` failed it ends with an error. -/
def Cb.Loud : Cb σ T → Prop
  | .ret _ cont err => cont = true ∨ err.isSome
  | .get _ k => (∀ x, (k (.ok x)).Loud) ∧ ∀ e, (k (.error e)).Fails

theorem Cb.Fails.loud {c : Cb σ T} (h : c.Fails) : c.Loud := by
  induction c with
  | ret s cont err => exact Or.inr h
  | get s k _ => exact ⟨fun x => by rename_i ih; exact ih _ (h _), fun e => h _⟩

theorem Cb.Fails.run {c : Cb σ T} (h : c.Fails) (r : Except Err T) : (c.run r).2.2.isSome := by
  induction c with
  | ret s cont err => exact h
  | get s k ih => exact ih r (h r)

theorem Cb.Loud.run {c : Cb σ T} (h : c.Loud) (r : Except Err T) : (c.run r).2.1 = true ∨ (c.run r).2.2.isSome := by
  induction c with
  | ret s cont err => exact h
  | get s k ih =>
    cases r with
    | ok x => exact ih _ (h.1 x)
    | error e => exact Or.inr ((h.2 e).run _)

/-! ### walks -/

theorem entries_of_closeErr {α : Type} (c : Cut) (l : List α) (h : c.closeErr l = none) : c.entries l = l := by
  cases c with
  | none => rfl
  | some n =>
    simp only [Cut.closeErr] at h
    split at h
    · simp at h
    · exact List.take_of_length_le (by omega)

theorem childrenInOrder_length (parts : List (List (Bytes × Bytes))) (reverse : Bool) :
    (childrenInOrder parts reverse).length = parts.length := by
  unfold childrenInOrder; split <;> simp

theorem childrenInOrder_flatten (parts : List (List (Bytes × Bytes))) (reverse : Bool) :
    (childrenInOrder parts reverse).flatten = walk parts reverse := by
  unfold childrenInOrder walk
  split
  · rw [List.reverse_flatten]
  · rfl

theorem zipIdx_map_entries (ls : List (List (Bytes × Bytes))) (cuts : Nat → Cut) (n : Nat)
    (h : ∀ (i : Nat) (hi : i < ls.length), (cuts (n + i)).entries ls[i] = ls[i]) :
    (ls.zipIdx n).map (fun p => (cuts p.2).entries p.1) = ls := by
  induction ls generalizing n with
  | nil => rfl
  | cons l ls ih =>
    rw [List.zipIdx_cons, List.map_cons]
    congr 1
    · exact h 0 (by simp)
    · apply ih
      intro i hi
      have := h (i + 1) (by simp; omega)
      simpa [Nat.add_assoc, Nat.add_comm 1 i] using this

theorem walkF_of_closeErr (parts : List (List (Bytes × Bytes))) (reverse : Bool) (cuts : Nat → Cut)
    (hc : ∀ i, i + 1 < parts.length → cuts i = none) (h : walkCloseErr parts reverse cuts = none) :
    walkF parts reverse cuts = walk parts reverse := by
  rw [walkF, zipIdx_map_entries, childrenInOrder_flatten]
  intro i hi
  rw [Nat.zero_add]
  rw [childrenInOrder_length] at hi
  by_cases hl : i + 1 < parts.length
  · rw [hc i hl]; rfl
  · have hi' : i = parts.length - 1 := by omega
    apply entries_of_closeErr
    rw [walkCloseErr, List.getLast?_eq_getElem?, childrenInOrder_length, ← hi',
      List.getElem?_eq_getElem (by rw [childrenInOrder_length]; exact hi)] at h
    exact h

/-! ### scans -/

theorem scanPrimaryLoopF_none (t : Table T F) (done : Nat → Bool) (f : σ → Bytes → Cb σ T) (l : List (Bytes × Bytes)) (clock : Nat)
    (s : σ) : t.scanPrimaryLoopF done none f l clock s = t.scanPrimaryLoop done f l clock s := by
  induction l generalizing clock s with
  | nil => rfl
  | cons e l ih =>
    obtain ⟨k, v⟩ := e
    simp only [Table.scanPrimaryLoopF, Table.scanPrimaryLoop, ih]

theorem scanPrimaryLoopF_some (t : Table T F) (done : Nat → Bool) (e : Err) (f : σ → Bytes → Cb σ T) (hf : ∀ s k, (f s k).Loud)
    (l : List (Bytes × Bytes)) (clock : Nat) (s : σ) : (t.scanPrimaryLoopF done (some e) f l clock s).err.isSome := by
  induction l generalizing clock s with
  | nil => rfl
  | cons e l ih =>
    obtain ⟨k, v⟩ := e
    rw [Table.scanPrimaryLoopF]
    split
    · rfl
    · have hl := (hf s k).run (t.decode v)
      generalize (f s k).run (t.decode v) = out at hl
      obtain ⟨s', cont, err⟩ := out
      simp only at hl ⊢
      split
      · rename_i hc
        rcases hl with h | h
        · simpa [h] using hc
        · exact h
      · exact ih _ _

theorem runOuterF_loud (t : Table T F) (env : Env T) (filt : F) (bad : PSt → Bool) (view : σ → KV × Option Batch) (p : PSt)
    (c : Cb σ T) (hc : c.Loud) {p' s' cont err} (h : t.runOuterF env filt bad view p c = some (p', s', cont, err)) :
    cont = true ∨ err.isSome := by
  induction c generalizing p with
  | ret s cont' err' =>
    simp only [Table.runOuterF, Option.some.injEq, Prod.mk.injEq] at h
    obtain ⟨_, _, rfl, rfl⟩ := h
    exact hc
  | get s k ih =>
    rw [Table.runOuterF] at h
    cases hp : t.prefetchAndGetValueF env filt bad (view s).1 (view s).2 p with
    | none => simp [hp] at h
    | some o =>
      simp only [hp] at h
      cases hr : o.2 with
      | ok x => rw [hr] at h; exact ih _ _ (hc.1 x) h
      | error e => rw [hr] at h; exact ih _ _ (hc.2 e).loud h

theorem runOuterF_fails (t : Table T F) (env : Env T) (filt : F) (bad : PSt → Bool) (view : σ → KV × Option Batch) (p : PSt)
    (c : Cb σ T) (hc : c.Fails) {p' s' cont err} (h : t.runOuterF env filt bad view p c = some (p', s', cont, err)) :
    err.isSome := by
  induction c generalizing p with
  | ret s cont' err' =>
    simp only [Table.runOuterF, Option.some.injEq, Prod.mk.injEq] at h
    obtain ⟨_, _, _, rfl⟩ := h
    exact hc
  | get s k ih =>
    rw [Table.runOuterF] at h
    cases hp : t.prefetchAndGetValueF env filt bad (view s).1 (view s).2 p with
    | none => simp [hp] at h
    | some o => simp only [hp] at h; exact ih _ _ (hc _) h

theorem runOuterF_same (t : Table T F) (env : Env T) (filt : F) (bad : PSt → Bool) (view : σ → KV × Option Batch) (p : PSt)
    (c : Cb σ T) (hc : c.Loud) {p' s' cont} (h : t.runOuterF env filt bad view p c = some (p', s', cont, none)) :
    t.runOuter env filt view p c = some (p', s', cont, none) := by
  induction c generalizing p with
  | ret s cont' err' => exact h
  | get s k ih =>
    rw [Table.runOuterF] at h
    rw [Table.runOuter]
    unfold Table.prefetchAndGetValueF at h
    by_cases hb : bad p = true
    · simp only [hb, if_true] at h
      cases hk : t.collectKeys p.rest p.keys p.indexKeys with
      | none => simp [hk] at h
      | some o =>
        simp only [hk] at h
        have := runOuterF_fails t env filt bad view _ _ (hc.2 .notFound) h
        simp at this
    · simp only [hb, Bool.false_eq_true, if_false] at h
      cases hp : t.prefetchAndGetValue env filt (view s).1 (view s).2 p with
      | none => simp [hp] at h
      | some o =>
        simp only [hp] at h ⊢
        cases hr : o.2 with
        | ok x => rw [hr] at h; exact ih _ _ (hc.1 x) h
        | error e =>
          rw [hr] at h
          have := runOuterF_fails t env filt bad view _ _ (hc.2 e) h
          simp at this

theorem runOuterF_good (t : Table T F) (env : Env T) (filt : F) (bad : PSt → Bool) (view : σ → KV × Option Batch) (p : PSt)
    (hb : ∀ p, bad p = false) (c : Cb σ T) : t.runOuterF env filt bad view p c = t.runOuter env filt view p c := by
  induction c generalizing p with
  | ret s cont' err' => rfl
  | get s k ih =>
    simp only [Table.runOuterF, Table.runOuter, Table.prefetchAndGetValueF, hb, Bool.false_eq_true, if_false]
    cases t.prefetchAndGetValue env filt (view s).1 (view s).2 p with
    | none => rfl
    | some o => exact ih _ _

theorem runInner_loud (t : Table T F) (p : PSt) (c : Cb σ T) (hc : c.Loud) {p' s' cont err}
    (h : t.runInner p c = some (p', s', cont, err)) : cont = true ∨ err.isSome := by
  induction c generalizing p with
  | ret s cont' err' =>
    simp only [Table.runInner, Option.some.injEq, Prod.mk.injEq] at h
    obtain ⟨_, _, rfl, rfl⟩ := h
    exact hc
  | get s k ih =>
    rw [Table.runInner] at h
    cases hp : t.getPrefetchedValue p with
    | none => simp [hp] at h
    | some o =>
      simp only [hp] at h
      cases hr : o.2 with
      | ok x => rw [hr] at h; exact ih _ _ (hc.1 x) h
      | error e => rw [hr] at h; exact ih _ _ (hc.2 e).loud h

theorem innerLoop_loud (t : Table T F) (f : σ → Bytes → Cb σ T) (hf : ∀ s k, (f s k).Loud) (fuel : Nat) (p : PSt) (s : σ)
    {o : ScanOut σ} (h : t.innerLoop f fuel p s = .stop o) : o.err.isSome := by
  induction fuel generalizing p s with
  | zero => rw [Table.innerLoop] at h; split at h <;> simp at h
  | succ fuel ih =>
    rw [Table.innerLoop] at h
    split at h
    · cases hk : p.indexKeys[p.vidx]? with
      | none => simp only [hk, LoopRes.stop.injEq] at h; subst h; rfl
      | some k =>
        simp only [hk] at h
        cases hr : t.runInner p (f s k) with
        | none => simp only [hr, LoopRes.stop.injEq] at h; subst h; rfl
        | some out =>
          obtain ⟨p', s', cont, err⟩ := out
          simp only [hr] at h
          have hl := runInner_loud t p _ (hf s k) hr
          split at h
          · rename_i hc
            simp only [LoopRes.stop.injEq] at h; subst h
            rcases hl with h | h
            · simpa [h] using hc
            · exact h
          · exact ih _ _ h
    · simp at h

theorem outerLoopF_some (t : Table T F) (env : Env T) (filt : F) (bad : PSt → Bool) (e : Err) (view : σ → KV × Option Batch)
    (f : σ → Bytes → Cb σ T) (hf : ∀ s k, (f s k).Loud) (innerFuel fuel clock : Nat) (p : PSt) (s : σ) {o : ScanOut σ}
    (h : t.outerLoopF env filt bad (some e) view f innerFuel fuel clock p s = some o) : o.err.isSome := by
  induction fuel generalizing clock p s with
  | zero =>
    rw [Table.outerLoopF] at h
    split at h
    · simp only [Option.some.injEq] at h; subst h; rfl
    · simp at h
  | succ fuel ih =>
    rw [Table.outerLoopF] at h
    cases hr : p.rest with
    | nil => simp only [hr, Option.some.injEq] at h; subst h; rfl
    | cons en rest =>
      simp only [hr] at h
      split at h
      · simp only [Option.some.injEq] at h; subst h; rfl
      · cases ho : t.runOuterF env filt bad view p (f s en.1) with
        | none => simp only [ho, Option.some.injEq] at h; subst h; rfl
        | some out =>
          obtain ⟨p', s', cont, err⟩ := out
          simp only [ho] at h
          have hl := runOuterF_loud t env filt bad view p _ (hf s en.1) ho
          split at h
          · rename_i hc
            simp only [Option.some.injEq] at h; subst h
            rcases hl with h | h
            · simpa [h] using hc
            · exact h
          · cases hi : t.innerLoop f innerFuel p' s' with
            | running => simp [hi] at h
            | stop o' =>
              simp only [hi, Option.some.injEq] at h; subst h
              exact innerLoop_loud t f hf _ _ _ hi
            | go b => simp only [hi] at h; exact ih _ _ _ h

theorem outerLoopF_same (t : Table T F) (env : Env T) (filt : F) (bad : PSt → Bool) (view : σ → KV × Option Batch)
    (f : σ → Bytes → Cb σ T) (hf : ∀ s k, (f s k).Loud) (innerFuel fuel clock : Nat) (p : PSt) (s s1 : σ)
    (h : t.outerLoopF env filt bad none view f innerFuel fuel clock p s = some ⟨s1, none⟩) :
    t.outerLoop env filt view f innerFuel fuel clock p s = some ⟨s1, none⟩ := by
  induction fuel generalizing clock p s with
  | zero => exact h
  | succ fuel ih =>
    rw [Table.outerLoopF] at h
    rw [Table.outerLoop]
    cases hr : p.rest with
    | nil => simp only [hr] at h ⊢; exact h
    | cons en rest =>
      simp only [hr] at h ⊢
      split at h
      · simp at h
      · rename_i hd
        rw [if_neg hd]
        cases ho : t.runOuterF env filt bad view p (f s en.1) with
        | none => simp [ho] at h
        | some out =>
          obtain ⟨p', s', cont, err⟩ := out
          simp only [ho] at h
          have hl := runOuterF_loud t env filt bad view p _ (hf s en.1) ho
          split at h
          · rename_i hc
            simp only [Option.some.injEq, ScanOut.mk.injEq] at h
            rw [h.2] at hl hc
            simp at hl
            simp [hl] at hc
          · rename_i hc
            simp only [Bool.or_eq_true, Bool.not_eq_true', not_or, Bool.not_eq_true, Option.isSome_eq_false_iff,
              Option.isNone_iff_eq_none] at hc
            obtain ⟨_, rfl⟩ := hc
            rw [runOuterF_same t env filt bad view p _ (hf s en.1) ho]
            have hcont : cont = true := by simpa using hl
            subst hcont
            simp only [Bool.not_true, Option.isSome_none, Bool.or_self, Bool.false_eq_true, if_false]
            cases hi : t.innerLoop f innerFuel p' s' with
            | running => simp [hi] at h
            | stop o' =>
              simp only [hi, Option.some.injEq] at h ⊢
              exact h
            | go b => simp only [hi] at h ⊢; exact ih _ _ _ h

/-! ### writes -/

theorem forChunks_sameF {α β : Type} (f g : List β → α → α × Option Err) (h : ∀ c s, (f c s).2 = none → f c s = g c s)
    (cs : List (List β)) (s : α) (hn : (forChunks f cs s).2 = none) : forChunks f cs s = forChunks g cs s := by
  induction cs generalizing s with
  | nil => rfl
  | cons c cs ih =>
    rw [forChunks] at hn
    rw [forChunks, forChunks]
    have hcs := h c s
    generalize f c s = r at hn hcs ⊢
    obtain ⟨s', e⟩ := r
    cases e with
    | none => rw [← hcs rfl]; exact ih _ hn
    | some e => simp at hn

theorem finish_none {env : Env T} {db : KV} {ob : Option Batch} {r : WSt T F × Option Err} (h : (finish env db ob r).err = none) :
    r.2 = none := by
  unfold finish at h
  cases ob with
  | some b => exact h
  | none =>
    cases hr : r.2 with
    | none => rfl
    | some e => simp [hr] at h

theorem updateLoopF_same (t : Table T F) (env : Env T) (bad : Nat → Bool) (entries : List (Bytes × Bytes)) (trs : List T)
    (l : List (Bytes × Nat)) (s : WSt T F) (h : (t.updateLoopF env bad entries trs l s).2 = none) :
    t.updateLoopF env bad entries trs l s = t.updateLoop env entries trs l s := by
  induction l generalizing s with
  | nil => rfl
  | cons e l ih =>
    obtain ⟨key, j⟩ := e
    rw [Table.updateLoopF] at h
    rw [Table.updateLoopF, Table.updateLoop]
    split at h
    · simp at h
    · rename_i hd
      rw [if_neg hd, if_neg hd]
      split at h
      · rename_i hk
        rw [if_pos hk, if_pos hk]; exact ih _ h
      · rename_i hk
        rw [if_neg hk, if_neg hk]
        by_cases hb : bad s.clock = true
        · simp [hb, seekExact, seekGE] at h
        · simp only [hb, Bool.false_eq_true, if_false] at h ⊢
          cases hs : seekExact entries key with
          | none => simp [hs] at h
          | some v =>
            simp only [hs] at h ⊢
            cases hde : t.deser s.oldTr v with
            | none => simp [hde] at h
            | some old =>
              simp only [hde] at h ⊢
              cases hj : trs[j]? with
              | none => simp [hj] at h
              | some tr =>
                simp only [hj] at h ⊢
                cases hse : t.ser tr with
                | none => simp [hse] at h
                | some data => simp only [hse] at h ⊢; exact ih _ h

theorem existIter_nil (t : Table T F) (f : F) (key : Bytes) : t.existIter f [] key = none := by
  unfold Table.existIter
  cases t.filter with
  | none => rfl
  | some fl => simp only; split <;> rfl

theorem insertLoopF_same (t : Table T F) (env : Env T) (bad : Nat → Bool) (entries : List (Bytes × Bytes)) (trs : List T)
    (prev : Option Bytes) (l : List (Bytes × Nat)) (s : WSt T F) (h : (t.insertLoop env entries trs prev l s).2 = none) :
    t.insertLoop env entries trs prev l s = t.insertLoopF env bad entries trs prev l s := by
  induction l generalizing prev s with
  | nil => rfl
  | cons e l ih =>
    obtain ⟨key, j⟩ := e
    rw [Table.insertLoop] at h
    rw [Table.insertLoopF, Table.insertLoop]
    split at h
    · simp at h
    · rename_i hd
      rw [if_neg hd, if_neg hd]
      split at h
      · simp at h
      · rename_i hk
        rw [if_neg hk, if_neg (by
          intro h'
          apply hk
          rcases h' with h' | h'
          · exact Or.inl h'
          · right
            by_cases hb : bad s.clock = true
            · simp [hb, existIter_nil] at h'
            · simpa [hb] using h')]
        cases hj : trs[j]? with
        | none => simp [hj] at h
        | some tr =>
          simp only [hj] at h ⊢
          cases hse : t.ser tr with
          | none => simp [hse] at h
          | some data => simp only [hse] at h ⊢; exact ih _ _ h

theorem upsertDup_mem (oc : Table.OnConflict T) (trs : List T) (key : Bytes) (l : List (Bytes × Nat)) (i : Nat) (tr old : T)
    {l' i' tr' old'} (h : Table.upsertDup oc trs key l i tr old = some (l', i', tr', old')) : ∀ e ∈ l', e ∈ l := by
  induction l generalizing i tr old with
  | nil =>
    simp only [Table.upsertDup, Option.some.injEq, Prod.mk.injEq] at h
    intro e he; rw [← h.1] at he; exact he
  | cons e l ih =>
    obtain ⟨key', j'⟩ := e
    rw [Table.upsertDup] at h
    split at h
    · cases hx : trs[i + 1]? with
      | none => simp [hx] at h
      | some x =>
        simp only [hx] at h
        intro e he
        exact List.mem_cons_of_mem _ (ih _ _ _ h e he)
    · simp only [Option.some.injEq, Prod.mk.injEq] at h
      intro e he; rw [← h.1] at he; exact he

theorem existIter_none_of (t : Table T F) (f : F) {entries : List (Bytes × Bytes)} {key : Bytes} (h : seekExact entries key = none) :
    t.existIter f entries key = none := by
  unfold Table.existIter
  cases t.filter with
  | none => exact h
  | some fl => simp only; split; rfl; exact h

theorem upsertLoopF_same (t : Table T F) (env : Env T) (bad : Nat → Bool) (oc : Table.OnConflict T) (entries : List (Bytes × Bytes))
    (trs : List T) (fuel i : Nat) (l : List (Bytes × Nat)) (s : WSt T F) (h : ∀ e ∈ l, seekExact entries e.1 = none) :
    t.upsertLoopF env bad oc entries trs fuel i l s = t.upsertLoop env oc entries trs fuel i l s := by
  induction fuel generalizing i l s with
  | zero => rfl
  | succ fuel ih =>
    cases l with
    | nil => rfl
    | cons e l =>
      obtain ⟨key, j⟩ := e
      rw [Table.upsertLoopF, Table.upsertLoop]
      cases hj : trs[j]? with
      | none => rfl
      | some tr =>
        simp only
        split
        · rfl
        · have h1 : t.existIter s.filt entries key = none := existIter_none_of t s.filt (h _ (List.mem_cons_self ..))
          have h2 : t.existIter s.filt (if bad s.clock = true then [] else entries) key = none := by
            split
            · exact existIter_nil t s.filt key
            · exact h1
          simp only [h1, h2]
          cases hu : Table.upsertDup oc trs key l i tr s.oldTr with
          | none => rfl
          | some o =>
            obtain ⟨l', i', tr', old'⟩ := o
            simp only
            cases t.ser tr' with
            | none => rfl
            | some data =>
              simp only
              exact ih _ _ _ (fun e he => h e (List.mem_cons_of_mem _ (upsertDup_mem oc trs key l i tr s.oldTr hu e he)))

end Bond
