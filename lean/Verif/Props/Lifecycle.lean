import Verif.Lifecycle
import Verif.KeyLemmas
/-
C110 (callbacks of Close) and C111 (Compact).
-/
namespace Bond

/-- what `Close` should make callback `id` see: it is called, and finds the database open -/
def Spec.callSeen (beh : Nat → List CloseAct) (id : Nat) : List CloseEv :=
  .called id :: ((beh id).filter (fun a => a == .use)).map (fun _ => .used true)

/-- the callbacks registered by callback `id` -/
def Spec.registers (beh : Nat → List CloseAct) (id : Nat) : List Nat :=
  (beh id).filterMap (fun | .onClose j => some j | _ => none)

theorem closeRun_acts (beh : Nat → List CloseAct) (acts : List CloseAct) (hno : CloseAct.close ∉ acts) (todo : List CloseInstr) (s : CloseSt)
    (ho : s.isOpen = true) (fuel : Nat) :
    closeRun beh (fuel + acts.length) (acts.map .act ++ todo) s =
      closeRun beh fuel todo (CloseSt.mk (s.callbacks ++ acts.filterMap (fun | .onClose j => some j | _ => none)) true
        (s.log ++ (acts.filter (fun a => a == .use)).map (fun _ => .used true))) := by
  induction acts generalizing s with
  | nil => obtain ⟨c, o, l⟩ := s; simp only at ho; subst ho; simp
  | cons a acts ih =>
    have hno' : CloseAct.close ∉ acts := fun h => hno (List.mem_cons_of_mem _ h)
    have e : fuel + (a :: acts).length = (fuel + acts.length) + 1 := by simp; omega
    rw [e, List.map_cons, List.cons_append]
    cases a with
    | use => simp only [closeRun, ho, if_true]; rw [ih hno' _ rfl]; simp
    | onClose j => simp only [closeRun]; rw [ih hno' (CloseSt.mk (s.callbacks ++ [j]) s.isOpen s.log) ho]; simp
    | close => exact absurd (List.mem_cons_self ..) hno

theorem closeRun_calls (beh : Nat → List CloseAct) (ids : List Nat) (hno : ∀ id ∈ ids, CloseAct.close ∉ beh id) (todo : List CloseInstr) (s : CloseSt)
    (ho : s.isOpen = true) (fuel : Nat) :
    closeRun beh (fuel + (ids.map (fun id => (beh id).length + 1)).sum) (ids.map .call ++ todo) s =
      closeRun beh fuel todo (CloseSt.mk (s.callbacks ++ ids.flatMap (Spec.registers beh)) true
        (s.log ++ ids.flatMap (Spec.callSeen beh))) := by
  induction ids generalizing s with
  | nil => obtain ⟨c, o, l⟩ := s; simp only at ho; subst ho; simp
  | cons id ids ih =>
    have e : fuel + ((id :: ids).map (fun id => (beh id).length + 1)).sum =
        (fuel + (ids.map (fun id => (beh id).length + 1)).sum + (beh id).length) + 1 := by simp; omega
    rw [e, List.map_cons, List.cons_append, closeRun, closeRun_acts beh _ (hno id (by simp)) _ (CloseSt.mk s.callbacks s.isOpen (s.log ++ [CloseEv.called id])) ho, ih (fun i hi => hno i (by simp [hi])) _ rfl]
    simp [Spec.callSeen, Spec.registers, List.append_assoc]

/-- C110 when no callback calls `Close` itself: `Close` calls every callback that is registered when it begins, once and in the order of
registration; all of them find the database open; then the store is closed.
Missing for the full C110: callbacks that are registered while `Close` runs are not called (`C110_refuted_late`), a callback that calls
`Close` never returns (`C110_refuted_loop`), and a second `Close` calls the callbacks again (`C110_refuted_twice`). -/
theorem C110_partial (beh : Nat → List CloseAct) (s : CloseSt) (ho : s.isOpen = true) (hno : ∀ id ∈ s.callbacks, CloseAct.close ∉ beh id) :
    ∃ N, ∀ fuel, N ≤ fuel → closeRun beh fuel [.act .close] s =
      some ({ callbacks := s.callbacks ++ s.callbacks.flatMap (Spec.registers beh), isOpen := false,
              log := s.log ++ (s.callbacks.flatMap (Spec.callSeen beh) ++ [.pebbleClosed]) }, true) := by
  refine ⟨(s.callbacks.map (fun id => (beh id).length + 1)).sum + 2, fun fuel hf => ?_⟩
  obtain ⟨k, rfl⟩ : ∃ k, fuel = ((k + 1) + (s.callbacks.map (fun id => (beh id).length + 1)).sum) + 1 :=
    ⟨fuel - 2 - (s.callbacks.map (fun id => (beh id).length + 1)).sum, by omega⟩
  rw [closeRun, closeRun_calls beh _ hno _ _ ho, closeRun]
  simp only [if_true, List.append_assoc]
  cases k <;> rw [closeRun]

/-- two callbacks that use the database, one of them twice -/
example : closeRun (fun id => if id = 1 then [.use, .use] else [.use]) 20 [.act (.onClose 1), .act (.onClose 2), .act .close] ⟨[], true, []⟩ =
    some (⟨[1, 2], false, [.called 1, .used true, .used true, .called 2, .used true, .pebbleClosed]⟩, true) := by decide

/-- C110 is false: a callback that is registered by a callback while the database is closed is never called. -/
theorem C110_refuted_late :
    closeRun (fun id => if id = 1 then [.onClose 2] else [.use]) 20 [.act (.onClose 1), .act .close] ⟨[], true, []⟩ =
      some (⟨[1, 2], false, [.called 1, .pebbleClosed]⟩, true) := by decide

/-- C110 is false: if a callback closes the database, `Close` never returns (the callbacks are called again and again). -/
theorem C110_refuted_loop (fuel : Nat) (todo : List CloseInstr) (log : List CloseEv) :
    closeRun (fun _ => [.close]) fuel (.act .close :: todo) ⟨[1], true, log⟩ = none := by
  induction fuel using Nat.strongRecOn generalizing todo log with
  | _ fuel ih =>
    match fuel with
    | 0 => rfl
    | 1 => rfl
    | fuel + 2 =>
      rw [closeRun]
      simp only [List.map_cons, List.map_nil, List.cons_append, List.nil_append]
      rw [closeRun]
      simp only [List.map_cons, List.map_nil, List.cons_append, List.nil_append]
      exact ih fuel (by omega) _ _

/-- C110 is false: a second `Close` calls the callbacks again, which do not find the database open; it panics, as it does without callbacks. -/
theorem C110_refuted_twice :
    closeRun (fun _ => [.use]) 20 [.act (.onClose 1), .act .close, .act .close] ⟨[], true, []⟩ =
      some (⟨[1], false, [.called 1, .used true, .pebbleClosed, .called 1, .used false]⟩, false) ∧
    closeRun (fun _ => []) 20 [.act .close, .act .close] ⟨[], true, []⟩ = some (⟨[], false, [.pebbleClosed]⟩, false) := by decide

/-- C111 for all tables and indexes except the index 255 of the table 255: `Compact` reaches every row, every index entry and every key of
the user.
Missing for the full C111: that index, see `C111_refuted`. -/
theorem C111_partial (t i : UInt8) (h : ¬ (t = 0xFF ∧ i = 0xFF)) (idx ord pk u : Bytes) :
    inCompact (encodeIndexKey t i idx ord pk) = true ∧ inCompact (dataKey t pk) = true ∧ inCompact (newUserKey u) = true := by
  have hend : compactEnd = [0xFF, 0xFF, 0, 0, 0, 0] := by decide
  have key : ∀ (t i : UInt8) (r : Bytes), ¬ (t = 0xFF ∧ i = 0xFF) → inCompact (t :: i :: r) = true := by
    intro t i r h
    have hle : ∀ c : UInt8, ¬ (0xFF : UInt8) < c := by
      intro c; rw [UInt8.lt_iff_toNat_lt]; have := c.toNat_lt; simp; omega
    have hlt : ∀ c : UInt8, c ≠ 0xFF → c < 0xFF := by
      intro c hc
      rw [UInt8.lt_iff_toNat_lt]
      have h1 : c.toNat ≠ 255 := fun e => hc (UInt8.toNat_inj.1 (by simpa using e))
      have h2 := c.toNat_lt
      show c.toNat < 255
      omega
    unfold inCompact
    rw [hend]
    unfold ble
    simp only [blt]
    rw [if_neg (hle t)]
    by_cases ht : t = 0xFF
    · rw [if_neg (by rw [ht]; exact UInt8.lt_irrefl _), if_neg (hle i), if_pos (hlt i (fun e => h ⟨ht, e⟩))]; rfl
    · rw [if_pos (hlt t ht)]; rfl
  refine ⟨?_, ?_, ?_⟩
  · rw [encodeIndexKey_eq]; exact key t i _ h
  · rw [dataKey_eq]; exact key t 0 _ (fun h => absurd h.2 (by decide))
  · unfold newUserKey
    by_cases hu : u = []
    · rw [keyEncode_prefix _ (by simpa using hu), List.nil_append, keyPrefix_eq]; exact key 0 0xFF _ (by decide)
    · rw [keyEncode_eq _ (by simpa using hu), List.nil_append, encodeIndexKey_eq]; exact key 0 0xFF _ (by decide)

/-- an entry of the last index of table 255 but one, and a row of table 255 -/
example : inCompact (encodeIndexKey 0xFF 0xFE [0xFF, 0xFF] [] [1]) = true ∧ inCompact (dataKey 0xFF [0xFF, 0xFF]) = true := by decide

/-- C111 is false: `Compact` reaches no entry of the index 255 of the table 255. -/
theorem C111_refuted (idx ord pk : Bytes) : inCompact (encodeIndexKey 0xFF 0xFF idx ord pk) = false := by
  have hend : compactEnd = [0xFF, 0xFF] ++ (beBytes 4 0 ++ []) := by decide
  have hlt : blt compactEnd (encodeIndexKey 0xFF 0xFF idx ord pk) = true := by
    rw [hend, encodeIndexKey_eq]
    simp only [List.append_assoc]
    rw [blt_append_left]
    by_cases hz : beBytes 4 0 = beBytes 4 idx.length
    · rw [hz, blt_append_left]
      cases idx with
      | cons => rfl
      | nil => rfl
    · rw [blt_append_same_len (by simp)]
      left
      rw [blt_iff_beNat (by simp)]
      have h1 : beNat (beBytes 4 0) = 0 := by decide
      rw [h1]
      apply Nat.pos_of_ne_zero
      intro h0
      have h2 := beBytes_beNat (beBytes 4 idx.length)
      rw [h0] at h2
      exact hz (by simpa using h2)
  simp [inCompact, ble, hlt]

end Bond
