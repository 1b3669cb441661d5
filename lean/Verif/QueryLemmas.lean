import Verif.Spec.Queries
import Verif.ScanLemmas
/-
Lemmas about queries.
-/
namespace Bond
open Spec
variable {T F σ : Type}

theorem keyDecode_index (t i : UInt8) (idx ord pk : Bytes) (h1 : idx.length < 2 ^ 32) (h2 : ord.length < 2 ^ 32) :
    keyDecode (encodeIndexKey t i idx ord pk) = some ⟨t, i, idx, ord, pk⟩ := by
  rw [encodeIndexKey_eq]
  unfold keyDecode
  have hl : ([t, i] ++ beBytes 4 idx.length ++ idx ++ beBytes 4 ord.length ++ ord ++ pk : Bytes).length =
      10 + idx.length + ord.length + pk.length := by
    simp; omega
  rw [hl]
  simp only [List.append_assoc]
  have r1 : ∀ s : Bytes, readN 1 ([t, i] ++ s) = ([t], i :: s) := by
    intro s; exact readN_append 1 [t] (i :: s) rfl
  have r2 : ∀ s : Bytes, readN 1 (i :: s) = ([i], s) := by
    intro s; exact readN_append 1 [i] s rfl
  simp only [r1, r2, readN_append 4 (beBytes 4 _) _ (beBytes_length 4 _), beNat_beBytes4 h1,
    readN_append idx.length idx _ rfl, beNat_beBytes4 h2, readN_append ord.length ord _ rfl]
  rw [if_neg (by omega)]
  have e : (((10 + idx.length + ord.length + pk.length : Nat) : Int) - idx.length - ord.length - 10).toNat = pk.length := by omega
  rw [e]
  have := readN_append pk.length pk [] rfl
  rw [List.append_nil] at this
  rw [this]
  simp

theorem keyDecode_indexKey {t : Table T F} (wf : t.WF) {idx : Index T} (hi : IsIndex t idx) (x : T) :
    keyDecode (t.indexKey idx x) = some ⟨t.id, idx.id, idx.key x, idx.ord x, t.pk x⟩ :=
  keyDecode_index _ _ _ _ _ (hi.klen wf x) (hi.olen wf x)

theorem filter_all (q : Query T) (x : T) : (q.filter.all (· x)) = accepts q x := by
  unfold accepts; cases q.filter <;> rfl

/-! ### the callback fetches all rows after the skipped ones -/

/-- the callback no longer skips -/
def Query.fetching (q : Query T) (s : QSt T) : Prop :=
  (q.after.isNone = true ∨ q.less.isSome = true ∨ s.skippedFirstRow = true) ∧
  (q.filter.isSome = true ∨ q.less.isSome = true ∨ q.offset.toNat ≤ s.count)

theorem body_get {q : Query T} {s : QSt T} (h : ¬ (q.filter.isNone ∧ q.less.isNone ∧ s.count < q.offset.toNat)) :
    (q.body s).oneGet := by
  unfold Query.body
  rw [if_neg h]
  refine ⟨_, _, rfl, ?_⟩
  intro r
  cases r with
  | error e => exact ⟨_, _, _, rfl⟩
  | ok x =>
    simp only
    split
    · exact ⟨_, _, _, rfl⟩
    · exact ⟨_, _, _, rfl⟩

theorem body_cases (q : Query T) (s : QSt T) : (q.body s).noGet ∨ (q.body s).oneGet := by
  by_cases h : q.filter.isNone ∧ q.less.isNone ∧ s.count < q.offset.toNat
  · left; unfold Query.body; rw [if_pos h]; exact ⟨_, _, _, rfl⟩
  · exact Or.inr (body_get h)

theorem not_both {c : Cb σ T} (h1 : c.oneGet) (h2 : c.noGet) : False := by
  obtain ⟨_, _, e1, _⟩ := h1
  obtain ⟨_, _, _, e2⟩ := h2
  rw [e1] at e2; simp at e2

theorem body_stays {q : Query T} {s : QSt T} (r : Except Err T) (h : (q.body s).oneGet)
    (hs : q.after.isNone = true ∨ q.less.isSome = true ∨ s.skippedFirstRow = true)
    : q.fetching ((q.body s).run r).1 := by
  by_cases hc : q.filter.isNone ∧ q.less.isNone ∧ s.count < q.offset.toNat
  · exact (not_both h (by unfold Query.body; rw [if_pos hc]; exact ⟨_, _, _, rfl⟩)).elim
  · have hoff : q.filter.isSome = true ∨ q.less.isSome = true ∨ q.offset.toNat ≤ s.count := by
      cases hf : q.filter <;> cases hl : q.less <;> simp_all
    unfold Query.body
    rw [if_neg hc]
    cases r with
    | error e => exact ⟨hs, hoff⟩
    | ok x =>
      have key : ∀ s' : QSt T, s'.skippedFirstRow = s.skippedFirstRow → s.count ≤ s'.count → q.fetching s' := by
        intro s' h1 h2
        refine ⟨by rw [h1]; exact hs, ?_⟩
        rcases hoff with h | h | h
        · exact Or.inl h
        · exact Or.inr (Or.inl h)
        · exact Or.inr (Or.inr (by omega))
      simp only [Cb.run]
      split <;> (simp only [Cb.run]; apply key <;> split <;> simp)

theorem callback_body {t : Table T F} {q : Query T} {s : QSt T} (key : Bytes)
    (hs : q.after.isNone = true ∨ q.less.isSome = true ∨ s.skippedFirstRow = true) : q.callback t s key = q.body s := by
  unfold Query.callback
  split
  · rfl
  · rename_i a ha
    rw [if_neg]
    rintro ⟨h1, h2⟩
    rcases hs with h | h | h
    · rw [ha] at h; simp at h
    · cases hl : q.less <;> simp_all
    · rw [h2] at h; simp at h

theorem callback_fetches {t : Table T F} (q : Query T) : FetchesAll (q.callback t) q.fetching := by
  have hcases : ∀ s key, q.callback t s key = q.body s ∨
      (∃ s' : QSt T, s'.skippedFirstRow = true ∧ q.callback t s key = q.body s') ∨ (q.callback t s key).noGet := by
    intro s key
    unfold Query.callback
    split
    · exact Or.inl rfl
    · split
      · split
        · split
          · exact Or.inr (Or.inr ⟨_, _, _, rfl⟩)
          · exact Or.inr (Or.inl ⟨_, rfl, rfl⟩)
        · exact Or.inr (Or.inr ⟨_, _, _, rfl⟩)
      · exact Or.inl rfl
  constructor
  · intro s k
    rcases hcases s k with h | ⟨s', _, h⟩ | h
    · rw [h]; exact body_cases q s
    · rw [h]; exact body_cases q s'
    · exact Or.inl h
  · rintro s k ⟨h1, h2⟩
    rw [callback_body k h1]
    apply body_get
    rintro ⟨a, b, c⟩
    rcases h2 with h | h | h
    · cases hf : q.filter <;> simp_all
    · cases hf : q.less <;> simp_all
    · omega
  · intro s k r h hcont
    rcases hcases s k with h' | ⟨s', hs', h'⟩ | h'
    · by_cases hs : q.after.isNone = true ∨ q.less.isSome = true ∨ s.skippedFirstRow = true
      · rw [h'] at h ⊢; exact body_stays r h hs
      · -- then the callback is not `body s` in this way; it must still be fetching
        have hs' : ¬ (q.after.isNone = true) ∧ ¬ (q.less.isSome = true) ∧ s.skippedFirstRow = false := by
          refine ⟨fun x => hs (Or.inl x), fun x => hs (Or.inr (Or.inl x)), ?_⟩
          cases hb : s.skippedFirstRow with
          | false => rfl
          | true => exact absurd (Or.inr (Or.inr hb)) hs
        obtain ⟨a, ha⟩ : ∃ a, q.after = some a := by
          cases hq : q.after with
          | none => rw [hq] at hs'; simp at hs'
          | some a => exact ⟨a, rfl⟩
        have hln : q.less.isNone = true := by cases hq : q.less <;> simp_all
        revert h hcont
        unfold Query.callback
        rw [ha]
        simp only [hln, hs'.2.2, and_self, if_true]
        split
        · split
          · intro h; exact (not_both h ⟨_, _, _, rfl⟩).elim
          · intro h _; exact body_stays r h (Or.inr (Or.inr rfl))
        · intro h; exact (not_both h ⟨_, _, _, rfl⟩).elim
    · rw [h'] at h ⊢; exact body_stays r h (Or.inr (Or.inr hs'))
    · exact (not_both h h').elim

/-! ### what the callback collects -/

/-- the effect of `body` on a fetched row -/
theorem body_run_get {q : Query T} {s : QSt T} (h : ¬ (q.filter.isNone ∧ q.less.isNone ∧ s.count < q.offset.toNat)) (x : T) :
    (q.body s).run (.ok x) =
      (let s' := if accepts q x then { s with records := s.records ++ [x], count := s.count + 1 } else s
       if q.less.isNone ∧ q.limit > 0 then ({ s' with limitApplied := true }, decide (s'.count < (q.offset + q.limit).toNat), none)
       else (s', true, none)) := by
  unfold Query.body
  rw [if_neg h]
  simp only [Cb.run, filter_all]
  split <;> rfl

theorem body_run_skip {q : Query T} {s : QSt T} (h : q.filter.isNone ∧ q.less.isNone ∧ s.count < q.offset.toNat) (x : Except Err T) :
    (q.body s).run x = ({ s with offsetApplied := true, count := s.count + 1 }, true, none) := by
  unfold Query.body; rw [if_pos h]; rfl

theorem sum_toNat {a b : UInt64} (h : a.toNat + b.toNat < 2 ^ 64) : (a + b).toNat = a.toNat + b.toNat := by
  rw [UInt64.toNat_add, Nat.mod_eq_of_lt h]

theorem pos_toNat {a : UInt64} : a > 0 ↔ 0 < a.toNat := by
  show (0 : UInt64) < a ↔ _
  rw [UInt64.lt_iff_toNat_lt]; rfl

/-- no filter, no order -/
theorem runBody_plain {q : Query T} (hf : q.filter = none) (hl : q.less = none) (hsum : q.offset.toNat + q.limit.toNat < 2 ^ 64)
    (rows : List (Bytes × T)) (s : QSt T) (hlim : 0 < q.limit.toNat → s.count < q.offset.toNat + q.limit.toNat) :
    ∃ s', runRows (fun s _ => q.body s) rows s = ⟨s', none⟩ ∧
      s'.records = s.records ++ (if q.limit.toNat = 0 then (rows.map Prod.snd).drop (q.offset.toNat - s.count)
        else ((rows.map Prod.snd).drop (q.offset.toNat - s.count)).take (q.offset.toNat + q.limit.toNat - max s.count q.offset.toNat)) ∧
      s'.offsetApplied = (s.offsetApplied || (decide (s.count < q.offset.toNat) && !rows.isEmpty)) ∧
      s'.afterApplied = s.afterApplied := by
  induction rows generalizing s with
  | nil => exact ⟨s, rfl, by simp, by simp, rfl⟩
  | cons r rows ih =>
    obtain ⟨k, x⟩ := r
    by_cases hc : s.count < q.offset.toNat
    · have hcond : q.filter.isNone ∧ q.less.isNone ∧ s.count < q.offset.toNat := by simp [hf, hl, hc]
      obtain ⟨s', h1, h2, h3, h4⟩ := ih { s with offsetApplied := true, count := s.count + 1 } (fun h => by simp only; omega)
      refine ⟨s', ?_, ?_, ?_, h4⟩
      · rw [runRows_cons_go (body_run_skip hcond (.ok x)) (by simp)]; exact h1
      · rw [h2]
        simp only [List.map_cons]
        have e1 : q.offset.toNat - s.count = (q.offset.toNat - (s.count + 1)) + 1 := by omega
        have e2 : max (s.count + 1) q.offset.toNat = max s.count q.offset.toNat := by omega
        rw [e1, List.drop_succ_cons, e2]
      · rw [h3]; simp [hc]
    · have hcond : ¬ (q.filter.isNone ∧ q.less.isNone ∧ s.count < q.offset.toNat) := fun h => hc h.2.2
      have hrun := body_run_get hcond x
      have hacc : accepts q x = true := by simp [accepts, hf]
      simp only [hacc, if_true, hl, Option.isNone_none, true_and] at hrun
      have e0 : q.offset.toNat - s.count = 0 := by omega
      have e1 : q.offset.toNat - (s.count + 1) = 0 := by omega
      by_cases hL : q.limit > 0
      · have hL' := pos_toNat.1 hL
        rw [if_pos hL, sum_toNat hsum] at hrun
        have hmax : max s.count q.offset.toNat = s.count := by omega
        by_cases hcont : s.count + 1 < q.offset.toNat + q.limit.toNat
        · simp only [hcont, decide_true] at hrun
          obtain ⟨s', h1, h2, h3, h4⟩ := ih { s with records := s.records ++ [x], count := s.count + 1, limitApplied := true } (fun _ => hcont)
          refine ⟨s', ?_, ?_, ?_, h4⟩
          · rw [runRows_cons_go hrun (by simp)]; exact h1
          · rw [h2]
            simp only [List.map_cons, e0, e1, List.drop_zero, if_neg (show ¬ q.limit.toNat = 0 by omega)]
            have hmax' : max (s.count + 1) q.offset.toNat = s.count + 1 := by omega
            rw [hmax, hmax']
            have : q.offset.toNat + q.limit.toNat - s.count = (q.offset.toNat + q.limit.toNat - (s.count + 1)) + 1 := by omega
            rw [this, List.take_succ_cons]; simp
          · rw [h3]; simp only [hc, decide_false, show ¬ s.count + 1 < q.offset.toNat by omega, Bool.false_and, Bool.or_false]
        · simp only [hcont, decide_false] at hrun
          refine ⟨_, runRows_cons_stop hrun (by simp), ?_, ?_, rfl⟩
          · simp only [List.map_cons, e0, List.drop_zero, if_neg (show ¬ q.limit.toNat = 0 by omega)]
            have := hlim hL'
            rw [hmax, show q.offset.toNat + q.limit.toNat - s.count = 1 by omega]; simp
          · simp [hc]
      · rw [if_neg hL] at hrun
        have hL0 : q.limit.toNat = 0 := by rw [pos_toNat] at hL; omega
        obtain ⟨s', h1, h2, h3, h4⟩ := ih { s with records := s.records ++ [x], count := s.count + 1 } (fun h => by omega)
        refine ⟨s', ?_, ?_, ?_, h4⟩
        · rw [runRows_cons_go hrun (by simp)]; exact h1
        · rw [h2]; simp [hL0, e0, e1]
        · rw [h3]; simp only [hc, decide_false, show ¬ s.count + 1 < q.offset.toNat by omega, Bool.false_and, Bool.or_false]

/-- filter, no order -/
theorem runBody_filter {q : Query T} (hf : q.filter ≠ none) (hl : q.less = none) (hsum : q.offset.toNat + q.limit.toNat < 2 ^ 64)
    (rows : List (Bytes × T)) (s : QSt T) (hlim : 0 < q.limit.toNat → s.count < q.offset.toNat + q.limit.toNat) :
    ∃ s', runRows (fun s _ => q.body s) rows s = ⟨s', none⟩ ∧
      s'.records = s.records ++ (if q.limit.toNat = 0 then (rows.map Prod.snd).filter (accepts q)
        else ((rows.map Prod.snd).filter (accepts q)).take (q.offset.toNat + q.limit.toNat - s.count)) ∧
      s'.offsetApplied = s.offsetApplied ∧ s'.afterApplied = s.afterApplied := by
  induction rows generalizing s with
  | nil => exact ⟨s, rfl, by simp, rfl, rfl⟩
  | cons r rows ih =>
    obtain ⟨k, x⟩ := r
    have hcond : ¬ (q.filter.isNone ∧ q.less.isNone ∧ s.count < q.offset.toNat) := fun h => by
      have := h.1; cases hq : q.filter <;> simp_all
    have hrun := body_run_get hcond x
    simp only [hl, Option.isNone_none, true_and] at hrun
    by_cases hL : q.limit > 0
    · have hL' := pos_toNat.1 hL
      rw [if_pos hL, sum_toNat hsum] at hrun
      have hlt := hlim hL'
      by_cases hx : accepts q x = true
      · simp only [hx, if_true] at hrun
        by_cases hcont : s.count + 1 < q.offset.toNat + q.limit.toNat
        · simp only [hcont, decide_true] at hrun
          obtain ⟨s', h1, h2, h3, h4⟩ := ih { s with records := s.records ++ [x], count := s.count + 1, limitApplied := true } (fun _ => hcont)
          refine ⟨s', ?_, ?_, h3, h4⟩
          · rw [runRows_cons_go hrun (by simp)]; exact h1
          · rw [h2]
            simp only [List.map_cons, if_neg (show ¬ q.limit.toNat = 0 by omega), List.filter_cons_of_pos hx]
            have : q.offset.toNat + q.limit.toNat - s.count = (q.offset.toNat + q.limit.toNat - (s.count + 1)) + 1 := by omega
            rw [this, List.take_succ_cons]; simp
        · simp only [hcont, decide_false] at hrun
          refine ⟨_, runRows_cons_stop hrun (by simp), ?_, rfl, rfl⟩
          simp only [List.map_cons, if_neg (show ¬ q.limit.toNat = 0 by omega), List.filter_cons_of_pos hx]
          rw [show q.offset.toNat + q.limit.toNat - s.count = 1 by omega]; simp
      · simp only [hx, Bool.false_eq_true, if_false] at hrun
        simp only [hlt, decide_true] at hrun
        obtain ⟨s', h1, h2, h3, h4⟩ := ih { s with limitApplied := true } (fun _ => hlt)
        refine ⟨s', ?_, ?_, h3, h4⟩
        · rw [runRows_cons_go hrun (by simp)]; exact h1
        · rw [h2]
          simp only [List.map_cons, List.filter_cons_of_neg hx]
    · rw [if_neg hL] at hrun
      have hL0 : q.limit.toNat = 0 := by rw [pos_toNat] at hL; omega
      by_cases hx : accepts q x = true
      · simp only [hx, if_true] at hrun
        obtain ⟨s', h1, h2, h3, h4⟩ := ih { s with records := s.records ++ [x], count := s.count + 1 } (fun h => by omega)
        refine ⟨s', ?_, ?_, h3, h4⟩
        · rw [runRows_cons_go hrun (by simp)]; exact h1
        · rw [h2]; simp [hL0, hx]
      · simp only [hx, Bool.false_eq_true, if_false] at hrun
        obtain ⟨s', h1, h2, h3, h4⟩ := ih s (fun h => by omega)
        refine ⟨s', ?_, ?_, h3, h4⟩
        · rw [runRows_cons_go hrun (by simp)]; exact h1
        · rw [h2]; simp [hL0, hx]

/-- order -/
theorem runBody_order {q : Query T} (hl : q.less ≠ none)
    (rows : List (Bytes × T)) (s : QSt T) :
    ∃ s', runRows (fun s _ => q.body s) rows s = ⟨s', none⟩ ∧
      s'.records = s.records ++ (rows.map Prod.snd).filter (accepts q) ∧ s'.offsetApplied = s.offsetApplied ∧
      s'.afterApplied = s.afterApplied ∧ s'.limitApplied = s.limitApplied := by
  induction rows generalizing s with
  | nil => exact ⟨s, rfl, by simp, rfl, rfl, rfl⟩
  | cons r rows ih =>
    obtain ⟨k, x⟩ := r
    have hln : q.less.isNone = false := by cases hq : q.less <;> simp_all
    have hcond : ¬ (q.filter.isNone ∧ q.less.isNone ∧ s.count < q.offset.toNat) := fun h => by simp [hln] at h
    have hrun := body_run_get hcond x
    simp only [hln, Bool.false_eq_true, false_and, if_false] at hrun
    by_cases hx : accepts q x = true
    · simp only [hx, if_true] at hrun
      obtain ⟨s', h1, h2, h3, h4, h5⟩ := ih { s with records := s.records ++ [x], count := s.count + 1 }
      refine ⟨s', ?_, ?_, h3, h4, h5⟩
      · rw [runRows_cons_go hrun (by simp)]; exact h1
      · rw [h2]; simp [hx]
    · simp only [hx, Bool.false_eq_true, if_false] at hrun
      obtain ⟨s', h1, h2, h3, h4, h5⟩ := ih s
      refine ⟨s', ?_, ?_, h3, h4, h5⟩
      · rw [runRows_cons_go hrun (by simp)]; exact h1
      · rw [h2]; simp [hx]

/-- the callback behaves like `body` once the first row is done -/
theorem runCallback_body {t : Table T F} {q : Query T} (rows : List (Bytes × T)) (s : QSt T)
    (hs : q.after.isNone = true ∨ q.less.isSome = true ∨ s.skippedFirstRow = true) :
    runRows (q.callback t) rows s = runRows (fun s _ => q.body s) rows s := by
  induction rows generalizing s with
  | nil => rfl
  | cons r rows ih =>
    obtain ⟨k, x⟩ := r
    rw [runRows, runRows, callback_body k hs]
    have hkeep : q.after.isNone = true ∨ q.less.isSome = true ∨ ((q.body s).run (.ok x)).1.skippedFirstRow = true := by
      rcases hs with h | h | h
      · exact Or.inl h
      · exact Or.inr (Or.inl h)
      · right; right
        by_cases hc : q.filter.isNone ∧ q.less.isNone ∧ s.count < q.offset.toNat
        · rw [body_run_skip hc]; exact h
        · rw [body_run_get hc]
          simp only
          split <;> (simp only; split <;> exact h)
    simp only [ih _ hkeep]

/-! ### offset and limit -/

theorem goInt_small {u : UInt64} (h : u.toNat < 2 ^ 63) : goInt u = u.toNat := by
  unfold goInt
  have : u.toBitVec.toNat = u.toNat := rfl
  rw [BitVec.toInt_eq_toNat_of_lt (by rw [this]; omega), this]

theorem applyOffset_eq {α : Type} {u : UInt64} (h : u.toNat < 2 ^ 63) (l : List α) : applyOffset u l = some (l.drop u.toNat) := by
  unfold applyOffset
  rw [goInt_small h]
  split
  · rw [List.drop_eq_nil_of_le (by omega)]
  · rw [if_pos (by omega)]

theorem applyLimit_eq {α : Type} {u : UInt64} (h : u.toNat < 2 ^ 63) (l : List α) : applyLimit u l = some (l.take u.toNat) := by
  unfold applyLimit
  rw [goInt_small h]
  split
  · rw [List.take_of_length_le (by omega)]
  · rw [if_pos (by omega)]

/-- sorted (if asked for), filtered rows -/
def Spec.ordered (srt : (T → T → Bool) → List T → List T) (q : Query T) (rows : List T) : List T :=
  match q.less with
  | some less => srt less (rows.filter (accepts q))
  | none => rows.filter (accepts q)

theorem slice_off {α : Type} {q : Query T} (ho : q.offset.toNat < 2 ^ 63) (hL : q.limit.toNat < 2 ^ 63) (la : Bool) (l : List α)
    (hla : la = true → q.limit.toNat = 0 ∨ (l.drop q.offset.toNat).length ≤ q.limit.toNat) :
    q.slice false la l = .ok (page q.offset.toNat q.limit.toNat l) := by
  unfold Query.slice
  have e1 : (if q.offset > 0 ∧ false = false then applyOffset q.offset l else some l) = some (l.drop q.offset.toNat) := by
    split
    · exact applyOffset_eq ho _
    · rename_i h; rw [pos_toNat] at h; rw [show q.offset.toNat = 0 by simp at h; omega, List.drop_zero]
  rw [e1]
  simp only
  have e2 : (if q.limit > 0 ∧ la = false then applyLimit q.limit (l.drop q.offset.toNat) else some (l.drop q.offset.toNat)) =
      some (page q.offset.toNat q.limit.toNat l) := by
    unfold page
    split
    · rename_i h
      rw [applyLimit_eq hL, if_neg (by have := pos_toNat.1 h.1; omega)]
    · rename_i h
      split
      · rfl
      · rename_i h0
        rw [List.take_of_length_le]
        have hlt : la = true := by
          cases la with
          | true => rfl
          | false => exact (h ⟨pos_toNat.2 (by omega), rfl⟩).elim
        rcases hla hlt with h' | h'
        · exact (h0 h').elim
        · exact h'
  rw [e2]

theorem slice_on {α : Type} {q : Query T} (hL : q.limit.toNat < 2 ^ 63) (la : Bool) (l : List α)
    (hla : q.limit.toNat = 0 ∨ l.length ≤ q.limit.toNat) : q.slice true la l = .ok l := by
  unfold Query.slice
  rw [if_neg (by simp)]
  simp only
  have e2 : (if q.limit > 0 ∧ la = false then applyLimit q.limit l else some l) = some l := by
    split
    · rename_i h
      rw [applyLimit_eq hL]
      rcases hla with h' | h'
      · have := pos_toNat.1 h.1; omega
      · rw [List.take_of_length_le h']
    · rfl
  rw [e2]

theorem page_length {α : Type} (o n : Nat) (l : List α) : n = 0 ∨ (page o n l).length ≤ n := by
  unfold page
  by_cases h : n = 0
  · exact Or.inl h
  · rw [if_neg h]; right; rw [List.length_take]; omega

/-- a query over rows that need no After handling -/
theorem finish_run {t : Table T F} (srt : (T → T → Bool) → List T → List T) {q : Query T} (ho : q.offset.toNat < 2 ^ 63)
    (hL : q.limit.toNat < 2 ^ 63) (rows : List (Bytes × T)) (s : QSt T) (hs0 : s.records = [] ∧ s.count = 0 ∧ s.offsetApplied = false ∧
      s.limitApplied = false) (haft : q.after = none ∨ s.afterApplied = true) :
    ∃ s', runRows (fun s _ => q.body s) rows s = ⟨s', none⟩ ∧
      q.finish t srt s' = .ok (page q.offset.toNat q.limit.toNat (ordered srt q (rows.map Prod.snd))) := by
  have hdrop : ∀ (s' : QSt T) (records : List T), s'.afterApplied = s.afterApplied →
      q.skipAfter t s'.afterApplied records = records := by
    intro s' records hs'
    unfold Query.skipAfter
    split
    · rename_i a ha
      rcases haft with h | h
      · rw [ha] at h; simp at h
      · rw [hs', h]; rfl
    · rfl
  cases hl : q.less with
  | some less =>
    obtain ⟨s', h1, h2, h3, h4, h5⟩ := runBody_order (q := q) (by rw [hl]; simp) rows s
    refine ⟨s', h1, ?_⟩
    unfold Query.finish
    rw [hdrop s' _ h4, h3, h5, hs0.2.2.1, hs0.2.2.2, h2, hs0.1, slice_off ho hL _ _ (by simp)]
    simp [Query.sortRecords, ordered, hl]
  | none =>
    have hsort : ∀ l, q.sortRecords srt l = l := by intro l; simp [Query.sortRecords, hl]
    by_cases hf : q.filter = none
    · obtain ⟨s', h1, h2, h3, h4⟩ := runBody_plain hf hl (by omega) rows s (by rw [hs0.2.1]; omega)
      refine ⟨s', h1, ?_⟩
      rw [hs0.1, hs0.2.1] at h2
      rw [hs0.2.1, hs0.2.2.1] at h3
      simp only [List.nil_append, Nat.sub_zero, Nat.zero_max] at h2
      have hrec : s'.records = page q.offset.toNat q.limit.toNat (rows.map Prod.snd) := by
        rw [h2]; unfold page; split
        · rfl
        · rw [show q.offset.toNat + q.limit.toNat - q.offset.toNat = q.limit.toNat by omega]
      have hall : ∀ l : List T, l.filter (accepts q) = l := by
        intro l; rw [List.filter_eq_self]; intro x _; simp [accepts, hf]
      unfold Query.finish
      rw [hdrop s' _ h4, hsort]
      simp only [ordered, hl, hall]
      rw [← hrec]
      cases hoa : s'.offsetApplied with
      | true => exact slice_on hL _ _ (by rw [hrec]; exact page_length _ _ _)
      | false =>
        have hcase : q.offset.toNat = 0 ∨ rows = [] := by
          rw [h3] at hoa
          by_cases hz : q.offset.toNat = 0
          · exact Or.inl hz
          · right; simpa [Nat.pos_of_ne_zero hz] using hoa
        have hpp : page q.offset.toNat q.limit.toNat s'.records = s'.records := by
          rcases hcase with hz | hz
          · rw [hrec, hz]; unfold page; split
            · rfl
            · simp [List.take_take]
          · rw [hrec, hz]; unfold page; split <;> simp
        rw [slice_off ho hL _ _ ?_, hpp]
        intro _
        rcases page_length q.offset.toNat q.limit.toNat (rows.map Prod.snd) with h | h
        · exact Or.inl h
        · right; rw [← hrec] at h; rw [List.length_drop]; omega
    · obtain ⟨s', h1, h2, h3, h4⟩ := runBody_filter hf hl (by omega) rows s (by rw [hs0.2.1]; omega)
      refine ⟨s', h1, ?_⟩
      rw [hs0.1, hs0.2.1] at h2
      rw [hs0.2.2.1] at h3
      simp only [List.nil_append, Nat.sub_zero] at h2
      unfold Query.finish
      rw [hdrop s' _ h4, hsort, h3]
      simp only [ordered, hl]
      have hrec : s'.records.drop q.offset.toNat = page q.offset.toNat q.limit.toNat ((rows.map Prod.snd).filter (accepts q)) := by
        rw [h2]; unfold page; split
        · rfl
        · rw [List.drop_take, show q.offset.toNat + q.limit.toNat - q.offset.toNat = q.limit.toNat by omega]
      have hlen := page_length q.offset.toNat q.limit.toNat ((rows.map Prod.snd).filter (accepts q))
      rw [← hrec] at hlen
      rw [slice_off ho hL _ _ (fun _ => hlen), ← hrec]
      congr 1
      unfold page
      split
      · rfl
      · rcases hlen with h | h
        · rename_i h'; exact (h' h).elim
        · rw [List.take_of_length_le h]

theorem Returns.unique {t : Table T F} {env : Env T} {srt : (T → T → Bool) → List T → List T} {filt : F} {db : KV}
    {ob : Option Batch} {q : Query T} {a b : List T} (ha : Returns t env srt filt db ob q a) (hb : Returns t env srt filt db ob q b) :
    a = b := by
  obtain ⟨N, hN⟩ := ha
  obtain ⟨M, hM⟩ := hb
  have h1 := hN (N + M) (by omega)
  rw [hM (N + M) (by omega)] at h1
  simpa using h1.symm

/-! ### queries without intersections -/

/-- a query that scans `sel`, whose rows need no After handling -/
theorem query_plain {t : Table T F} {env : Env T} {filt : F} {db : KV} {ob : Option Batch} {m : Rows T}
    (S : Setting t env filt db ob m) (srt : (T → T → Bool) → List T → List T) {q : Query T} (hint : q.intersects = [])
    (hi : IsIndex t q.index) (hs : q.sel.OK q.index) (haft : q.after = none) (ho : q.offset.toNat < 2 ^ 63)
    (hL : q.limit.toNat < 2 ^ 63) {rows : List T} (hy : Yields t env filt db ob q.index q.sel q.reverse rows) :
    Returns t env srt filt db ob q (page q.offset.toNat q.limit.toNat (ordered srt q rows)) := by
  obtain ⟨parts, _, h2, h3⟩ := S.parts hi hs
  have hrows : rows = dir q.reverse parts.flatten := hy.unique (h2 q.reverse)
  obtain ⟨N, hN⟩ := h3 q.reverse (q.callback t) q.fetching (Or.inr (callback_fetches q))
  refine ⟨N, fun fuel hf => ?_⟩
  unfold Query.execute Query.executeQuery
  rw [hint, if_pos (by rfl), haft]
  simp only
  rw [hN fuel hf {}, runCallback_body _ _ (Or.inl (by rw [haft]; rfl))]
  obtain ⟨s', g1, g2⟩ := finish_run (t := t) srt ho hL (seen t q.index (dir q.reverse parts.flatten)) {} ⟨rfl, rfl, rfl, rfl⟩ (Or.inl haft)
  rw [g1]
  simp only
  rw [g2, seen_snd, hrows]

/-- without the first element if that is the row `a` -/
def Spec.skipHead (t : Table T F) (idx : Index T) (a : T) : List T → List T
  | [] => []
  | x :: xs => if t.indexKey idx x = t.indexKey idx a then xs else x :: xs

/-- a query with After and without Order, in terms of the rows of the changed selector -/
theorem query_after {t : Table T F} {env : Env T} {filt : F} {db : KV} {ob : Option Batch} {m : Rows T}
    (S : Setting t env filt db ob m) (srt : (T → T → Bool) → List T → List T) {q : Query T} (hint : q.intersects = [])
    (hi : IsIndex t q.index) {a : T} (haft : q.after = some a) (hl : q.less = none) {sel : Selector T}
    (hsel : q.selectorWithAfter t a = some sel) (hs : sel.OK q.index) (ho : q.offset.toNat < 2 ^ 63)
    (hL : q.limit.toNat < 2 ^ 63) {rows : List T} (hy : Yields t env filt db ob q.index sel q.reverse rows) :
    Returns t env srt filt db ob q (page q.offset.toNat q.limit.toNat ((skipHead t q.index a rows).filter (accepts q))) := by
  obtain ⟨parts, _, h2, h3⟩ := S.parts hi hs
  have hrows : rows = dir q.reverse parts.flatten := hy.unique (h2 q.reverse)
  obtain ⟨N, hN⟩ := h3 q.reverse (q.callback t) q.fetching (Or.inr (callback_fetches q))
  refine ⟨N, fun fuel hf => ?_⟩
  unfold Query.execute Query.executeQuery
  rw [hint, if_pos (by rfl), haft]
  simp only [hl, Option.isNone_none, if_true, hsel]
  rw [hN fuel hf {}, ← hrows]
  cases rows with
  | nil =>
    simp only [seen, List.map_nil, runRows, skipHead, List.filter_nil]
    unfold Query.finish
    have : q.skipAfter t false (q.sortRecords srt []) = [] := by simp [Query.skipAfter, haft, Query.sortRecords, hl, dropAfter]
    simp only [this]
    rw [slice_off ho hL _ _ (by simp)]
  | cons x xs =>
    have hord : ∀ l, ordered srt q l = l.filter (accepts q) := by intro l; simp [ordered, hl]
    have hfirst : ∀ c, c = q.callback t {} (t.indexKey q.index x) →
        (t.indexKey q.index x = t.indexKey q.index a → c = .ret { skippedFirstRow := true, afterApplied := true } true none) ∧
        (t.indexKey q.index x ≠ t.indexKey q.index a → c = q.body { skippedFirstRow := true, afterApplied := true }) := by
      rintro c rfl
      unfold Query.callback
      rw [haft]
      simp only [hl, Option.isNone_none, and_self, if_true, keyDecode_indexKey S.wf hi]
      constructor
      · intro hk
        have := encodeIndexKey_inj (hi.klen S.wf x) (hi.olen S.wf x) (hi.klen S.wf a) (hi.olen S.wf a) hk
        rw [if_pos ⟨this.2.2.1.symm, this.2.2.2.1.symm, this.2.2.2.2.symm⟩]
      · intro hk
        rw [if_neg]
        rintro ⟨h1, h2, h3⟩
        apply hk
        unfold Table.indexKey
        rw [h1, h2, h3]
    obtain ⟨f1, f2⟩ := hfirst _ rfl
    simp only [seen, List.map_cons, skipHead]
    by_cases hk : t.indexKey q.index x = t.indexKey q.index a
    · rw [if_pos hk, runRows_cons_go (f := q.callback t) (s' := { skippedFirstRow := true, afterApplied := true }) (cont := true) (err := none)
        (by rw [f1 hk]; rfl) (by simp), runCallback_body _ _ (Or.inr (Or.inr rfl))]
      obtain ⟨s', g1, g2⟩ := finish_run (t := t) srt ho hL (seen t q.index xs) { skippedFirstRow := true, afterApplied := true } ⟨rfl, rfl, rfl, rfl⟩ (Or.inr rfl)
      unfold seen at g1
      rw [g1]
      simp only
      rw [g2, seen_snd, hord]
    · rw [if_neg hk]
      have he : runRows (q.callback t) ((t.indexKey q.index x, x) :: xs.map (fun x => (t.indexKey q.index x, x))) {} =
          runRows (q.callback t) ((t.indexKey q.index x, x) :: xs.map (fun x => (t.indexKey q.index x, x))) { skippedFirstRow := true, afterApplied := true } := by
        rw [runRows, runRows, f2 hk, callback_body (t := t) _ (Or.inr (Or.inr rfl))]
      rw [he, runCallback_body _ _ (Or.inr (Or.inr rfl))]
      obtain ⟨s', g1, g2⟩ := finish_run (t := t) srt ho hL (seen t q.index (x :: xs)) { skippedFirstRow := true, afterApplied := true } ⟨rfl, rfl, rfl, rfl⟩ (Or.inr rfl)
      unfold seen at g1
      simp only [List.map_cons] at g1
      rw [g1]
      simp only
      rw [g2, seen_snd, hord]

/-- a query with After and Order -/
theorem query_after_ordered {t : Table T F} {env : Env T} {filt : F} {db : KV} {ob : Option Batch} {m : Rows T}
    (S : Setting t env filt db ob m) (srt : (T → T → Bool) → List T → List T) {q : Query T} (hint : q.intersects = [])
    (hi : IsIndex t q.index) (hs : q.sel.OK q.index) {a : T} (haft : q.after = some a) (hl : q.less ≠ none)
    (ho : q.offset.toNat < 2 ^ 63)
    (hL : q.limit.toNat < 2 ^ 63) {rows : List T} (hy : Yields t env filt db ob q.index q.sel q.reverse rows) :
    Returns t env srt filt db ob q (page q.offset.toNat q.limit.toNat
      ((dropAfter t.pk a (ordered srt q rows)).getD (ordered srt q rows))) := by
  obtain ⟨parts, _, h2, h3⟩ := S.parts hi hs
  have hrows : rows = dir q.reverse parts.flatten := hy.unique (h2 q.reverse)
  obtain ⟨N, hN⟩ := h3 q.reverse (q.callback t) q.fetching (Or.inr (callback_fetches q))
  refine ⟨N, fun fuel hf => ?_⟩
  unfold Query.execute Query.executeQuery
  have hln : q.less.isNone = false := by cases hq : q.less <;> simp_all
  have hls : q.less.isSome = true := by cases hq : q.less <;> simp_all
  rw [hint, if_pos (by rfl), haft]
  simp only [hln, Bool.false_eq_true, if_false]
  rw [hN fuel hf {}, ← hrows, runCallback_body _ _ (Or.inr (Or.inl hls))]
  obtain ⟨s', h1, h2, h3, h4, h5⟩ := runBody_order hl (seen t q.index rows) {}
  rw [h1]
  simp only
  unfold Query.finish
  have h3 : s'.offsetApplied = false := h3
  have h4 : s'.afterApplied = false := h4
  have h5 : s'.limitApplied = false := h5
  rw [h3, h4, h5, slice_off ho hL _ _ (by simp), h2, seen_snd]
  obtain ⟨less, hless⟩ : ∃ less, q.less = some less := by
    cases hq : q.less with
    | none => exact absurd hq hl
    | some less => exact ⟨less, rfl⟩
  simp [Query.skipAfter, haft, Query.sortRecords, ordered, hless]

/-! ### pagination -/

theorem pages_exist {exec : Option T → List T → Prop} {R : List T} {n : Nat} (hn : 0 < n) (h0 : exec none (R.take n))
    (h1 : ∀ pre a suf, R = pre ++ a :: suf → exec (some a) (suf.take n)) :
    ∃ pages, Pages exec none pages := by
  have key : ∀ (k : Nat) (a : Option T) (suf : List T), suf.length ≤ k → exec a (suf.take n) → (∃ pre, R = pre ++ suf) →
      ∃ pages, Pages exec a pages := by
    intro k
    induction k with
    | zero =>
      intro a suf hk he _
      have : suf = [] := List.length_eq_zero_iff.1 (by omega)
      subst this
      exact ⟨[], .stop (by simpa using he)⟩
    | succ k ih =>
      rintro a suf hk he ⟨pre, hpre⟩
      by_cases hs : suf = []
      · subst hs; exact ⟨[], .stop (by simpa using he)⟩
      · have hne : suf.take n ≠ [] := by simp [hs]; omega
        have hlast := List.dropLast_concat_getLast hne
        have hsuf : suf = (suf.take n).dropLast ++ (suf.take n).getLast hne :: suf.drop n := by
          have : suf.take n ++ suf.drop n = suf := List.take_append_drop n suf
          have h2 : (suf.take n).dropLast ++ [(suf.take n).getLast hne] ++ suf.drop n = suf := by rw [hlast]; exact this
          rw [List.append_assoc] at h2
          exact h2.symm
        obtain ⟨rest, hr⟩ := ih (some ((suf.take n).getLast hne)) (suf.drop n) (by
            rw [List.length_drop]
            have : 0 < suf.length := List.length_pos_iff.2 hs
            omega)
          (h1 (pre ++ (suf.take n).dropLast) _ _ (by rw [hpre, List.append_assoc, ← hsuf]))
          ⟨pre ++ suf.take n, by rw [List.append_assoc, List.take_append_drop, hpre]⟩
        exact ⟨_, .more (by rw [hlast]; exact he) hr⟩
  exact key R.length none R (Nat.le_refl _) h0 ⟨[], rfl⟩

theorem pages_eq {exec : Option T → List T → Prop} (hdet : ∀ a p p', exec a p → exec a p' → p = p') {R : List T} {n : Nat}
    (hn : 0 < n) (h0 : exec none (R.take n)) (h1 : ∀ pre a suf, R = pre ++ a :: suf → exec (some a) (suf.take n))
    {pages : List (List T)} (hp : Pages exec none pages) : pages.flatten = R ∧ ∀ p ∈ pages, p.length ≤ n := by
  have key : ∀ (a : Option T) (pages : List (List T)), Pages exec a pages → ∀ suf, exec a (suf.take n) → (∃ pre, R = pre ++ suf) →
      pages.flatten = suf ∧ ∀ p ∈ pages, p.length ≤ n := by
    intro a pages hp
    induction hp with
    | stop h =>
      intro suf he _
      have := hdet _ _ _ h he
      have hs : suf = [] := by
        have := congrArg List.length this
        simp only [List.length_nil, List.length_take] at this
        apply List.length_eq_zero_iff.1; omega
      subst hs; simp
    | @more a p x rest h _ ih =>
      rintro suf he ⟨pre, hpre⟩
      have hpx := hdet _ _ _ h he
      have hsuf : suf = p ++ x :: suf.drop n := by
        have : suf.take n ++ suf.drop n = suf := List.take_append_drop n suf
        rw [← hpx, List.append_assoc] at this
        exact this.symm
      obtain ⟨i1, i2⟩ := ih (suf.drop n) (h1 (pre ++ p) x _ (by rw [hpre, List.append_assoc, ← hsuf])) ⟨pre ++ (p ++ [x]), by
        rw [hpre, List.append_assoc]; congr 1; rw [List.append_assoc]; exact hsuf⟩
      refine ⟨?_, ?_⟩
      · rw [List.flatten_cons, i1, hpx, List.take_append_drop]
      · intro p' hp'
        rw [List.mem_cons] at hp'
        rcases hp' with rfl | hp'
        · rw [hpx, List.length_take]; omega
        · exact i2 p' hp'
  exact key none pages hp R h0 ⟨[], rfl⟩

/-- the rows from `a` on -/
theorem rows_from {t : Table T F} (wf : t.WF) {idx : Index T} (hi : IsIndex t idx) {m : Rows T} {lo up : Bytes} {pre suf : List T} {a : T}
    (h : IsRows t idx m (BoundP t idx (lo, up)) (pre ++ a :: suf)) : IsRows t idx m (BoundP t idx (t.indexKey idx a, up)) (a :: suf) := by
  obtain ⟨h1, h2⟩ := h
  rw [List.pairwise_append] at h1
  refine ⟨h1.2.1, fun x => ?_⟩
  have ha := (h2 a).1 (by simp)
  constructor
  · intro hx
    have hx' := (h2 x).1 (List.mem_append.2 (Or.inr hx))
    refine ⟨hx'.1, ?_, hx'.2.2⟩
    rw [indexKey_le wf hi]
    unfold IdxLe
    rw [List.mem_cons] at hx
    rcases hx with rfl | hx
    · exact idxLt_irrefl wf hi _
    · exact fun hlt => idxLt_irrefl wf hi _ (idxLt_trans wf hi ((List.pairwise_cons.1 h1.2.1).1 x hx) hlt)
  · rintro ⟨hx, hx1, hx2⟩
    have : x ∈ pre ++ a :: suf := (h2 x).2 ⟨hx, ble_trans ha.2.1 hx1, hx2⟩
    rw [List.mem_append] at this
    rcases this with hp | hp
    · have := h1.2.2 x hp a (by simp)
      have hle : IdxLe t idx a x := (indexKey_le wf hi a x).1 hx1
      exact absurd this hle
    · exact hp

theorem filter_split {α : Type} {p : α → Bool} {l pre suf : List α} {a : α} (h : l.filter p = pre ++ a :: suf) :
    ∃ l1 l2, l = l1 ++ a :: l2 ∧ l2.filter p = suf := by
  rw [List.filter_eq_append_iff] at h
  obtain ⟨r1, r2, rfl, _, h2⟩ := h
  rw [List.filter_eq_cons_iff] at h2
  obtain ⟨l1, l2, rfl, _, _, h3⟩ := h2
  exact ⟨r1 ++ l1, l2, by simp, h3⟩

theorem dropAfter_split {pk : T → Bytes} {l pre suf : List T} {a : T} (h : l = pre ++ a :: suf) (hn : (l.map pk).Nodup) :
    dropAfter pk a l = some suf := by
  subst h
  induction pre with
  | nil => simp [dropAfter]
  | cons x pre ih =>
    simp only [List.cons_append, List.map_cons, List.nodup_cons] at hn
    rw [List.cons_append, dropAfter, if_neg, ih hn.2]
    intro he
    apply hn.1
    rw [← he]; exact List.mem_map_of_mem (by simp)

end Bond
