import Verif.Spec.Evolve
import Verif.Props.Machine
import Verif.Props.Database
import Verif.Props.ReIndex
/-
C102: indexes may be added, rebuilt, left out and added again; a registered index that can be used is a sorted view of the rows.
-/
namespace Bond
open Spec
variable {T F : Type}

/-- the entries of an index are those of the rows -/
def Agrees (t : Table T F) (idx : Index T) (db : KV) (m : Rows T) : Prop :=
  ∀ k v, InSpace t.id idx.id k → (db.get k = some v ↔ v = [] ∧ ∃ pk x, m pk = some x ∧ idx.filter x = true ∧ k = t.indexKey idx x)

/-- what the world holds is what the specification says -/
structure ERepresents (t : Table T F) (e : EWorld T F) (s : EMaps T) : Prop where
  unlocked : e.locks.writeLocked = false
  reg : e.locks.indexes = s.reg
  wf : (withIndexes t s.reg).WF
  rows : Represents (withIndexes t []) e.w s.maps
  tx : ∀ b, e.w.batch = some b → ∀ v, s.maps.tx = some v → ∀ idx ∈ s.reg, Agrees t idx (e.w.db.apply b.ops) v
  live : ∀ idx, s.live idx → Agrees t idx e.w.db s.maps.stored
  clean : ∀ id, s.clean id → id ≠ 0 → ∀ k, InSpace t.id id k → e.w.db.get k = none ∧ ∀ b, e.w.batch = some b → (e.w.db.apply b.ops).get k = none

theorem agrees_congr {t : Table T F} {idx : Index T} {db db' : KV} {m : Rows T} (h : Agrees t idx db m)
    (hk : ∀ k, InSpace t.id idx.id k → db'.get k = db.get k) : Agrees t idx db' m := by
  intro k v hs
  rw [hk k hs]
  exact h k v hs

theorem holds_of_agrees {t : Table T F} {l : List (Index T)} {db : KV} {m : Rows T} (h : Holds (withIndexes t []) db m)
    (ha : ∀ idx ∈ l, Agrees t idx db m) : Holds (withIndexes t l) db m :=
  ⟨h.row_pk, h.absent, h.present, h.only_data, fun idx hi => ha idx hi⟩

theorem holds_bare {t : Table T F} {l : List (Index T)} {db : KV} {m : Rows T} (h : Holds (withIndexes t l) db m) :
    Holds (withIndexes t []) db m := holds_data (t := t) h (by simp)

theorem ERepresents.agrees {t : Table T F} {e : EWorld T F} {s : EMaps T} (h : ERepresents t e s) {idx : Index T} (hi : idx ∈ s.reg)
    (hr : s.Ready idx) : Agrees t idx e.w.db s.maps.stored := by
  rcases hr with hr | ⟨hc, hn⟩
  · exact h.live idx hr
  · intro k v hs
    rw [(h.clean idx.id hc (h.wf.nz idx hi) k hs).1]
    simp [hn]

theorem ERepresents.represents {t : Table T F} {e : EWorld T F} {s : EMaps T} (h : ERepresents t e s) (hr : ∀ idx ∈ s.reg, s.Ready idx) :
    Represents (withIndexes t s.reg) e.w s.maps where
  stored := holds_of_agrees h.rows.stored (fun idx hi => h.agrees hi (hr idx hi))
  covers := h.rows.covers
  closed := h.rows.closed
  opened := by
    intro b hb
    obtain ⟨h1, v, h2, h3, h4⟩ := h.rows.opened b hb
    exact ⟨h1, v, h2, holds_of_agrees h3 (h.tx b hb v h2), h4⟩

/-- an action that may not change rows changes nothing that is stored -/
theorem pstep_same {t : Table T F} {srt : (T → T → Bool) → List T → List T} {fuel : Nat} {w w' : PWorld F} {x : PStep T} {a : Answer T}
    (hx : mayChange x = false) (h : t.pstep srt fuel w x = some (a, w')) : w'.db = w.db ∧ ∀ b', w'.batch = some b' → w.batch = some b' ∨ b'.ops = [] := by
  cases x with
  | begin => cases h; exact ⟨rfl, fun b' hb' => by cases hb'; exact Or.inr rfl⟩
  | discard => cases h; exact ⟨rfl, fun b' hb' => by cases hb'⟩
  | commit k => simp [mayChange] at hx
  | call env i c =>
    cases c with
    | write c => simp [mayChange] at hx
    | _ =>
      simp only [Table.pstep, Option.map_eq_some_iff] at h
      obtain ⟨_, _, h⟩ := h
      cases h
      exact ⟨rfl, fun b' hb' => Or.inl hb'⟩

theorem does_same {t : Table T F} {s s' : Maps T} {x : PStep T} {a : Answer T} (hx : mayChange x = false) (h : Does t s x a s') :
    s'.stored = s.stored := by
  cases x with
  | begin => obtain ⟨_, rfl⟩ := h; rfl
  | discard => obtain ⟨_, rfl⟩ := h; rfl
  | commit k => simp [mayChange] at hx
  | call env i c =>
    cases c with
    | write c => simp [mayChange] at hx
    | _ => cases i <;> (obtain ⟨_, rfl⟩ := h; rfl)

/-- no action touches keys outside the table -/
theorem pstep_none {t : Table T F} {srt : (T → T → Bool) → List T → List T} {fuel : Nat} {w w' : PWorld F} {x : PStep T} {a : Answer T} {s : Maps T}
    (hs : Proper1 t s x) (h : t.pstep srt fuel w x = some (a, w')) {k : Bytes} (hk : Outside t k)
    (h0 : w.db.get k = none ∧ ∀ b, w.batch = some b → (w.db.apply b.ops).get k = none) :
    w'.db.get k = none ∧ ∀ b, w'.batch = some b → (w'.db.apply b.ops).get k = none := by
  cases x with
  | begin => cases h; exact ⟨h0.1, fun b hb => by cases hb; exact h0.1⟩
  | discard => cases h; exact ⟨h0.1, fun b hb => by cases hb⟩
  | commit ok =>
    simp only [Table.pstep] at h
    cases hb : w.batch with
    | none => rw [hb] at h; cases h; exact h0
    | some b =>
      rw [hb] at h
      cases h
      refine ⟨?_, fun b hb => by cases hb⟩
      simp only [Batch.commit]
      repeat' split
      all_goals first | exact h0.1 | exact h0.2 b hb
  | call env i c =>
    have ok : env.OK t := by cases c <;> exact hs.1
    obtain ⟨h1, _, h3⟩ := pstep_outside ok h
    refine ⟨(h1 k hk).trans h0.1, fun b' hb' => ?_⟩
    obtain ⟨b, hb, _, hs⟩ := h3 b' hb'
    exact (hs k hk).trans (h0.2 b hb)

theorem reIndexDelete_with (t : Table T F) (l : List (Index T)) (ok : Nat → Bool) (idxs : List (Index T)) : ∀ c,
    (withIndexes t l).reIndexDelete ok idxs c = t.reIndexDelete ok idxs c := by
  induction idxs with
  | nil => intro c; rfl
  | cons i idxs ih =>
    intro c
    unfold Table.reIndexDelete
    rw [ih]
    rfl

theorem reIndexLoop_with (t : Table T F) (l : List (Index T)) (ok : Nat → Bool) (size : Nat) (idxs : List (Index T)) (rows : List (Bytes × Bytes)) : ∀ n ops c,
    (withIndexes t l).reIndexLoop ok size idxs rows n ops c = t.reIndexLoop ok size idxs rows n ops c := by
  induction rows with
  | nil => intro n ops c; rfl
  | cons r rows ih =>
    intro n ops c
    unfold Table.reIndexLoop
    simp only [ih]
    rfl

theorem reIndex_with (t : Table T F) (l : List (Index T)) (ok : Nat → Bool) (db : KV) (idxs : List (Index T)) :
    (withIndexes t l).reIndex ok db idxs = t.reIndex ok db idxs := by
  unfold Table.reIndex Table.reIndexBs
  rw [reIndexDelete_with]
  simp only [reIndexLoop_with]
  rfl

/-- ReIndex without error makes its indexes agree with the rows -/
theorem reIndex_agrees {t : Table T F} (rt : t.RoundTripFresh) {l idxs : List (Index T)} (wf : (withIndexes t l).WF) (hsub : ∀ i ∈ idxs, i ∈ l)
    (h255 : ∀ i ∈ idxs, i.id ≠ 0xFF) (commitOk : Nat → Bool) {db : KV} {m : Rows T} (hH : Holds (withIndexes t []) db m) :
    ((∀ n, commitOk n = true) → (t.reIndex commitOk db idxs).err = none) ∧
    ((t.reIndex commitOk db idxs).err = none → ∀ i ∈ idxs, Agrees t i ((t.reIndex commitOk db idxs).db db) m) := by
  let l' := l.filter (fun i => (idxs.map Index.id).contains i.id)
  have wf' : (withIndexes t l').WF :=
    ⟨wf.ids.sublist ((List.filter_sublist (l := l)).map _), fun i hi => wf.nz i (List.mem_filter.1 hi).1,
      fun i hi => wf.klen i (List.mem_filter.1 hi).1, fun i hi => wf.olen i (List.mem_filter.1 hi).1⟩
  have hsub' : ∀ i ∈ idxs, i ∈ (withIndexes t l').indexes := by
    intro i hi
    refine List.mem_filter.2 ⟨hsub i hi, ?_⟩
    rw [List.contains_eq_mem, decide_eq_true_eq]
    exact List.mem_map_of_mem hi
  have hH' : Holds ((withIndexes t l').without idxs) db m := by
    refine holds_data (t := t) (l := []) hH ?_
    intro i hi
    have h1 := List.mem_filter.1 hi
    have h2 := (List.mem_filter.1 h1.1).2
    rw [h2] at h1
    simp at h1
  refine ⟨fun hall => ?_, fun hok i hi => ?_⟩
  · have : commitOk = fun _ => true := funext hall
    subst this
    have := C36_success reindexBatchSize wf' rt hsub' hH'
    rw [← reIndex_with t l']
    exact this
  · rw [← reIndex_with t l'] at hok ⊢
    exact (C36_partial reindexBatchSize wf' rt commitOk hsub' h255 hH' hok).index i (hsub' i hi)

/-- ReIndex changes nothing outside its indexes, at no time -/
theorem reIndex_away (t : Table T F) (commitOk : Nat → Bool) (db : KV) (idxs : List (Index T)) (n : Nat) {id : UInt8} (hid : ¬ numbers idxs id)
    {k : Bytes} (hk : InSpace t.id id k) : (db.apply ((t.reIndex commitOk db idxs).commits.take n).flatten).get k = db.get k :=
  C36_outside _ t commitOk db idxs n (fun idx hi hs => hid ⟨idx, hi, (C09_disjoint hs hk).2⟩)

/-- the end of ReIndex, or where it was interrupted: the other indexes and the rows are as before -/
theorem ERepresents.away {t : Table T F} {e : EWorld T F} {s : EMaps T} (h : ERepresents t e s) (htx : e.w.batch = none) {idxs : List (Index T)}
    (hz : ∀ i ∈ idxs, i.id ≠ 0) {db' : KV} (hdb : ∀ id, ¬ numbers idxs id → ∀ k, InSpace t.id id k → db'.get k = e.w.db.get k)
    {ok : Prop} (hok : ok → ∀ i ∈ idxs, Agrees t i db' s.maps.stored) {locks : LockedIndexes T} {reg : List (Index T)} (hl : locks = ⟨false, reg⟩)
    (wf : (withIndexes t reg).WF) :
    ERepresents t ⟨{ e.w with db := db', batch := none }, locks⟩ { s.reindexed idxs ok with maps := ⟨s.maps.stored, none⟩, reg := reg } := by
  subst hl
  have h0 : ¬ numbers idxs 0 := fun ⟨i, hi, h⟩ => hz i hi h
  have hd := hdb 0 h0
  refine ⟨rfl, rfl, wf, ⟨?_, h.rows.covers, fun _ => rfl, fun b hb => (by cases hb)⟩, fun b hb => (by cases hb), ?_, ?_⟩
  · have hs := h.rows.stored
    refine ⟨hs.row_pk, ?_, ?_, ?_, by intro idx hi; cases hi⟩
    · intro pk hm; exact (hd _ (inSpace_dataKey t.id pk)).trans (hs.absent pk hm)
    · intro pk x hm
      obtain ⟨b, hb, hg⟩ := hs.present pk x hm
      exact ⟨b, hb, (hd _ (inSpace_dataKey t.id pk)).trans hg⟩
    · intro k v hg hk
      rw [hd k hk] at hg
      exact hs.only_data k v hg hk
  · rintro idx (⟨ho, hi⟩ | ⟨hlv, hn⟩)
    · exact hok ho idx hi
    · exact agrees_congr (h.live idx hlv) (hdb _ hn)
  · rintro id ⟨hc, hn⟩ hne k hk
    exact ⟨(hdb id hn k hk).trans (h.clean id hc hne k hk).1, fun b hb => (by cases hb)⟩

theorem ERepresents.noBatch {t : Table T F} {e : EWorld T F} {s : EMaps T} (h : ERepresents t e s) (htx : s.maps.tx = none) : e.w.batch = none := by
  cases hb : e.w.batch with
  | none => rfl
  | some b =>
    obtain ⟨_, v, hv, _⟩ := h.rows.opened b hb
    rw [htx] at hv
    cases hv

theorem ERepresents.reIndexed {t : Table T F} (rt : t.RoundTripFresh) {e : EWorld T F} {s : EMaps T} (h : ERepresents t e s) (htx : s.maps.tx = none)
    {reg idxs : List (Index T)} (wf : (withIndexes t reg).WF) (hsub : ∀ i ∈ idxs, i ∈ reg ∧ i.id ≠ 0xFF) (commitOk : Nat → Bool)
    {locks : LockedIndexes T} (hl : locks = ⟨false, reg⟩) :
    ∃ er e', t.reIndexStep { e with locks := locks } idxs commitOk = (.done er, e') ∧ ((∀ n, commitOk n = true) → er = none) ∧
      ERepresents t e' { s.reindexed idxs (er = none) with reg := reg } := by
  have hb := h.noBatch htx
  obtain ⟨g1, g2⟩ := reIndex_agrees rt wf (fun i hi => (hsub i hi).1) (fun i hi => (hsub i hi).2) commitOk h.rows.stored
  refine ⟨_, _, rfl, g1, ?_⟩
  have hdb : ∀ id, ¬ numbers idxs id → ∀ k, InSpace t.id id k → ((t.reIndex commitOk e.w.db idxs).db e.w.db).get k = e.w.db.get k := by
    intro id hid k hk
    have := reIndex_away t commitOk e.w.db idxs (t.reIndex commitOk e.w.db idxs).commits.length hid hk
    rw [List.take_length] at this
    exact this
  have := h.away hb (fun i hi => wf.nz i (hsub i hi).1) hdb (ok := (t.reIndex commitOk e.w.db idxs).err = none) (fun ho => g2 ho) hl wf
  have hm : s.maps = ⟨s.maps.stored, none⟩ := by
    cases hms : s.maps with
    | mk a b => rw [hms] at htx; cases htx; rfl
  have hw : ({ e.w with db := (t.reIndex commitOk e.w.db idxs).db e.w.db, batch := none } : PWorld F) =
      { e.w with db := (t.reIndex commitOk e.w.db idxs).db e.w.db } := by rw [← hb]
  rw [← hm, hw] at this
  exact this

/-- C102 (one action): the answer and what is there afterwards are those of the specification. -/
theorem C102_step {t : Table T F} (rt : t.RoundTrip) (fs : t.FilterSound) (hp : 0 < t.prefetch)
    {srt : (T → T → Bool) → List T → List T} (hsrt : SortSlice srt) {e : EWorld T F} {s : EMaps T} (h : ERepresents t e s) {x : EStep T}
    (hx : EProper1 t s x) :
    ∃ N a e' s', (∀ fuel, N ≤ fuel → t.estep srt fuel e x = some (a, e')) ∧ EDoes t s x a s' ∧ ERepresents t e' s' := by
  have rtf : t.RoundTripFresh := fun x b hb => rt x b hb _
  have hlocks : e.locks = ⟨false, s.reg⟩ := by
    cases he : e.locks with
    | mk a b =>
      have h1 := h.unlocked
      have h2 := h.reg
      rw [he] at h1 h2
      cases h1; cases h2; rfl
  cases x with
  | act x =>
    obtain ⟨hr, hx⟩ := hx
    obtain ⟨N, a, w', s', h1, h2, h3⟩ := C97_step (t := withIndexes t s.reg) h.wf rt fs hp hsrt (h.represents hr) hx
    refine ⟨N, a, ⟨w', e.locks⟩, ⟨s', s.reg, _, _⟩, ?_, ⟨h2, rfl, rfl, rfl⟩, ?_⟩
    · intro fuel hf
      simp only [Table.estep, LockedIndexes.read, h.unlocked, h.reg]
      have := h1 fuel hf
      unfold withIndexes at this
      simp [this]
    · have hN := h1 N (Nat.le_refl _)
      refine ⟨h.unlocked, h.reg, h.wf, ⟨holds_bare h3.stored, h3.covers, h3.closed, ?_⟩, ?_, ?_, ?_⟩
      · intro b hb
        obtain ⟨g1, v, g2, g3, g4⟩ := h3.opened b hb
        exact ⟨g1, v, g2, holds_bare g3, g4⟩
      · intro b hb v hv idx hi
        obtain ⟨g1, v', g2, g3, g4⟩ := h3.opened b hb
        have : v' = v := by
          have := g2.symm.trans hv
          simpa using this
        subst this
        exact g3.index idx hi
      · rintro idx (hi | ⟨hlv, hc⟩)
        · exact h3.stored.index idx hi
        · simp only
          rw [(pstep_same hc hN).1, does_same hc h2]
          exact h.live idx hlv
      · rintro id ⟨hc, hn⟩ hne k hk
        have h0 := h.clean id hc hne k hk
        simp only
        by_cases hch : mayChange x = true
        · refine pstep_none hx hN ⟨?_, ?_⟩ h0
          · exact fun hs => hne (C09_disjoint hs hk).2.symm
          · exact fun i hi hs => hn hch ⟨i, hi, (C09_disjoint hs hk).2⟩
        · obtain ⟨g1, g2⟩ := pstep_same (by simpa using hch) hN
          rw [g1]
          refine ⟨h0.1, fun b hb => ?_⟩
          rcases g2 b hb with g | g
          · exact h0.2 b g
          · rw [g]; exact h0.1
  | addIndex idxs re commitOk =>
    obtain ⟨htx, hn, hi⟩ := hx
    have wf' : (withIndexes t (s.reg ++ idxs)).WF := by
      refine ⟨hn, ?_, ?_, ?_⟩ <;> intro i hi' <;> rcases List.mem_append.1 hi' with g | g
      · exact h.wf.nz i g
      · exact (hi i g).1
      · exact h.wf.klen i g
      · exact fun x => ((hi i g).2.2 x).1
      · exact h.wf.olen i g
      · exact fun x => ((hi i g).2.2 x).2
    have hadd : e.locks.addIndex idxs = some (⟨false, s.reg ++ idxs⟩, false) := by
      rw [hlocks]
      simp only [LockedIndexes.addIndex, addIndexLoop_ok idxs s.reg hn, Bool.false_eq_true, if_false]
    cases re with
    | false =>
      refine ⟨0, .done none, { e with locks := ⟨false, s.reg ++ idxs⟩ }, _, fun fuel _ => ?_, ⟨rfl, rfl⟩, ?_⟩
      · simp only [Table.estep, hadd, Bool.false_eq_true, if_false]
      · exact ⟨rfl, rfl, wf', h.rows, fun b hb => (by rw [h.noBatch htx] at hb; cases hb), h.live, h.clean⟩
    | true =>
      obtain ⟨er, e', h1, h2, h3⟩ := h.reIndexed rtf htx wf' (idxs := idxs)
        (fun i g => ⟨List.mem_append.2 (Or.inr g), (hi i g).2.1 rfl⟩) commitOk rfl
      refine ⟨0, .done er, e', _, fun fuel _ => ?_, ⟨er, rfl, h2, rfl⟩, h3⟩
      simp only [Table.estep, hadd, if_true, h1]
  | reIndex idxs commitOk =>
    obtain ⟨htx, hi⟩ := hx
    obtain ⟨er, e', h1, h2, h3⟩ := h.reIndexed rtf htx h.wf hi commitOk hlocks
    refine ⟨0, .done er, e', _, fun fuel _ => ?_, ⟨er, rfl, h2, rfl⟩, h3⟩
    simp only [Table.estep]
    rw [h1]
  | crash idxs commitOk n =>
    obtain ⟨htx, hi⟩ := hx
    refine ⟨0, _, _, _, fun fuel _ => rfl, ⟨rfl, rfl⟩, ?_⟩
    exact h.away (h.noBatch htx) (fun i g => h.wf.nz i (hi i g).1) (fun id hid k hk => reIndex_away t commitOk e.w.db idxs n hid hk)
      (fun hf => hf.elim) rfl ⟨by simp [withIndexes], by simp [withIndexes], by simp [withIndexes], by simp [withIndexes]⟩
  | reopen =>
    refine ⟨0, _, _, _, fun fuel _ => rfl, ⟨rfl, rfl⟩, ?_⟩
    exact ⟨rfl, rfl, ⟨by simp [withIndexes], by simp [withIndexes], by simp [withIndexes], by simp [withIndexes]⟩,
      ⟨h.rows.stored, h.rows.covers, fun _ => rfl, fun b hb => (by cases hb)⟩, fun b hb => (by cases hb), h.live,
      fun id hc hne k hk => ⟨(h.clean id hc hne k hk).1, fun b hb => (by cases hb)⟩⟩

/-- C102: any number of calls on a table, with and without transactions, between which indexes are added, rebuilt, left out by a new
table object and added again, ReIndex fails or the process ends during it; within the documented use. Then all calls are answered by one map, which
none of this changes, and every registered index is a sorted view of it. -/
theorem C102 {t : Table T F} (rt : t.RoundTrip) (fs : t.FilterSound) (hp : 0 < t.prefetch)
    {srt : (T → T → Bool) → List T → List T} (hsrt : SortSlice srt) (l : List (EStep T)) : ∀ {e : EWorld T F} {s : EMaps T},
    ERepresents t e s → EProper t s l →
    ∃ N as e' s', (∀ fuel, N ≤ fuel → t.erun srt fuel e l = some (as, e')) ∧ EBehaves t s l as s' ∧ ERepresents t e' s' := by
  induction l with
  | nil => intro e s h _; exact ⟨0, [], e, s, fun _ _ => rfl, .nil, h⟩
  | cons x l ih =>
    intro e s h hx
    obtain ⟨N, a, e', s', h1, h2, h3⟩ := C102_step rt fs hp hsrt h hx.1
    obtain ⟨M, as, e'', s'', g1, g2, g3⟩ := ih h3 (hx.2 a s' h2)
    refine ⟨max N M, a :: as, e'', s'', fun fuel hf => ?_, .cons h2 g2, g3⟩
    simp only [Table.erun]
    rw [h1 fuel (by omega)]
    simp only
    rw [g1 fuel (by omega)]
    rfl

/-- the beginning: no rows, no indexes, no entries -/
def Spec.EMaps.start : EMaps T := ⟨⟨fun _ => none, none⟩, [], fun _ => False, fun _ => True⟩

/-- C102 from the beginning: a new table on a database without entries of it. -/
theorem C102_start {t : Table T F} (rt : t.RoundTrip) (fs : t.FilterSound) (hp : 0 < t.prefetch)
    {srt : (T → T → Bool) → List T → List T} (hsrt : SortSlice srt) {db : KV} (h : ∀ id k, InSpace t.id id k → db.get k = none) (f : F)
    (l : List (EStep T)) (hl : EProper t EMaps.start l) :
    ∃ N as e' s', (∀ fuel, N ≤ fuel → t.erun srt fuel ⟨⟨db, f, none⟩, ⟨false, []⟩⟩ l = some (as, e')) ∧ EBehaves t EMaps.start l as s' ∧
      ERepresents t e' s' := by
  refine C102 rt fs hp hsrt l ⟨rfl, rfl, ⟨by simp [withIndexes, EMaps.start], ?_, ?_, ?_⟩, ⟨?_, fun fl _ pk x hx => (by cases hx), fun _ => rfl,
    fun b hb => (nomatch hb)⟩, fun b hb => (nomatch hb), fun _ h => False.elim h, fun id _ _ k hk => ⟨h id k hk, fun b hb => (nomatch hb)⟩⟩ hl
  · intro i hi; cases hi
  · intro i hi; cases hi
  · intro i hi; cases hi
  · refine holds_none (fun k hk => ?_)
    by_cases h0 : InSpace t.id 0 k
    · exact h 0 k h0
    · exact absurd ⟨h0, fun i hi => (by cases hi)⟩ hk

/-- a second index of the examples: by number, then group -/
def exIndex9 : Index Rec := { id := 9, key := fun x => [x.1], ord := fun x => [x.2], filter := fun x => x.2 != 6 }

/-- the calls of the examples, on the table with the given indexes -/
def c102Call (l : List (Index Rec)) (c : TCall Rec) : EStep Rec := .act (.call (stdEnv (withIndexes exTable l)) false c)

/-- A program: an index is registered with the new table; rows are inserted; the process starts again with the same index, and adds another,
which is rebuilt in vain once; it starts again without any index, changes a row, and starts again with the first index, which is
rebuilt: the process ends during it, and it is done again. -/
def c102Program : List (EStep Rec) :=
  [.addIndex [exIndex] false (fun _ => true), c102Call [exIndex] (.write (.insert [(1, 5), (2, 6)])),
   c102Call [exIndex] (.scanIndex exIndex (.point (0, 5)) false), .reopen, .addIndex [exIndex] false (fun _ => true),
   c102Call [exIndex] (.scanIndex exIndex (.point (0, 6)) false), .addIndex [exIndex9] true (fun n => n == 0), .reIndex [exIndex9] (fun _ => true),
   c102Call [exIndex, exIndex9] (.scanIndex exIndex9 (.point (1, 0)) false), .reopen, c102Call [] (.write (.update [(1, 6)])), .reopen,
   .addIndex [exIndex] false (fun _ => true), .crash [exIndex] (fun _ => true) 1, .addIndex [exIndex] true (fun _ => true),
   c102Call [exIndex] (.scanIndex exIndex (.point (0, 6)) false)]

example : (exTable.erun insSort 30 ⟨⟨KV.empty, (), none⟩, ⟨false, []⟩⟩ c102Program).map Prod.fst = some
    [.done none, .done none, .rows [(1, 5)] none, .done none, .done none, .rows [(2, 6)] none, .done (some .commit), .done none, .rows [(1, 5)] none,
     .done none, .done none, .done none, .done none, .done none, .done none, .rows [(1, 6), (2, 6)] none] := by
  decide +kernel

/-- the state within the program: the indexes are registered and can be used, and no transaction is open -/
def C102Good (l : List (Index Rec)) (s : EMaps Rec) : Prop := s.reg = l ∧ s.maps.tx = none ∧ ∀ i ∈ l, s.Ready i

theorem c102_write {l : List (Index Rec)} {s : EMaps Rec} (h : C102Good l s) {c : WCall Rec} {rest : List (EStep Rec)}
    (hw : ∀ m, ProperWrite (withIndexes exTable l) (stdEnv (withIndexes exTable l)) m c) (hr : ∀ s', C102Good l s' → EProper exTable s' rest) :
    EProper exTable s (c102Call l (.write c) :: rest) := by
  obtain ⟨rfl, h2, h3⟩ := h
  refine ⟨⟨h3, stdEnv_ok _, by simp [h2], hw _⟩, fun a s' hs => hr s' ?_⟩
  obtain ⟨⟨_, _, _, g⟩, g1, g2, _⟩ := hs
  exact ⟨g1, g.trans h2, fun i hi => Or.inl (by rw [g2]; exact Or.inl hi)⟩

theorem c102_read {l : List (Index Rec)} {s : EMaps Rec} (h : C102Good l s) {i : Index Rec} {p : Rec} {rest : List (EStep Rec)} (hi : i ∈ l)
    (hk : NoTrailingFF (i.key p) ∧ (i.key p).length < 2 ^ 32 - 1) (hr : ∀ s', C102Good l s' → EProper exTable s' rest) :
    EProper exTable s (c102Call l (.scanIndex i (.point p) false) :: rest) := by
  obtain ⟨rfl, h2, h3⟩ := h
  refine ⟨⟨h3, stdEnv_ok _, Or.inl hi, ⟨by simp [Selector.elems], by simpa [Selector.elems] using hk.2⟩, hk.1⟩, fun a s' hs => hr s' ?_⟩
  obtain ⟨⟨_, g⟩, g1, g2, _⟩ := hs
  exact ⟨g1, by rw [g]; exact h2, fun i hi => Or.inl (by rw [g2]; exact Or.inl hi)⟩

/-- the program is within the documented use, so C102 speaks about it -/
example : EProper exTable EMaps.start c102Program := by
  have h1 : ∀ i ∈ [exIndex], i.id ≠ 0 ∧ (true = true → i.id ≠ 0xFF) ∧ ∀ x, (i.key x).length < 2 ^ 32 ∧ (i.ord x).length < 2 ^ 32 := by
    simp [exIndex]
  have h9 : ∀ i ∈ [exIndex9], i.id ≠ 0 ∧ (true = true → i.id ≠ 0xFF) ∧ ∀ x, (i.key x).length < 2 ^ 32 ∧ (i.ord x).length < 2 ^ 32 := by
    simp [exIndex9]
  refine ⟨⟨rfl, by simp [EMaps.start, EMaps.reindexed], fun i hi => ⟨(h1 i hi).1, fun _ => (h1 i hi).2.1 rfl, (h1 i hi).2.2⟩⟩, ?_⟩
  rintro _ _ ⟨-, rfl⟩
  refine c102_write (l := [exIndex]) ⟨rfl, rfl, fun i _ => Or.inr ⟨trivial, fun _ => rfl⟩⟩ (fun m => Or.inl (by decide)) fun s g => ?_
  refine c102_read g (by simp) (by simp [NoTrailingFF, exIndex]) fun s g => ?_
  refine ⟨trivial, ?_⟩
  rintro _ _ ⟨-, rfl⟩
  refine ⟨⟨rfl, by simp [EMaps.start, EMaps.reindexed], fun i hi => ⟨(h1 i hi).1, fun _ => (h1 i hi).2.1 rfl, (h1 i hi).2.2⟩⟩, ?_⟩
  rintro _ _ ⟨-, rfl⟩
  refine c102_read (l := [exIndex]) (i := exIndex) (p := (0, 6)) ⟨rfl, rfl, fun i hi => ?_⟩ (by simp) (by simp [NoTrailingFF, exIndex]) fun s g => ?_
  · exact g.2.2 i hi
  refine ⟨⟨g.2.1, by rw [g.1]; decide, h9⟩, ?_⟩
  rintro _ _ ⟨e, -, -, rfl⟩
  refine ⟨⟨g.2.1, by simp [g.1, exIndex9]⟩, ?_⟩
  rintro _ _ ⟨e', -, he, rfl⟩
  refine c102_read (l := [exIndex, exIndex9]) (i := exIndex9) (p := (1, 0)) ⟨?_, ?_, ?_⟩ (by simp)
    (by simp [NoTrailingFF, exIndex9]) fun s g => ?_
  · simp [EMaps.reindexed, g.1]
  · exact g.2.1
  · intro i hi
    simp only [List.mem_cons, List.not_mem_nil, or_false] at hi
    rcases hi with rfl | rfl
    · have hn : ¬ numbers [exIndex9] exIndex.id := by simp [numbers, exIndex9, exIndex]
      rcases g.2.2 exIndex (by simp) with hl | ⟨hc, hr⟩
      · exact Or.inl (Or.inr ⟨Or.inr ⟨hl, hn⟩, hn⟩)
      · exact Or.inr ⟨⟨⟨hc, hn⟩, hn⟩, hr⟩
    · exact Or.inl (Or.inl ⟨he (fun _ => rfl), by simp⟩)
  refine ⟨trivial, ?_⟩
  rintro _ _ ⟨-, rfl⟩
  refine c102_write (l := []) ⟨rfl, rfl, by simp⟩ (fun m => Or.inl (by decide)) fun s g => ?_
  refine ⟨trivial, ?_⟩
  rintro _ _ ⟨-, rfl⟩
  refine ⟨⟨rfl, by simp [EMaps.start, EMaps.reindexed], fun i hi => ⟨(h1 i hi).1, fun _ => (h1 i hi).2.1 rfl, (h1 i hi).2.2⟩⟩, ?_⟩
  rintro _ _ ⟨-, rfl⟩
  refine ⟨⟨rfl, by simp [exIndex]⟩, ?_⟩
  rintro _ _ ⟨-, rfl⟩
  refine ⟨⟨rfl, by simp [EMaps.start, EMaps.reindexed], h1⟩, ?_⟩
  rintro _ _ ⟨e, -, he, rfl⟩
  refine c102_read (l := [exIndex]) ⟨rfl, rfl, ?_⟩ (by simp) (by simp [NoTrailingFF, exIndex]) fun s g => trivial
  intro i hi
  exact Or.inl (Or.inl ⟨he (fun _ => rfl), hi⟩)

/-- What C102 leaves out: AddIndex with a number that is registered already, or twice in the list. It is refused and changes no row; but from
then on calls on the table object wait forever (C37). A new table object goes on as if AddIndex had not been called. -/
theorem C102_refused {t : Table T F} (rt : t.RoundTrip) (fs : t.FilterSound) (hp : 0 < t.prefetch)
    {srt : (T → T → Bool) → List T → List T} (hsrt : SortSlice srt) {e : EWorld T F} {s : EMaps T} (h : ERepresents t e s)
    {idxs : List (Index T)} (hn : ¬ ((s.reg ++ idxs).map Index.id).Nodup) (re : Bool) (commitOk : Nat → Bool) :
    ∃ e', (∀ fuel, t.estep srt fuel e (.addIndex idxs re commitOk) = some (.done (some .alreadyExist), e')) ∧ e'.w = e.w ∧
      (∀ fuel x, t.estep srt fuel e' (.act x) = none) ∧ (∀ fuel l re ok, t.estep srt fuel e' (.addIndex l re ok) = none) ∧
      ∃ N e'' s'', (∀ fuel, N ≤ fuel → t.estep srt fuel e' .reopen = some (.done none, e'')) ∧ EDoes t s .reopen (.done none) s'' ∧
        ERepresents t e'' s'' := by
  have hreg : (e.locks.indexes.map Index.id).Nodup := by rw [h.reg]; exact h.wf.ids
  obtain ⟨locks, hl⟩ := (C37_partial e.locks h.unlocked hreg idxs).2 (by rw [h.reg]; exact hn)
  obtain ⟨h1, h2⟩ := C37_refuted e.locks h.unlocked idxs hl
  obtain ⟨N, a, e'', s'', g1, g2, g3⟩ := C102_step rt fs hp hsrt h (x := .reopen) trivial
  have ha : a = .done none := g2.1
  subst ha
  refine ⟨{ e with locks := locks }, fun fuel => ?_, rfl, fun fuel x => ?_, fun fuel l re ok => ?_, N, e'', s'', fun fuel hf => g1 fuel hf, g2, g3⟩
  · simp only [Table.estep, hl]
  · simp only [Table.estep, h1]
  · simp only [Table.estep, h2]

example : (exTable.estep insSort 9 ⟨⟨exDB, (), none⟩, ⟨false, [exIndex]⟩⟩ (.addIndex [{ exIndex with id := 2 }, exIndex] true (fun _ => true))).map Prod.fst =
    some (.done (some .alreadyExist)) := by decide

/-- C102 needs that no transaction is open when an index is added: the rows written through it have no entries of the index. -/
theorem C102_needs_closed : (exTable.erun insSort 30 ⟨⟨KV.empty, (), none⟩, ⟨false, []⟩⟩
    [.act .begin, .act (.call (stdEnv (withIndexes exTable [])) true (.write (.insert [(1, 5)]))), .addIndex [exIndex] true (fun _ => true),
     .act (.commit true), c102Call [exIndex] (.get (1, 0)), c102Call [exIndex] (.scanIndex exIndex (.point (0, 5)) false)]).map Prod.fst = some
    [.done none, .done none, .done none, .done none, .row (.ok (1, 5)), .rows [] none] := by
  decide +kernel

/-- C102 needs that indexes left out by a process that wrote are rebuilt: they have entries of rows that are not there any more. -/
theorem C102_needs_reindex : (exTable.erun insSort 30 ⟨⟨KV.empty, (), none⟩, ⟨false, []⟩⟩
    [.addIndex [exIndex] false (fun _ => true), c102Call [exIndex] (.write (.insert [(1, 5)])), .reopen, c102Call [] (.write (.delete [(1, 5)])),
     .reopen, .addIndex [exIndex] false (fun _ => true), c102Call [exIndex] (.scanIndex exIndex (.point (0, 5)) false)]).map Prod.fst = some
    [.done none, .done none, .done none, .done none, .done none, .done none, .rows [] (some .notFound)] := by
  decide +kernel

example : exTable.RoundTrip ∧ exTable.FilterSound ∧ 0 < exTable.prefetch ∧ SortSlice (insSort (T := Rec)) :=
  ⟨exTable_rt, fun fl h => (by cases h), by decide, insSort_ok⟩

end Bond
