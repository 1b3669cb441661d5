import Verif.ReIndex
import Verif.RowsLemmas
import Verif.SuccLemmas
import Verif.Props.Reads
/-
Properties C36 and C37: ReIndex and AddIndex.
-/
namespace Bond
open Spec
variable {T F : Type}

/-! ## helper lemmas -/

theorem commitStep_mem {commitOk : Nat → Bool} {commits : List (List WOp)} {ops : List WOp} {o : WOp}
    (h : o ∈ (commitStep commitOk commits ops).commits.flatten) : o ∈ commits.flatten ∨ o ∈ ops := by
  unfold commitStep at h
  split at h
  · exact Or.inl h
  · split at h
    · rw [List.flatten_append, List.mem_append] at h
      rcases h with h | h
      · exact Or.inl h
      · exact Or.inr (by simpa using h)
    · exact Or.inl h

theorem commitStep_ok {commitOk : Nat → Bool} {commits : List (List WOp)} {ops : List WOp}
    (h : (commitStep commitOk commits ops).err = none) : (commitStep commitOk commits ops).commits.flatten = commits.flatten ++ ops := by
  unfold commitStep at h ⊢
  split
  · rename_i he; simp [he]
  · rename_i he
    rw [if_neg he] at h
    split
    · simp
    · rename_i hc; rw [if_neg hc] at h; simp at h

/-- writes of the row loop -/
def rowOps (t : Table T F) (idxs : List (Index T)) (e : Bytes × Bytes) : List WOp :=
  match t.deser t.nil e.2 with
  | none => []
  | some x => idxs.flatMap (fun idx => onInsert t idx x)

theorem reIndexLoop_mem (t : Table T F) (commitOk : Nat → Bool) (size : Nat) (idxs : List (Index T)) (es : List (Bytes × Bytes)) :
    ∀ counter ops commits (o : WOp), o ∈ (t.reIndexLoop commitOk size idxs es counter ops commits).commits.flatten →
      o ∈ commits.flatten ∨ o ∈ ops ∨ ∃ e ∈ es, o ∈ rowOps t idxs e := by
  induction es with
  | nil => intro counter ops commits o h; exact (commitStep_mem h).imp id Or.inl
  | cons e es ih =>
    intro counter ops commits o h
    obtain ⟨k, v⟩ := e
    unfold Table.reIndexLoop at h
    split at h
    · exact Or.inl h
    · rename_i x hx
      have hrow : ∀ o, o ∈ idxs.flatMap (fun idx => onInsert t idx x) → o ∈ rowOps t idxs (k, v) := by
        intro o ho; unfold rowOps; rw [hx]; exact ho
      have happ : ∀ o, o ∈ ops ++ idxs.flatMap (fun idx => onInsert t idx x) → o ∈ ops ∨ ∃ e ∈ (k, v) :: es, o ∈ rowOps t idxs e := by
        intro o ho
        rcases List.mem_append.1 ho with ho | ho
        · exact Or.inl ho
        · exact Or.inr ⟨(k, v), by simp, hrow o ho⟩
      simp only at h
      split at h
      · cases hc : commitStep commitOk commits (ops ++ idxs.flatMap (fun idx => onInsert t idx x)) with
        | mk cs er =>
          rw [hc] at h
          have hmem : ∀ o, o ∈ cs.flatten → o ∈ commits.flatten ∨ o ∈ ops ++ idxs.flatMap (fun idx => onInsert t idx x) := by
            intro o ho; exact commitStep_mem (by rw [hc]; exact ho)
          cases er with
          | none =>
            rcases ih _ _ _ _ h with h | h | ⟨e, he, h⟩
            · exact (hmem o h).imp id (happ o)
            · simp at h
            · exact Or.inr (Or.inr ⟨e, by simp [he], h⟩)
          | some er => exact (hmem o h).imp id (happ o)
      · rcases ih _ _ _ _ h with h | h | ⟨e, he, h⟩
        · exact Or.inl h
        · exact Or.inr (happ o h)
        · exact Or.inr (Or.inr ⟨e, by simp [he], h⟩)

theorem reIndexLoop_ok (t : Table T F) (commitOk : Nat → Bool) (size : Nat) (idxs : List (Index T)) (es : List (Bytes × Bytes)) :
    ∀ counter ops commits, (t.reIndexLoop commitOk size idxs es counter ops commits).err = none →
      (t.reIndexLoop commitOk size idxs es counter ops commits).commits.flatten = commits.flatten ++ ops ++ es.flatMap (rowOps t idxs) := by
  induction es with
  | nil => intro counter ops commits h; simp [Table.reIndexLoop] at h ⊢; exact commitStep_ok h
  | cons e es ih =>
    intro counter ops commits h
    obtain ⟨k, v⟩ := e
    unfold Table.reIndexLoop at h ⊢
    cases hx : t.deser t.nil v with
    | none => rw [hx] at h; simp at h
    | some x =>
      have hrow : rowOps t idxs (k, v) = idxs.flatMap (fun idx => onInsert t idx x) := by unfold rowOps; rw [hx]
      rw [hx] at h
      simp only at h ⊢
      rw [List.flatMap_cons, hrow]
      split
      · rename_i hs
        rw [if_pos hs] at h
        cases hc : commitStep commitOk commits (ops ++ idxs.flatMap (fun idx => onInsert t idx x)) with
        | mk cs er =>
          rw [hc] at h
          cases er with
          | none =>
            simp only at h ⊢
            rw [ih _ _ _ h]
            have := commitStep_ok (commitOk := commitOk) (commits := commits) (ops := ops ++ idxs.flatMap (fun idx => onInsert t idx x)) (by rw [hc])
            rw [hc] at this
            simp only at this
            rw [this]; simp
          | some er => simp at h
      · rename_i hs
        rw [if_neg hs] at h
        rw [ih _ _ _ h]; simp

theorem reIndexLoop_total (t : Table T F) (size : Nat) (idxs : List (Index T)) (es : List (Bytes × Bytes))
    (hd : ∀ e ∈ es, (t.deser t.nil e.2).isSome) :
    ∀ counter ops commits, (t.reIndexLoop (fun _ => true) size idxs es counter ops commits).err = none := by
  have hc : ∀ commits ops, (commitStep (fun _ => true) commits ops).err = none := by
    intro commits ops; unfold commitStep; split <;> rfl
  induction es with
  | nil => intro _ _ _; exact hc _ _
  | cons e es ih =>
    intro counter ops commits
    obtain ⟨k, v⟩ := e
    have := hd (k, v) (by simp)
    rw [Option.isSome_iff_exists] at this
    obtain ⟨x, hx⟩ := this
    unfold Table.reIndexLoop
    simp only at hx
    rw [hx]
    simp only
    split
    · cases hcs : commitStep (fun _ => true) commits (ops ++ idxs.flatMap (fun idx => onInsert t idx x)) with
      | mk cs er =>
        have := hc commits (ops ++ idxs.flatMap (fun idx => onInsert t idx x))
        rw [hcs] at this; simp only at this; subst this
        exact ih (fun e he => hd e (by simp [he])) _ _ _
    · exact ih (fun e he => hd e (by simp [he])) _ _ _

/-- the deletions of `ReIndex` -/
def dropOp (t : Table T F) (idx : Index T) : WOp := .delRange [t.id, idx.id] [t.id, idx.id + 1]

theorem reIndexDelete_mem (t : Table T F) (commitOk : Nat → Bool) (idxs : List (Index T)) :
    ∀ commits (o : WOp), o ∈ (t.reIndexDelete commitOk idxs commits).commits.flatten →
      o ∈ commits.flatten ∨ ∃ idx ∈ idxs, o = dropOp t idx := by
  induction idxs with
  | nil => intro commits o h; exact Or.inl h
  | cons idx idxs ih =>
    intro commits o h
    unfold Table.reIndexDelete at h
    split at h
    · rcases ih _ _ h with h | ⟨i, hi, h⟩
      · rw [List.flatten_append, List.mem_append] at h
        rcases h with h | h
        · exact Or.inl h
        · exact Or.inr ⟨idx, by simp, by simpa [dropOp] using h⟩
      · exact Or.inr ⟨i, by simp [hi], h⟩
    · exact Or.inl h

theorem reIndexDelete_ok (t : Table T F) (commitOk : Nat → Bool) (idxs : List (Index T)) :
    ∀ commits, (t.reIndexDelete commitOk idxs commits).err = none →
      (t.reIndexDelete commitOk idxs commits).commits.flatten = commits.flatten ++ idxs.map (dropOp t) := by
  induction idxs with
  | nil => intro commits _; simp [Table.reIndexDelete]
  | cons idx idxs ih =>
    intro commits h
    unfold Table.reIndexDelete at h ⊢
    split
    · rename_i hc
      rw [if_pos hc] at h
      rw [ih _ h]; simp [dropOp]
    · rename_i hc
      rw [if_neg hc] at h; simp at h

theorem reIndexDelete_total (t : Table T F) (idxs : List (Index T)) : ∀ commits, (t.reIndexDelete (fun _ => true) idxs commits).err = none := by
  induction idxs with
  | nil => intro _; rfl
  | cons idx idxs ih => intro commits; unfold Table.reIndexDelete; exact ih _

theorem cons_pair_append (t i : UInt8) (r : Bytes) : [t] ++ [i] ++ r = t :: i :: r := rfl

/-- the range deleted for an index is its key space -/
theorem dropOp_touches (t : Table T F) {idx : Index T} (h : idx.id ≠ 0xFF) (k : Bytes) :
    (dropOp t idx).touches k ↔ InSpace t.id idx.id k := by
  have := between_succ (a := [t.id]) h k
  rw [keySuccessor_snoc [t.id] h] at this
  exact this

/-- the range deleted for index 255 contains no key -/
theorem dropOp_touches_sub (t : Table T F) (idx : Index T) {k : Bytes} (hk : (dropOp t idx).touches k) : InSpace t.id idx.id k := by
  by_cases h : idx.id = 0xFF
  · exfalso
    have h1 := blt_of_ble_of_blt hk.1 hk.2
    rw [h] at h1
    have : blt [t.id, 0xFF] [t.id, (0xFF : UInt8) + 1] = blt [0xFF] [0] := blt_append_left [t.id] [0xFF] [0]
    rw [this] at h1
    revert h1; decide
  · exact (dropOp_touches t h k).1 hk

theorem rowOps_touches {t : Table T F} {idxs : List (Index T)} {e : Bytes × Bytes} {o : WOp} (ho : o ∈ rowOps t idxs e) :
    ∃ idx ∈ idxs, ∃ x, t.deser t.nil e.2 = some x ∧ idx.filter x = true ∧ o = .set (t.indexKey idx x) [] := by
  unfold rowOps at ho
  split at ho
  · simp at ho
  · rename_i x hx
    rw [List.mem_flatMap] at ho
    obtain ⟨idx, hi, ho⟩ := ho
    unfold onInsert at ho
    split at ho
    · rename_i hf
      exact ⟨idx, hi, x, hx, hf, by simpa [indexKeyValue] using ho⟩
    · simp at ho

/-- every write of `ReIndex`, whatever fails, is in the key space of one of its indexes -/
theorem reIndex_ops {size : Nat} {t : Table T F} {commitOk : Nat → Bool} {db : KV} {idxs : List (Index T)} {o : WOp}
    (ho : o ∈ (t.reIndexBs size commitOk db idxs).commits.flatten) {k : Bytes} (hk : o.touches k) :
    ∃ idx ∈ idxs, InSpace t.id idx.id k := by
  have hdel : ∀ o, o ∈ (t.reIndexDelete commitOk idxs []).commits.flatten → o.touches k → ∃ idx ∈ idxs, InSpace t.id idx.id k := by
    intro o ho hk
    rcases reIndexDelete_mem t commitOk idxs [] o ho with h | ⟨idx, hi, rfl⟩
    · simp at h
    · exact ⟨idx, hi, dropOp_touches_sub t idx hk⟩
  unfold Table.reIndexBs at ho
  cases hd : t.reIndexDelete commitOk idxs [] with
  | mk commits er =>
    rw [hd] at ho hdel
    cases er with
    | some e => exact hdel o ho hk
    | none =>
      simp only at ho
      rcases reIndexLoop_mem _ _ _ _ _ _ _ _ _ ho with h | h | ⟨e, _, h⟩
      · exact hdel o h hk
      · simp at h
      · obtain ⟨idx, hi, x, _, _, rfl⟩ := rowOps_touches h
        simp only [WOp.touches] at hk
        subst hk
        exact ⟨idx, hi, inSpace_indexKey t idx x⟩

/-- writing empty values under many keys -/
theorem get_apply_sets (ops : List WOp) (hs : ∀ o ∈ ops, ∃ k, o = .set k []) (V : KV) (k v : Bytes) :
    (V.apply ops).get k = some v ↔ (v = [] ∧ .set k [] ∈ ops) ∨ (.set k [] ∉ ops ∧ V.get k = some v) := by
  induction ops generalizing V with
  | nil => simp [KV.apply_nil]
  | cons o ops ih =>
    obtain ⟨k', rfl⟩ := hs o (by simp)
    rw [KV.apply_cons, ih (fun o ho => hs o (by simp [ho]))]
    simp only [KV.apply1, KV.get_set, List.mem_cons, WOp.set.injEq, and_true]
    by_cases hk : k = k'
    · subst hk
      by_cases hm : WOp.set k [] ∈ ops <;> simp [hm, eq_comm]
    · simp [hk]

/-- the rows of a table, scanned like `ReIndex` does -/
theorem mem_scan_rows {t : Table T F} {V : KV} {m : Rows T} (h : Holds { t with indexes := [] } V m) (e : Bytes × Bytes) :
    e ∈ V.scan (keyPrefix t.id primaryIndexID []) (keySuccessor (keyPrefix t.id primaryIndexID [])) ↔
      ∃ pk x, m pk = some x ∧ t.ser x = some e.2 ∧ e.1 = dataKey t.id pk := by
  obtain ⟨k, v⟩ := e
  have hp : keyPrefix t.id primaryIndexID [] = [t.id, 0, 0, 0, 0] ++ [0] := by rw [keyPrefix_eq]; simp [beBytes4_zero, primaryIndexID]
  have hb := between_succ (a := [t.id, 0, 0, 0, 0]) (b := 0) (by decide) k
  rw [KV.mem_scan, hp, hb]
  constructor
  · rintro ⟨hg, r, rfl⟩
    obtain ⟨pk, hpk⟩ := h.only_data _ _ hg ⟨_, rfl⟩
    rw [hpk] at hg
    cases hm : m pk with
    | none => rw [h.absent pk hm] at hg; simp at hg
    | some x =>
      obtain ⟨b, hb, hg'⟩ := h.present pk x hm
      rw [show dataKey ({ t with indexes := [] } : Table T F).id pk = dataKey t.id pk from rfl] at hg' hg
      rw [hg] at hg'
      simp only [Option.some.injEq] at hg'
      subst hg'
      exact ⟨pk, x, hm, hb, hpk⟩
  · rintro ⟨pk, x, hm, hs, hk⟩
    simp only at hk hs
    subst hk
    obtain ⟨b, hb, hg'⟩ := h.present pk x hm
    have e : b = v := by
      rw [show ({ t with indexes := [] } : Table T F).ser x = t.ser x from rfl, hs] at hb
      simpa using hb.symm
    subst e
    exact ⟨hg', [0, 0, 0, 0] ++ pk, by rw [dataKey_eq]; rfl⟩

/-! ## C36 -/

/-- `t` without the given indexes -/
def Table.without (t : Table T F) (idxs : List (Index T)) : Table T F :=
  { t with indexes := t.indexes.filter (fun i => !(idxs.map Index.id).contains i.id) }

theorem holds_data {t : Table T F} {db : KV} {m : Rows T} {l l' : List (Index T)} (h : Holds { t with indexes := l } db m)
    (hsub : ∀ i ∈ l', i ∈ l) : Holds { t with indexes := l' } db m :=
  ⟨h.row_pk, h.absent, h.present, h.only_data, fun idx hi => h.index idx (hsub idx hi)⟩

/-- ReIndex never changes anything outside the key spaces of its indexes, however it ends and wherever it is interrupted. -/
theorem C36_outside (size : Nat) (t : Table T F) (commitOk : Nat → Bool) (db : KV) (idxs : List (Index T)) (n : Nat) {k : Bytes}
    (hk : ∀ idx ∈ idxs, ¬ InSpace t.id idx.id k) :
    (db.apply ((t.reIndexBs size commitOk db idxs).commits.take n).flatten).get k = db.get k := by
  apply get_apply_of_not_touch
  intro o ho ht
  have hmem : o ∈ (t.reIndexBs size commitOk db idxs).commits.flatten := by
    rw [List.mem_flatten] at ho ⊢
    obtain ⟨l, hl, ho⟩ := ho
    exact ⟨l, List.mem_of_mem_take hl, ho⟩
  obtain ⟨idx, hi, hs⟩ := reIndex_ops hmem ht
  exact hk idx hi hs

/-- C36, the rows and the other indexes: they survive ReIndex, also if it fails or crashes after any number `n` of its commits. -/
theorem C36_crash (size : Nat) {t : Table T F} (wf : t.WF) (commitOk : Nat → Bool) {db : KV} {m : Rows T} {idxs : List (Index T)}
    (hsub : ∀ idx ∈ idxs, idx ∈ t.indexes) (hH : Holds (t.without idxs) db m) (n : Nat) :
    Holds (t.without idxs) (db.apply ((t.reIndexBs size commitOk db idxs).commits.take n).flatten) m := by
  have hout : ∀ k, (∀ idx ∈ idxs, ¬ InSpace t.id idx.id k) →
      (db.apply ((t.reIndexBs size commitOk db idxs).commits.take n).flatten).get k = db.get k :=
    fun k hk => C36_outside size t commitOk db idxs n hk
  have hdat : ∀ k, InSpace t.id 0 k → ∀ idx ∈ idxs, ¬ InSpace t.id idx.id k := by
    intro k hk idx hi hs
    exact wf.nz idx (hsub idx hi) (C09_disjoint hk hs).2.symm
  refine ⟨hH.row_pk, ?_, ?_, ?_, ?_⟩
  · intro pk hm
    exact (hout _ (hdat _ (inSpace_dataKey t.id pk))).trans (hH.absent pk hm)
  · intro pk x hm
    obtain ⟨b, hb, hg⟩ := hH.present pk x hm
    exact ⟨b, hb, (hout _ (hdat _ (inSpace_dataKey t.id pk))).trans hg⟩
  · intro k v hg hs
    rw [hout _ (hdat _ hs)] at hg
    exact hH.only_data k v hg hs
  · intro idx hi k v hs
    rw [hout k]
    · exact hH.index idx hi k v hs
    · intro idx' hi' hs'
      have hid := (C09_disjoint hs hs').2
      have hi2 := hi
      simp only [Table.without, List.mem_filter, Bool.not_eq_true', List.contains_eq_mem, decide_eq_false_iff_not] at hi2
      exact hi2.2 (by rw [hid]; exact List.mem_map_of_mem hi')

/-- C36: if ReIndex returns without error then each of its indexes agrees with the data, whatever was stored under the index before
(nothing is assumed about it; by `C36_crash` this includes what an interrupted ReIndex left), and the rows and the other indexes
are as before. Index ids other than 255.
Missing for the full C36: index id 255, see `C36_refuted`. -/
theorem C36_partial (size : Nat) {t : Table T F} (wf : t.WF) (rt : t.RoundTripFresh) (commitOk : Nat → Bool) {db : KV} {m : Rows T}
    {idxs : List (Index T)} (hsub : ∀ idx ∈ idxs, idx ∈ t.indexes) (h255 : ∀ idx ∈ idxs, idx.id ≠ 0xFF)
    (hH : Holds (t.without idxs) db m) (hok : (t.reIndexBs size commitOk db idxs).err = none) :
    Holds t ((t.reIndexBs size commitOk db idxs).db db) m := by
  have hcr := C36_crash size wf commitOk hsub hH (t.reIndexBs size commitOk db idxs).commits.length
  rw [List.take_length] at hcr
  unfold ROut.db
  refine ⟨hcr.row_pk, hcr.absent, hcr.present, hcr.only_data, ?_⟩
  intro idx hi k v hs
  by_cases hin : idx.id ∈ idxs.map Index.id
  · -- one of the rebuilt indexes
    rw [List.mem_map] at hin
    obtain ⟨idx', hi', hid⟩ := hin
    have : idx' = idx := wf.id_inj (hsub idx' hi') hi hid
    subst this
    unfold Table.reIndexBs at hok ⊢
    cases hd : t.reIndexDelete commitOk idxs [] with
    | mk commits er =>
      rw [hd] at hok
      cases er with
      | some e => simp at hok
      | none =>
        simp only at hok ⊢
        have hdel := reIndexDelete_ok t commitOk idxs [] (by rw [hd])
        rw [hd] at hdel
        simp only [List.flatten_nil, List.nil_append] at hdel
        have hl := reIndexLoop_ok _ _ _ _ _ _ _ _ hok
        rw [hl, List.append_nil, KV.apply_append, get_apply_sets]
        · -- nothing of the index is left after the deletions
          have hnone : (db.apply commits.flatten).get k = none := by
            rw [hdel]
            have : ∀ (l : List (Index T)) (V : KV), idx' ∈ l → (∀ i ∈ l, i.id ≠ 0xFF) → (V.apply (l.map (dropOp t))).get k = none := by
              intro l
              induction l with
              | nil => intro V h; simp at h
              | cons i l ih =>
                intro V h hne
                rw [List.map_cons, KV.apply_cons]
                by_cases hil : idx' ∈ l
                · exact ih _ hil (fun i hi => hne i (by simp [hi]))
                · have : i = idx' := by rcases List.mem_cons.1 h with h | h; exact h.symm; exact absurd h hil
                  subst this
                  have h0 : (V.apply1 (dropOp t i)).get k = none := by
                    have := (dropOp_touches t (hne i (by simp)) k).2 hs
                    unfold dropOp WOp.touches at this
                    unfold dropOp KV.apply1
                    rw [KV.get_delRange, if_pos this]
                  have hkeep : ∀ (l : List (Index T)) (V : KV), V.get k = none → (V.apply (l.map (dropOp t))).get k = none := by
                    intro l
                    induction l with
                    | nil => intro V h; exact h
                    | cons j l ihl =>
                      intro V h
                      rw [List.map_cons, KV.apply_cons]
                      apply ihl
                      unfold dropOp KV.apply1
                      rw [KV.get_delRange]
                      split
                      · rfl
                      · exact h
                  exact hkeep l _ h0
            exact this idxs db hi' h255
          rw [hnone]
          -- the rows scanned
          have hD : Holds { t with indexes := [] } (db.apply commits.flatten) m := by
            have h0 : Holds { t with indexes := [] } db m := holds_data (t := t) (l := (t.without idxs).indexes) hH (by simp)
            have hget : ∀ k, InSpace t.id 0 k → (db.apply commits.flatten).get k = db.get k := by
              intro k hk
              rw [hdel]
              apply get_apply_of_not_touch
              intro o ho ht
              rw [List.mem_map] at ho
              obtain ⟨i, hi, rfl⟩ := ho
              exact wf.nz i (hsub i hi) (C09_disjoint hk (dropOp_touches_sub t i ht)).2.symm
            refine ⟨h0.row_pk, ?_, ?_, ?_, by simp⟩
            · intro pk hm; rw [hget _ (inSpace_dataKey t.id pk)]; exact h0.absent pk hm
            · intro pk x hm
              obtain ⟨b, hb, hg⟩ := h0.present pk x hm
              exact ⟨b, hb, by rw [hget _ (inSpace_dataKey t.id pk)]; exact hg⟩
            · intro k v hg hs
              rw [hget _ hs] at hg
              exact h0.only_data k v hg hs
          constructor
          · rintro (⟨hv, hm⟩ | ⟨_, hc⟩)
            · refine ⟨hv, ?_⟩
              rw [List.mem_flatMap] at hm
              obtain ⟨e, he, hm⟩ := hm
              obtain ⟨idx, hidx, x, hx, hf, heq⟩ := rowOps_touches hm
              obtain ⟨pk, y, hmy, hser, _⟩ := (mem_scan_rows hD e).1 he
              have hxy : x = y := by rw [rt y _ hser] at hx; simpa using hx.symm
              subst hxy
              simp only [WOp.set.injEq, and_true] at heq
              subst heq
              have hid2 := (C09_disjoint hs (inSpace_indexKey t idx x)).2
              have hsame : idx = idx' := wf.id_inj (hsub idx hidx) hi hid2.symm
              subst hsame
              exact ⟨pk, x, hmy, hf, rfl⟩
            · simp at hc
          · rintro ⟨hv, pk, x, hm, hf, hk⟩
            refine Or.inl ⟨hv, ?_⟩
            obtain ⟨b, hb, _⟩ := hD.present pk x hm
            rw [List.mem_flatMap]
            refine ⟨(dataKey t.id pk, b), (mem_scan_rows hD _).2 ⟨pk, x, hm, hb, rfl⟩, ?_⟩
            unfold rowOps
            simp only
            rw [rt x b hb]
            simp only
            rw [List.mem_flatMap]
            refine ⟨idx', hi', ?_⟩
            unfold onInsert
            rw [if_pos hf, hk]
            simp [indexKeyValue]
        · intro o ho
          rw [List.mem_flatMap] at ho
          obtain ⟨e, _, ho⟩ := ho
          obtain ⟨idx, _, x, _, _, rfl⟩ := rowOps_touches ho
          exact ⟨_, rfl⟩
  · -- an index that is not rebuilt
    refine hcr.index idx ?_ k v hs
    simp only [Table.without, List.mem_filter, Bool.not_eq_true', List.contains_eq_mem, decide_eq_false_iff_not]
    exact ⟨hi, hin⟩

/-- If no commit fails, ReIndex succeeds. -/
theorem C36_success (size : Nat) {t : Table T F} (wf : t.WF) (rt : t.RoundTripFresh) {db : KV} {m : Rows T}
    {idxs : List (Index T)} (hsub : ∀ idx ∈ idxs, idx ∈ t.indexes) (hH : Holds (t.without idxs) db m) :
    (t.reIndexBs size (fun _ => true) db idxs).err = none := by
  have ht := reIndexDelete_total t idxs []
  unfold Table.reIndexBs
  cases hd : t.reIndexDelete (fun _ => true) idxs [] with
  | mk commits er =>
    rw [hd] at ht
    simp only at ht
    subst ht
    simp only
    apply reIndexLoop_total
    intro e he
    have hdel := reIndexDelete_ok t (fun _ => true) idxs [] (by rw [hd])
    rw [hd] at hdel
    simp only [List.flatten_nil, List.nil_append] at hdel
    have h0 : Holds { t with indexes := [] } db m := holds_data (t := t) (l := (t.without idxs).indexes) hH (by simp)
    have hget : ∀ k, InSpace t.id 0 k → (db.apply commits.flatten).get k = db.get k := by
      intro k hk
      rw [hdel]
      apply get_apply_of_not_touch
      intro o ho ht
      rw [List.mem_map] at ho
      obtain ⟨i, hi, rfl⟩ := ho
      exact wf.nz i (hsub i hi) (C09_disjoint hk (dropOp_touches_sub t i ht)).2.symm
    have hD : Holds { t with indexes := [] } (db.apply commits.flatten) m := by
      refine ⟨h0.row_pk, ?_, ?_, ?_, by simp⟩
      · intro pk hm; rw [hget _ (inSpace_dataKey t.id pk)]; exact h0.absent pk hm
      · intro pk x hm
        obtain ⟨b, hb, hg⟩ := h0.present pk x hm
        exact ⟨b, hb, by rw [hget _ (inSpace_dataKey t.id pk)]; exact hg⟩
      · intro k v hg hs
        rw [hget _ hs] at hg
        exact h0.only_data k v hg hs
    obtain ⟨pk, x, _, hser, _⟩ := (mem_scan_rows hD e).1 he
    rw [rt x _ hser]; rfl

/-- C36 after any number of interrupted or failed runs: each run starts from what the one before left behind; the next run that
succeeds makes all indexes agree with the data. -/
theorem C36_heals {t : Table T F} (wf : t.WF) (rt : t.RoundTripFresh) {m : Rows T} {idxs : List (Index T)}
    (hsub : ∀ idx ∈ idxs, idx ∈ t.indexes) (h255 : ∀ idx ∈ idxs, idx.id ≠ 0xFF) (runs : List ((Nat → Bool) × Nat)) {db : KV}
    (hH : Holds (t.without idxs) db m) :
    let db' := runs.foldl (fun db r => db.apply ((t.reIndex r.1 db idxs).commits.take r.2).flatten) db
    Holds t ((t.reIndex (fun _ => true) db' idxs).db db') m := by
  induction runs generalizing db with
  | nil => exact C36_partial _ wf rt _ hsub h255 hH (C36_success _ wf rt hsub hH)
  | cons r runs ih => exact ih (C36_crash _ wf r.1 hsub hH r.2)

/-- an index with the highest id -/
def ex255 : Index Rec := { id := 0xFF, key := fun r => [r.2], ord := fun _ => [], filter := fun _ => true }

/-- table with that index -/
def exTable255 : Table Rec Unit := { exTable with indexes := [ex255] }

/-- C36 is false for index id 255: the deleted range is empty, so an entry that belongs to no row stays. The table has no rows. -/
theorem C36_refuted :
    let db := KV.empty.set (exTable255.indexKey ex255 (1, 5)) []
    Holds (exTable255.without [ex255]) db (fun _ => none) ∧
    (exTable255.reIndex (fun _ => true) db [ex255]).err = none ∧
    ¬ Holds exTable255 ((exTable255.reIndex (fun _ => true) db [ex255]).db db) (fun _ => none) := by
  have hk : ∀ k, InSpace exTable255.id 0 k → (KV.empty.set (exTable255.indexKey ex255 (1, 5)) []).get k = none := by
    intro k hk
    rw [KV.get_set, if_neg, KV.get_empty]
    rintro rfl
    have := (C09_disjoint hk (inSpace_indexKey exTable255 ex255 (1, 5))).2
    revert this; decide
  refine ⟨⟨by simp, fun pk _ => hk _ (inSpace_dataKey _ pk), by simp, ?_, ?_⟩, by decide, ?_⟩
  · intro k v hg hs
    rw [hk k hs] at hg; simp at hg
  · intro idx hi
    have : (exTable255.without [ex255]).indexes = [] := by simp [Table.without, exTable255]
    rw [this] at hi; simp at hi
  · intro h
    have hg : ((exTable255.reIndex (fun _ => true) (KV.empty.set (exTable255.indexKey ex255 (1, 5)) []) [ex255]).db
      (KV.empty.set (exTable255.indexKey ex255 (1, 5)) [])).get (exTable255.indexKey ex255 (1, 5)) = some [] := by decide
    have := (h.index ex255 (by simp [exTable255]) _ [] (inSpace_indexKey exTable255 ex255 (1, 5))).1 hg
    simp at this

/-- the deletions leave index 255 as it is -/
theorem dropOps_255 {t : Table T F} {idxs : List (Index T)} {k : Bytes} (hs : InSpace t.id 0xFF k) (V : KV) :
    (V.apply (idxs.map (dropOp t))).get k = V.get k := by
  apply get_apply_of_not_touch
  intro o ho ht
  rw [List.mem_map] at ho
  obtain ⟨i, _, rfl⟩ := ho
  have hid := (C09_disjoint hs (dropOp_touches_sub t i ht)).2
  have h1 := blt_of_ble_of_blt ht.1 ht.2
  rw [← hid] at h1
  have : blt [t.id, 0xFF] [t.id, (0xFF : UInt8) + 1] = blt [0xFF] [0] := blt_append_left [t.id] [0xFF] [0]
  rw [this] at h1
  revert h1; decide

/-- C36 for index id 255, exactly: a ReIndex without error adds the entries of all rows and removes nothing. -/
theorem C36_exact_255 (size : Nat) {t : Table T F} (wf : t.WF) (rt : t.RoundTripFresh) (commitOk : Nat → Bool) {db : KV} {m : Rows T}
    {idxs : List (Index T)} (hsub : ∀ idx ∈ idxs, idx ∈ t.indexes)
    (hH : Holds (t.without idxs) db m) (hok : (t.reIndexBs size commitOk db idxs).err = none)
    {idx : Index T} (hi : idx ∈ idxs) (h255 : idx.id = 0xFF) {k : Bytes} (hs : InSpace t.id idx.id k) :
    (((t.reIndexBs size commitOk db idxs).db db).get k).isSome = true ↔
      (db.get k).isSome = true ∨ ∃ pk x, m pk = some x ∧ idx.filter x = true ∧ k = t.indexKey idx x := by
  unfold ROut.db
  unfold Table.reIndexBs at hok ⊢
  cases hd : t.reIndexDelete commitOk idxs [] with
  | mk commits er =>
    rw [hd] at hok
    cases er with
    | some e => simp at hok
    | none =>
      simp only at hok ⊢
      have hdel := reIndexDelete_ok t commitOk idxs [] (by rw [hd])
      rw [hd] at hdel
      simp only [List.flatten_nil, List.nil_append] at hdel
      have hl := reIndexLoop_ok _ _ _ _ _ _ _ _ hok
      rw [hl, List.append_nil, KV.apply_append]
      have hleft : (db.apply commits.flatten).get k = db.get k := by
        rw [hdel]; exact dropOps_255 (by rw [← h255]; exact hs) db
      have hD : Holds { t with indexes := [] } (db.apply commits.flatten) m := by
        have h0 : Holds { t with indexes := [] } db m := holds_data (t := t) (l := (t.without idxs).indexes) hH (by simp)
        have hget : ∀ k, InSpace t.id 0 k → (db.apply commits.flatten).get k = db.get k := by
          intro k hk
          rw [hdel]
          apply get_apply_of_not_touch
          intro o ho ht
          rw [List.mem_map] at ho
          obtain ⟨i, hi, rfl⟩ := ho
          exact wf.nz i (hsub i hi) (C09_disjoint hk (dropOp_touches_sub t i ht)).2.symm
        refine ⟨h0.row_pk, ?_, ?_, ?_, by simp⟩
        · intro pk hm; rw [hget _ (inSpace_dataKey t.id pk)]; exact h0.absent pk hm
        · intro pk x hm
          obtain ⟨b, hb, hg⟩ := h0.present pk x hm
          exact ⟨b, hb, by rw [hget _ (inSpace_dataKey t.id pk)]; exact hg⟩
        · intro k v hg hs
          rw [hget _ hs] at hg
          exact h0.only_data k v hg hs
      have hsets := fun V k v => get_apply_sets (((db.apply commits.flatten).scan (keyPrefix t.id primaryIndexID []) (keySuccessor (keyPrefix t.id primaryIndexID []))).flatMap (rowOps t idxs)) (by
        intro o ho
        rw [List.mem_flatMap] at ho
        obtain ⟨e, _, ho⟩ := ho
        obtain ⟨idx, _, x, _, _, rfl⟩ := rowOps_touches ho
        exact ⟨_, rfl⟩) V k v
      have hmem : WOp.set k [] ∈ ((db.apply commits.flatten).scan (keyPrefix t.id primaryIndexID []) (keySuccessor (keyPrefix t.id primaryIndexID []))).flatMap (rowOps t idxs) ↔
          ∃ pk x, m pk = some x ∧ idx.filter x = true ∧ k = t.indexKey idx x := by
        rw [List.mem_flatMap]
        constructor
        · rintro ⟨e, he, hm⟩
          obtain ⟨idx2, hidx, x, hx, hf, heq⟩ := rowOps_touches hm
          obtain ⟨pk, y, hmy, hser, _⟩ := (mem_scan_rows hD e).1 he
          have hxy : x = y := by rw [rt y _ hser] at hx; simpa using hx.symm
          subst hxy
          simp only [WOp.set.injEq, and_true] at heq
          subst heq
          have hid2 := (C09_disjoint hs (inSpace_indexKey t idx2 x)).2
          have hsame : idx2 = idx := wf.id_inj (hsub idx2 hidx) (hsub idx hi) hid2.symm
          subst hsame
          exact ⟨pk, x, hmy, hf, rfl⟩
        · rintro ⟨pk, x, hm, hf, hk⟩
          obtain ⟨b, hb, _⟩ := hD.present pk x hm
          refine ⟨(dataKey t.id pk, b), (mem_scan_rows hD _).2 ⟨pk, x, hm, hb, rfl⟩, ?_⟩
          unfold rowOps
          simp only
          rw [rt x b hb]
          simp only
          rw [List.mem_flatMap]
          refine ⟨idx, hi, ?_⟩
          unfold onInsert
          rw [if_pos hf, hk]
          simp [indexKeyValue]
      rw [← hmem, ← hleft, Option.isSome_iff_exists]
      constructor
      · rintro ⟨v, hv⟩
        rcases (hsets _ _ _).1 hv with ⟨_, h⟩ | ⟨_, h⟩
        · exact Or.inr h
        · exact Or.inl (by rw [h]; rfl)
      · intro h
        by_cases hc : WOp.set k [] ∈ ((db.apply commits.flatten).scan (keyPrefix t.id primaryIndexID []) (keySuccessor (keyPrefix t.id primaryIndexID []))).flatMap (rowOps t idxs)
        · exact ⟨[], (hsets _ _ _).2 (Or.inl ⟨rfl, hc⟩)⟩
        · rcases h with h | h
          · obtain ⟨v, hv⟩ := Option.isSome_iff_exists.1 h
            exact ⟨v, (hsets _ _ _).2 (Or.inr ⟨hc, hv⟩)⟩
          · exact (hc h).elim

/-- `C36_exact_255` at a table with a row and a stale entry: afterwards there are both entries -/
example :
    let db := (KV.empty.set (dataKey exTable255.id [2]) [2, 6]).set (exTable255.indexKey ex255 (1, 5)) []
    let db' := (exTable255.reIndex (fun _ => true) db [ex255]).db db
    (exTable255.reIndex (fun _ => true) db [ex255]).err = none ∧ (db.get (exTable255.indexKey ex255 (2, 6))).isSome = false ∧
    (db'.get (exTable255.indexKey ex255 (2, 6))).isSome = true ∧ (db'.get (exTable255.indexKey ex255 (1, 5))).isSome = true := by
  decide

/-- hypotheses of `C36_partial`: a stale and missing index entries are repaired -/
example : (exTable.reIndex (fun _ => true) (exDB.del (exTable.indexKey exIndex (1, 5))) [exIndex]).err = none ∧
    Holds (exTable.without [exIndex]) (exDB.del (exTable.indexKey exIndex (1, 5))) (Rows.putAll (fun _ => none) exTable.pk [(1, 5), (2, 6)]) := by
  refine ⟨by decide, ?_⟩
  have h := exDB_holds
  have hk : ∀ k, InSpace exTable.id 0 k → (exDB.del (exTable.indexKey exIndex (1, 5))).get k = exDB.get k := by
    intro k hk
    rw [KV.get_del, if_neg]
    rintro rfl
    have := (C09_disjoint hk (inSpace_indexKey exTable exIndex (1, 5))).2
    revert this; decide
  refine ⟨h.row_pk, fun pk hm => (hk _ (inSpace_dataKey _ pk)).trans (h.absent pk hm), ?_, ?_, ?_⟩
  · intro pk x hm
    obtain ⟨b, hb, hg⟩ := h.present pk x hm
    exact ⟨b, hb, (hk _ (inSpace_dataKey _ pk)).trans hg⟩
  · intro k v hg hs; rw [hk k hs] at hg; exact h.only_data k v hg hs
  · intro idx hi
    have : (exTable.without [exIndex]).indexes = [] := by simp [Table.without, exTable]
    rw [this] at hi; simp at hi

/-! ## C37 -/

/-- C37 is false: after AddIndex was refused because of a duplicate id, every call that needs the list of indexes waits forever, and
so does AddIndex itself; indexes before the duplicate were registered. -/
theorem C37_refuted (s : LockedIndexes T) (hs : s.writeLocked = false) (idxs : List (Index T)) {s' : LockedIndexes T}
    (h : s.addIndex idxs = some (s', true)) : s'.read = none ∧ ∀ more, s'.addIndex more = none := by
  unfold LockedIndexes.addIndex at h
  rw [hs] at h
  simp only [Bool.false_eq_true, if_false] at h
  split at h
  · simp only [Option.some.injEq, Prod.mk.injEq, and_true] at h
    subst h
    exact ⟨rfl, fun _ => rfl⟩
  · simp at h

example : ∃ s', (⟨false, [exIndex]⟩ : LockedIndexes Rec).addIndex [{ exIndex with id := 2 }, exIndex] = some (s', true) ∧
    s'.indexes.map Index.id = [1, 2] := ⟨_, rfl, by decide⟩

theorem addIndexLoop_ok (idxs : List (Index T)) : ∀ reg, ((reg ++ idxs).map Index.id).Nodup → addIndexLoop idxs reg = (reg ++ idxs, false) := by
  induction idxs with
  | nil => intro reg _; simp [addIndexLoop]
  | cons idx idxs ih =>
    intro reg h
    unfold addIndexLoop
    have hno : reg.any (fun i => i.id == idx.id) = false := by
      rw [List.any_eq_false]
      intro i hi he
      rw [List.map_append, List.nodup_append] at h
      exact h.2.2 i.id (List.mem_map_of_mem hi) idx.id (by simp) (by simpa using he)
    rw [hno]
    simp only [Bool.false_eq_true, if_false]
    rw [ih (reg ++ [idx]) (by simpa using h)]
    simp

theorem addIndexLoop_err (idxs : List (Index T)) : ∀ reg, (reg.map Index.id).Nodup → ¬ ((reg ++ idxs).map Index.id).Nodup →
    (addIndexLoop idxs reg).2 = true := by
  induction idxs with
  | nil => intro reg h h'; simp at h'; exact absurd h h'
  | cons idx idxs ih =>
    intro reg h h'
    unfold addIndexLoop
    split
    · rfl
    · rename_i hno
      apply ih
      · rw [List.map_append, List.nodup_append]
        refine ⟨h, by simp, ?_⟩
        intro a ha b hb e
        simp only [List.map_cons, List.map_nil, List.mem_singleton] at hb
        subst hb; subst e
        rw [List.mem_map] at ha
        obtain ⟨i, hi, ha⟩ := ha
        exact hno (List.any_eq_true.2 ⟨i, hi, by simpa using ha⟩)
      · simpa using h'

/-- C37, what holds: without duplicate ids AddIndex registers exactly the given indexes, the table stays usable and sees them; with
a duplicate id it returns an error.
Missing for the full C37: the table is not usable after the error, see `C37_refuted`. -/
theorem C37_partial (s : LockedIndexes T) (hs : s.writeLocked = false) (hn : (s.indexes.map Index.id).Nodup) (idxs : List (Index T)) :
    (((s.indexes ++ idxs).map Index.id).Nodup → ∃ s', s.addIndex idxs = some (s', false) ∧ s'.read = some (s.indexes ++ idxs)) ∧
    (¬ ((s.indexes ++ idxs).map Index.id).Nodup → ∃ s', s.addIndex idxs = some (s', true)) := by
  unfold LockedIndexes.addIndex
  rw [hs]
  simp only [Bool.false_eq_true, if_false]
  refine ⟨fun h => ?_, fun h => ?_⟩
  · rw [addIndexLoop_ok idxs s.indexes h]
    exact ⟨_, rfl, rfl⟩
  · have := addIndexLoop_err idxs s.indexes hn h
    cases hl : addIndexLoop idxs s.indexes with
    | mk a b =>
      rw [hl] at this
      simp only at this
      subst this
      exact ⟨_, rfl⟩

end Bond
