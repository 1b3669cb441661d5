import Verif.Props.Writes
/-
C12: exactly which calls of Insert are accepted.
-/
namespace Bond
open Spec
variable {T F : Type}

/-- positions `i` and `j` of the rows belong to the same group of 5000 -/
def Spec.DistinctInGroups (pk : T → Bytes) (trs : List T) : Prop :=
  ∀ (i j : Nat) (x y : T), i < j → i / 5000 = j / 5000 → trs[i]? = some x → trs[j]? = some y → pk x ≠ pk y

theorem insertLoop_distinct {t : Table T F} {env : Env T} {entries : List (Bytes × Bytes)} {trs : List T}
    {items : List (Bytes × Nat)} {rs : List T} (hd : Describes t trs items rs) :
    ∀ {prev : Option Bytes} {s s' : WSt T F}, rs.Pairwise (fun a b => ble (t.key a) (t.key b) = true) →
    t.insertLoop env entries trs prev items s = (s', none) →
    (rs.map t.key).Nodup ∧ ∀ p, prev = some p → (∀ r ∈ rs, ble p (t.key r) = true) → p ∉ rs.map t.key := by
  induction hd with
  | nil => intro prev s s' _ _; exact ⟨by simp, by simp⟩
  | @cons e r items rs hr hd ih =>
    intro prev s s' hs he
    obtain ⟨key, j⟩ := e
    obtain ⟨hj, hk⟩ := hr
    simp only at hj hk
    subst hk
    rw [Table.insertLoop] at he
    split at he
    · simp at he
    split at he
    · simp at he
    rename_i hnd
    rw [not_or] at hnd
    rw [hj] at he
    simp only at he
    split at he
    · simp at he
    rw [List.pairwise_cons] at hs
    obtain ⟨a, b⟩ := ih hs.2 he
    have hr' := b _ rfl hs.1
    refine ⟨?_, ?_⟩
    · rw [List.map_cons, List.nodup_cons]; exact ⟨hr', a⟩
    · rintro p rfl hp hm
      rcases List.mem_cons.1 (by simpa using hm : p ∈ t.key r :: rs.map t.key) with h | h
      · exact hnd.1 (by rw [h])
      · obtain ⟨y, hy, rfl⟩ := List.mem_map.1 h
        have : t.key y = t.key r := ble_antisymm (hp r (by simp)) (hs.1 y hy)
        exact hr' (this ▸ h)

theorem insertChunk_distinct {t : Table T F} {env : Env T} (ok : env.OK t) {db : KV} {ob : Option Batch} {trs : List T}
    {s : WSt T F} (he : (t.insertChunk env db ob trs s).2 = none) : (trs.map t.pk).Nodup := by
  obtain ⟨hd, hp⟩ := describes_sort t env ok trs
  have h := (insertLoop_distinct hd (List.pairwise_map.1 (sortedRows_sorted t ok trs))
    (show t.insertChunk env db ob trs s = ((t.insertChunk env db ob trs s).1, none) from Prod.ext rfl he)).1
  have h2 := (hp.map t.key).nodup_iff.1 h
  have : trs.map t.key = (trs.map t.pk).map (dataKey t.id) := by rw [List.map_map]; rfl
  rw [this] at h2
  exact List.Pairwise.of_map (dataKey t.id) (fun a b h e => h (by rw [e])) h2

theorem mem_batchedLoop {α : Type} (items : List α) {bs : Nat} (hbs : 0 < bs) (c : List α) (fuel k : Nat)
    (hf : items.length ≤ fuel + k * bs) :
    c ∈ batchedLoop items bs fuel k ↔ ∃ n, k ≤ n ∧ n * bs < items.length ∧ c = (items.drop (n * bs)).take bs := by
  induction fuel generalizing k with
  | zero =>
    simp only [batchedLoop, List.not_mem_nil, false_iff, not_exists, not_and]
    intro n hn h
    have := Nat.mul_le_mul_right bs hn
    omega
  | succ fuel ih =>
    unfold batchedLoop
    have hk : (k + 1) * bs = k * bs + bs := by rw [Nat.add_mul]; omega
    split
    · rename_i hlt
      rw [List.mem_cons, ih (k + 1) (by omega)]
      have hc : List.drop (k * bs) (List.take (if k * bs + bs > items.length then k * bs + items.length % bs else k * bs + bs) items) =
          (items.drop (k * bs)).take bs := by
        split
        · rename_i hgt
          have hmod : items.length % bs = items.length - k * bs := by
            have h1 : items.length = (items.length - k * bs) + bs * k := by rw [Nat.mul_comm bs k]; omega
            rw [h1, Nat.add_mul_mod_self_left, Nat.mod_eq_of_lt (by omega), Nat.mul_comm bs k]; omega
          rw [hmod, show k * bs + (items.length - k * bs) = items.length by omega, List.take_length,
            List.take_of_length_le (by rw [List.length_drop]; omega)]
        · rw [List.drop_take, show k * bs + bs - k * bs = bs by omega]
      simp only [hc]
      constructor
      · rintro (rfl | ⟨n, hn, h1, h2⟩)
        · exact ⟨k, Nat.le_refl _, hlt, rfl⟩
        · exact ⟨n, by omega, h1, h2⟩
      · rintro ⟨n, hn, h1, h2⟩
        rcases Nat.eq_or_lt_of_le hn with rfl | hn
        · exact Or.inl h2
        · exact Or.inr ⟨n, hn, h1, h2⟩
    · rename_i hge
      simp only [List.not_mem_nil, false_iff, not_exists, not_and]
      intro n hn h
      have := Nat.mul_le_mul_right bs hn
      omega

/-- pairwise different in every slice -/
theorem slices_distinct (pk : T → Bytes) (trs : List T) :
    (∀ c ∈ batched trs persistentBatchSize, (c.map pk).Nodup) ↔ DistinctInGroups pk trs := by
  have hm := fun c => mem_batchedLoop trs (by decide : 0 < persistentBatchSize) c trs.length 0 (by omega)
  unfold batched
  simp only [hm]
  constructor
  · intro h i j x y hij hd hx hy e
    have hj : j < trs.length := (List.getElem?_eq_some_iff.1 hy).1
    have h5 : persistentBatchSize = 5000 := rfl
    have hn := h _ ⟨j / 5000, by omega, by rw [h5]; have := Nat.div_mul_le_self j 5000; omega, rfl⟩
    rw [h5] at hn
    have hi2 : j / 5000 * 5000 ≤ i := by rw [← hd]; exact Nat.div_mul_le_self i 5000
    have hj2 : j < j / 5000 * 5000 + 5000 := by omega
    have gx : (((trs.drop (j / 5000 * 5000)).take 5000).map pk)[i - j / 5000 * 5000]? = some (pk x) := by
      rw [List.getElem?_map, List.getElem?_take, if_pos (by omega), List.getElem?_drop,
        show j / 5000 * 5000 + (i - j / 5000 * 5000) = i by omega, hx]; rfl
    have gy : (((trs.drop (j / 5000 * 5000)).take 5000).map pk)[j - j / 5000 * 5000]? = some (pk y) := by
      rw [List.getElem?_map, List.getElem?_take, if_pos (by omega), List.getElem?_drop,
        show j / 5000 * 5000 + (j - j / 5000 * 5000) = j by omega, hy]; rfl
    have hlt := (List.getElem?_eq_some_iff.1 gx).1
    have := (List.getElem?_inj (j := j - j / 5000 * 5000) hlt hn).1 (by rw [gx, gy, e])
    omega
  · rintro h c ⟨n, _, hn, rfl⟩
    have h5 : persistentBatchSize = 5000 := rfl
    rw [h5]
    rw [List.nodup_iff_pairwise_ne, List.pairwise_iff_getElem]
    intro i j hi hj hij e
    rw [List.length_map, List.length_take, List.length_drop] at hi hj
    simp only [List.getElem_map, List.getElem_take, List.getElem_drop] at e
    exact h (n * 5000 + i) (n * 5000 + j) _ _ (by omega) (by omega) (List.getElem?_eq_getElem (by omega))
      (List.getElem?_eq_getElem (by omega)) e

theorem forChunks_slices {σ α : Type} {f : List α → σ → σ × Option Err} {P : List α → Prop} (hf : ∀ c s, (f c s).2 = none → P c) :
    ∀ cs s, (forChunks f cs s).2 = none → ∀ c ∈ cs, P c := by
  intro cs
  induction cs with
  | nil => simp
  | cons c cs ih =>
    intro s h d hd
    rw [forChunks] at h
    split at h
    · rename_i s' h1
      rcases List.mem_cons.1 hd with rfl | hd
      · exact hf _ s (by rw [h1])
      · exact ih s' h d hd
    · simp at h

/-- C12 (exact, no batch): if the context is not cancelled, commits succeed and the rows can be serialized, Insert of any rows
is accepted exactly if none of the keys is stored and no key is repeated within a group of 5000 rows (rows 0 to 4999, 5000 to
9999, …). Missing for the full C12: repetitions in different groups, which are accepted. -/
theorem C12_exact_partial {t : Table T F} {env : Env T} (ok : env.OK t) (fs : t.FilterSound)
    {db : KV} {f : F} {m : Rows T} {trs : List T} (hH : Holds t db m) (hF : FilterCovers t f m)
    (hdone : ∀ n, env.done n = false) (hc : env.commitOk = true) (hser : ∀ x ∈ trs, (t.ser x).isSome) :
    (t.insert env db f none trs).err = none ↔ (∀ x ∈ trs, m (t.pk x) = none) ∧ DistinctInGroups t.pk trs := by
  rw [← slices_distinct]
  constructor
  · intro he
    refine ⟨fun x hx => ?_, ?_⟩
    · cases hm : m (t.pk x) with
      | none => rfl
      | some y => exact absurd he (C12_stored ok fs hH hF hx (by rw [hm]; rfl)).1
    · exact forChunks_slices (fun c s h => insertChunk_distinct ok h) _ _ (finish_ok he).1
  · rintro ⟨ha, hg⟩
    unfold Table.insert Table.insertBs
    apply finish_complete _ hc
    refine forChunks_complete (P := fun cs _ => ∀ c ∈ cs, c ∈ batched trs persistentBatchSize) ?_ _ _ (fun c h => h)
    intro c cs s hP
    refine ⟨?_, fun d hd => hP d (by simp [hd])⟩
    have hcm := hP c (by simp)
    have hin : ∀ r ∈ c, r ∈ trs := by
      intro r hr
      rw [← batched_flatten trs (by decide : 0 < persistentBatchSize)]
      exact List.mem_flatten.2 ⟨c, hcm, hr⟩
    exact insertChunk_complete ok hdone (fun r hr => hser r (hin r hr)) (fun r hr => hH.absent _ (ha r (hin r hr))) (hg c hcm)

/-- the theorem at two new rows -/
example : (exTable.insert (stdEnv exTable) exDB () none [(4, 7), (3, 9)]).err = none ↔
    (∀ x ∈ [((4, 7) : Rec), (3, 9)], Rows.putAll (fun _ => none) exTable.pk [(1, 5), (2, 6)] (exTable.pk x) = none) ∧
      DistinctInGroups exTable.pk [((4, 7) : Rec), (3, 9)] :=
  C12_exact_partial (stdEnv_ok exTable) exTable_fs exDB_holds (covers_nofilter rfl _ _) (fun _ => rfl) rfl (fun _ _ => rfl)

/-- C12 (exact, read-write batch): through a read-write batch, for any number of rows, Insert is accepted exactly if none of the
keys is stored in what the batch shows and no key is repeated, also across groups. -/
theorem C12_exact_batch {t : Table T F} (wf : t.WF) {env : Env T} (ok : env.OK t) (fs : t.FilterSound)
    {db : KV} {f : F} {m : Rows T} {b : Batch} (hb : b.indexed = true) {trs : List T} (hH : Holds t (db.apply b.ops) m)
    (hF : FilterCovers t f m) (hdone : ∀ n, env.done n = false) (hser : ∀ x ∈ trs, (t.ser x).isSome) :
    (t.insert env db f (some b) trs).err = none ↔ (∀ x ∈ trs, m (t.pk x) = none) ∧ (trs.map t.pk).Nodup := by
  constructor
  · intro he
    obtain ⟨_, _, _, _, h1, h2⟩ := C11_batch wf ok fs hb hH hF he
    exact ⟨h2, h1⟩
  · rintro ⟨h1, h2⟩
    exact insertBody_complete wf ok fs (by decide) (bs := persistentBatchSize) (ob := some b) hH hF
      (Or.inl ⟨b, rfl, hb⟩) hdone hser h2 h1

/-- the hypotheses hold for two different new rows (accepted) and for a stored and a repeated key (refused) -/
example : Holds exTable exDB (Rows.putAll (fun _ => none) exTable.pk [(1, 5), (2, 6)]) ∧
    (exTable.insert (stdEnv exTable) exDB () none [(3, 5), (4, 6)]).err = none ∧
    (exTable.insert (stdEnv exTable) exDB () none [(3, 5), (3, 6)]).err = some .alreadyExist ∧
    (exTable.insert (stdEnv exTable) exDB () none [(3, 5), (1, 6)]).err = some .alreadyExist :=
  ⟨exDB_holds, by decide, by decide, by decide⟩

/-- through a read-write batch that has inserted row 3: row 4 is accepted, row 3 is refused -/
example : (exTable.insert (stdEnv exTable) exDB () (some ⟨true, [.set (dataKey 7 [3]) [3, 3]]⟩) [(4, 6)]).err = none ∧
    (exTable.insert (stdEnv exTable) exDB () (some ⟨true, [.set (dataKey 7 [3]) [3, 3]]⟩) [(3, 6)]).err = some .alreadyExist := by
  decide

end Bond
