import Verif.RowsLemmas
/- Facts about iterator seeks, `batched`, sorting and the abstract row maps. -/
namespace Bond
open Spec
variable {T F : Type}

theorem seekExact_getL {l : List (Bytes × Bytes)} (h : SortedKV l) (key : Bytes) :
    seekExact l key = KV.getL key l := by
  induction l with
  | nil => rfl
  | cons a r ih =>
    obtain ⟨a, w⟩ := a
    unfold SortedKV at h ih
    rw [List.pairwise_cons] at h
    unfold KV.getL
    unfold seekExact seekGE at *
    rw [List.find?_cons]
    by_cases hk : ble key a = true
    · simp only [hk]
      split
      · rfl
      · rename_i hne
        symm
        cases hg : KV.getL key r with
        | none => rfl
        | some v =>
          have hm := h.1 _ (KV.mem_of_getL hg)
          simp only at hm
          have := blt_of_ble_of_blt hk hm
          rw [blt_irrefl] at this; simp at this
    · simp only [Bool.not_eq_true] at hk
      simp only [hk]
      rw [ih h.2, if_neg]
      intro e; subst e; rw [ble_refl] at hk; simp at hk

theorem seekExact_scan (V : KV) {lo hi key : Bytes} (h1 : ble lo key = true) (h2 : blt key hi = true) :
    seekExact (V.scan lo hi) key = V.get key := by
  rw [seekExact_getL (V.scan_sorted lo hi)]
  have : (⟨V.scan lo hi, V.scan_sorted lo hi⟩ : KV) = V.filterKeys (fun k => ble lo k && blt k hi) := rfl
  have h := KV.get_filterKeys V (fun k => ble lo k && blt k hi) key
  rw [← this] at h
  simp only [h1, h2, Bool.and_self, if_true] at h
  exact h

theorem dataKey_lt_end (t : Table T F) (pk : Bytes) : blt (dataKey t.id pk) t.dataKeySpaceEnd = true := by
  rw [dataKey_eq, Table.dataKeySpaceEnd]; simp [blt]

/-- the loop of `batched` cuts the list into consecutive slices -/
theorem batchedLoop_flatten {α : Type} (items : List α) {bs : Nat} (hbs : 0 < bs) (fuel k : Nat)
    (hf : items.length ≤ fuel + k * bs) : (batchedLoop items bs fuel k).flatten = items.drop (k * bs) := by
  induction fuel generalizing k with
  | zero => simp [batchedLoop]; omega
  | succ fuel ih =>
    unfold batchedLoop
    split
    · rename_i hlt
      have hk : (k + 1) * bs = k * bs + bs := by rw [Nat.add_mul]; omega
      simp only [List.flatten_cons]
      rw [ih (k + 1) (by omega), hk]
      split
      · rename_i hgt
        have hmod : items.length % bs = items.length - k * bs := by
          have h1 : items.length = (items.length - k * bs) + bs * k := by rw [Nat.mul_comm bs k]; omega
          rw [h1, Nat.add_mul_mod_self_left, Nat.mod_eq_of_lt (by omega), Nat.mul_comm bs k]; omega
        rw [hmod, show k * bs + (items.length - k * bs) = items.length by omega, List.take_length,
          show items.drop (k * bs + bs) = [] from List.drop_eq_nil_of_le (by omega), List.append_nil]
      · rw [List.drop_take, show k * bs + bs - k * bs = bs by omega, ← List.drop_drop, List.take_append_drop]
    · simp; omega

theorem batched_flatten {α : Type} (items : List α) {bs : Nat} (hbs : 0 < bs) : (batched items bs).flatten = items := by
  rw [batched, batchedLoop_flatten items hbs _ _ (by omega)]; simp

theorem batched_single {α : Type} (items : List α) {bs : Nat} (h : items.length ≤ bs) (hne : items ≠ []) :
    batched items bs = [items] := by
  have hlen : 0 < items.length := List.length_pos_iff.2 hne
  unfold batched
  obtain ⟨n, hn⟩ : ∃ n, items.length = n + 1 := ⟨items.length - 1, by omega⟩
  rw [hn]
  unfold batchedLoop
  have h2 : batchedLoop items bs n 1 = [] := by
    cases n with
    | zero => rfl
    | succ n => unfold batchedLoop; rw [if_neg (by omega)]
  rw [if_pos (by omega), h2]
  simp only [Nat.zero_mul, Nat.zero_add, List.drop_zero, List.cons.injEq, and_true]
  split
  · rw [Nat.mod_eq_of_lt (by omega), List.take_length]
  · exact List.take_of_length_le h

theorem batched_nil {α : Type} (bs : Nat) : batched ([] : List α) bs = [] := rfl

/-! abstract maps -/

theorem put_apply (m : Rows T) (pk : Bytes) (x : T) (p : Bytes) :
    m.put pk x p = if p = pk then some x else m p := rfl

theorem put_comm (m : Rows T) {p q : Bytes} (h : p ≠ q) (x y : T) :
    (m.put p x).put q y = (m.put q y).put p x := by
  funext r; simp only [put_apply]
  by_cases h1 : r = p <;> by_cases h2 : r = q <;> simp_all

theorem put_put (m : Rows T) (p : Bytes) (x y : T) : (m.put p x).put p y = m.put p y := by
  funext r; simp only [put_apply]; by_cases h1 : r = p <;> simp_all

theorem putAll_cons (m : Rows T) (pk : T → Bytes) (x : T) (xs : List T) :
    m.putAll pk (x :: xs) = (m.put (pk x) x).putAll pk xs := rfl

theorem putAll_append (m : Rows T) (pk : T → Bytes) (xs ys : List T) :
    m.putAll pk (xs ++ ys) = (m.putAll pk xs).putAll pk ys := by simp [Rows.putAll]

theorem putAll_other (m : Rows T) (pk : T → Bytes) (xs : List T) (p : Bytes) (h : ∀ x ∈ xs, pk x ≠ p) :
    m.putAll pk xs p = m p := by
  induction xs generalizing m with
  | nil => rfl
  | cons x xs ih =>
    rw [putAll_cons, ih _ (fun y hy => h y (by simp [hy])), put_apply, if_neg (fun e => h x (by simp) e.symm)]

theorem putAll_put_comm (m : Rows T) (pk : T → Bytes) (x : T) (xs : List T) (h : ∀ y ∈ xs, pk y ≠ pk x) :
    (m.put (pk x) x).putAll pk xs = (m.putAll pk xs).put (pk x) x := by
  induction xs generalizing m with
  | nil => rfl
  | cons y ys ih =>
    rw [putAll_cons, putAll_cons, put_comm _ (fun e => h y (by simp) e.symm), ih _ (fun z hz => h z (by simp [hz]))]

theorem putAll_perm (pk : T → Bytes) {xs ys : List T} (hp : xs.Perm ys) (hnd : (xs.map pk).Nodup) (m : Rows T) :
    m.putAll pk xs = m.putAll pk ys := by
  induction hp generalizing m with
  | nil => rfl
  | cons x _ ih =>
    rw [putAll_cons, putAll_cons]
    exact ih (List.nodup_cons.1 hnd).2 _
  | swap x y l =>
    simp only [List.map_cons, List.nodup_cons, List.mem_cons, not_or] at hnd
    rw [putAll_cons, putAll_cons, putAll_cons, putAll_cons, put_comm _ hnd.1.1]
  | trans h1 _ ih1 ih2 =>
    rw [ih1 hnd, ih2 ((h1.map pk).nodup_iff.1 hnd)]

theorem putAll_mem (m : Rows T) (pk : T → Bytes) {xs : List T} (hnd : (xs.map pk).Nodup) {x : T} (hx : x ∈ xs) :
    m.putAll pk xs (pk x) = some x := by
  induction xs generalizing m with
  | nil => simp at hx
  | cons y ys ih =>
    simp only [List.map_cons, List.nodup_cons] at hnd
    rw [putAll_cons]
    simp only [List.mem_cons] at hx
    rcases hx with rfl | hx
    · rw [putAll_other]
      · simp [put_apply]
      · intro z hz e; exact hnd.1 (e ▸ List.mem_map.2 ⟨z, hz, rfl⟩)
    · exact ih _ hnd.2 hx

/-! sorted keys -/

/-- the records in the order of the sorted keys -/
def sortedRows (t : Table T F) (env : Env T) (trs : List T) : List T :=
  (env.sort (trs.map t.key)).filterMap (fun j => trs[j]?)

/-- list of (key, position) pairs describes the rows `rs` of the slice `trs` -/
inductive Describes (t : Table T F) (trs : List T) : List (Bytes × Nat) → List T → Prop
  | nil : Describes t trs [] []
  | cons {e : Bytes × Nat} {r : T} {items : List (Bytes × Nat)} {rs : List T}
      (h : trs[e.2]? = some r ∧ e.1 = t.key r) (hr : Describes t trs items rs) : Describes t trs (e :: items) (r :: rs)

theorem describes_sort (t : Table T F) (env : Env T) (ok : env.OK t) (trs : List T) :
    Describes t trs (sortKeys env (trs.map t.key)) (sortedRows t env trs) ∧ (sortedRows t env trs).Perm trs := by
  have hp := ok.sort_perm (trs.map t.key)
  rw [List.length_map] at hp
  unfold sortKeys sortedRows
  constructor
  · have hb : ∀ j ∈ env.sort (trs.map t.key), j < trs.length := by
      intro j hj; simpa using hp.mem_iff.1 hj
    revert hb
    generalize env.sort (trs.map t.key) = l
    intro hb
    induction l with
    | nil => exact Describes.nil
    | cons j l ih =>
      have hj := hb j (by simp)
      rw [List.map_cons, List.filterMap_cons]
      rw [List.getElem?_eq_getElem hj]
      refine Describes.cons ?_ (ih (fun k hk => hb k (by simp [hk])))
      simp [hj]
  · have h1 : ((env.sort (trs.map t.key)).filterMap (fun j => trs[j]?)).Perm
        ((List.range trs.length).filterMap (fun j => trs[j]?)) := hp.filterMap _
    have h2 : (List.range trs.length).filterMap (fun j => trs[j]?) = trs := by
      clear h1 hp
      induction trs with
      | nil => rfl
      | cons x xs ih =>
        rw [List.length_cons, List.range_succ_eq_map, List.filterMap_cons, List.filterMap_map]
        simp only [List.getElem?_cons_zero, List.cons.injEq, true_and]
        exact ih
    rw [h2] at h1; exact h1

theorem Describes.keys {t : Table T F} {trs : List T} {items : List (Bytes × Nat)} {rs : List T}
    (h : Describes t trs items rs) : items.map Prod.fst = rs.map t.key := by
  induction h with
  | nil => rfl
  | cons h _ ih => simp only [List.map_cons, ih, h.2]

theorem sortKeys_sorted (t : Table T F) (env : Env T) (ok : env.OK t) (keys : List Bytes) :
    ((sortKeys env keys).map Prod.fst).Pairwise (fun a b => ble a b = true) := by
  have := ok.sort_sorted keys
  unfold sortKeys
  rw [List.map_map]; exact this

theorem key_inj {t : Table T F} {x y : T} : t.key x = t.key y ↔ t.pk x = t.pk y :=
  ⟨fun h => (dataKey_inj h).2, fun h => by unfold Table.key; rw [h]⟩

/-- rows of two databases holding the same row for `p` have the same data entry for `p` -/
theorem holds_get_eq {t : Table T F} {V W : KV} {m m' : Rows T} (h : Holds t V m) (h' : Holds t W m') {p : Bytes}
    (e : m p = m' p) : V.get (dataKey t.id p) = W.get (dataKey t.id p) := by
  cases hm : m p with
  | none => rw [h.absent p hm, h'.absent p (e ▸ hm)]
  | some x =>
    obtain ⟨u, h1, h2⟩ := h.present p x hm
    obtain ⟨v, h3, h4⟩ := h'.present p x (e ▸ hm)
    rw [h1] at h3; simp at h3; subst h3; rw [h2, h4]

end Bond
