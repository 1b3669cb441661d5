import Verif.Spec.Rows
import Verif.KeyLemmas
namespace Bond
open Spec
variable {T F : Type}

/-- keys an operation writes -/
def WOp.touches (k : Bytes) : WOp → Prop
  | .set a _ => a = k
  | .del a => a = k
  | .delRange a b => ble a k = true ∧ blt k b = true

theorem get_apply1_of_not_touch (V : KV) (o : WOp) (k : Bytes) (h : ¬ o.touches k) :
    (V.apply1 o).get k = V.get k := by
  cases o <;> simp only [WOp.touches] at h <;> simp only [KV.apply1]
  · rw [KV.get_set, if_neg (fun e => h e.symm)]
  · rw [KV.get_del, if_neg (fun e => h e.symm)]
  · rw [KV.get_delRange, if_neg h]

theorem get_apply_of_not_touch (V : KV) (ops : List WOp) (k : Bytes) (h : ∀ o ∈ ops, ¬ o.touches k) :
    (V.apply ops).get k = V.get k := by
  induction ops generalizing V with
  | nil => rfl
  | cons o ops ih =>
    rw [KV.apply_cons, ih _ (fun o ho => h o (by simp [ho])), get_apply1_of_not_touch _ _ _ (h o (by simp))]

/-- the effect of writes on one key depends only on that key's value before -/
theorem get_apply_congr {V W : KV} {k : Bytes} (h : V.get k = W.get k) (ops : List WOp) :
    (V.apply ops).get k = (W.apply ops).get k := by
  induction ops generalizing V W with
  | nil => exact h
  | cons o ops ih =>
    rw [KV.apply_cons, KV.apply_cons]
    apply ih
    cases o <;> simp only [KV.apply1]
    · rw [KV.get_set, KV.get_set, h]
    · rw [KV.get_del, KV.get_del, h]
    · rw [KV.get_delRange, KV.get_delRange, h]

theorem get_apply_flatMap {α : Type} (V : KV) (l : List α) (g : α → List WOp) (k : Bytes) (a : α)
    (hnd : l.Nodup) (ha : a ∈ l) (h : ∀ b ∈ l, b ≠ a → ∀ o ∈ g b, ¬ o.touches k) :
    (V.apply (l.flatMap g)).get k = (V.apply (g a)).get k := by
  induction l generalizing V with
  | nil => simp at ha
  | cons c l ih =>
    rw [List.flatMap_cons, KV.apply_append]
    rw [List.nodup_cons] at hnd
    by_cases hc : c = a
    · subst hc
      apply get_apply_of_not_touch
      intro o ho
      rw [List.mem_flatMap] at ho
      obtain ⟨b, hb, ho⟩ := ho
      exact h b (by simp [hb]) (fun e => hnd.1 (e ▸ hb)) o ho
    · rw [ih _ hnd.2 (by simpa [Ne.symm hc] using ha) (fun b hb => h b (by simp [hb]))]
      apply get_apply_congr
      exact get_apply_of_not_touch _ _ _ (h c (by simp) hc)

theorem inSpace_indexKey (t : Table T F) (idx : Index T) (x : T) : InSpace t.id idx.id (t.indexKey idx x) := by
  unfold Table.indexKey; rw [encodeIndexKey_eq]; exact ⟨_, rfl⟩

theorem inSpace_dataKey (t : UInt8) (pk : Bytes) : InSpace t 0 (dataKey t pk) := by
  rw [dataKey_eq]; exact ⟨_, rfl⟩

theorem Table.WF.indexKey_pk {t : Table T F} (wf : t.WF) {idx : Index T} (hi : idx ∈ t.indexes) {x y : T}
    (h : t.indexKey idx x = t.indexKey idx y) : t.pk x = t.pk y :=
  (encodeIndexKey_inj (wf.klen idx hi x) (wf.olen idx hi x) (wf.klen idx hi y) (wf.olen idx hi y) h).2.2.2.2

theorem Table.WF.nodup {t : Table T F} (wf : t.WF) : t.indexes.Nodup :=
  List.Pairwise.of_map Index.id (fun a b h e => h (by rw [e])) wf.ids

theorem Table.WF.id_inj {t : Table T F} (wf : t.WF) {a b : Index T} (ha : a ∈ t.indexes) (hb : b ∈ t.indexes)
    (h : a.id = b.id) : a = b := by
  have := wf.ids
  revert this ha hb
  generalize t.indexes = l
  intro ha hb hn
  induction l with
  | nil => simp at ha
  | cons c l ih =>
    simp only [List.map_cons, List.nodup_cons] at hn
    simp only [List.mem_cons] at ha hb
    rcases ha with rfl | ha <;> rcases hb with rfl | hb
    · rfl
    · exact absurd (List.mem_map.2 ⟨b, hb, h.symm⟩) hn.1
    · exact absurd (List.mem_map.2 ⟨a, ha, h⟩) hn.1
    · exact ih ha hb hn.2

/-- every write of `g idx` lies in the key space of `idx` -/
def OpsIn (t : Table T F) (g : Index T → List WOp) : Prop :=
  ∀ idx, ∀ o ∈ g idx, ∃ k, InSpace t.id idx.id k ∧ ∀ k', o.touches k' → k' = k

theorem onInsert_in (t : Table T F) (x : T) : OpsIn t (fun idx => onInsert t idx x) := by
  intro idx o ho
  simp only [onInsert] at ho
  split at ho
  · simp at ho; subst ho
    exact ⟨_, inSpace_indexKey t idx x, fun k' h => h.symm⟩
  · simp at ho

theorem onDelete_in (t : Table T F) (x : T) : OpsIn t (fun idx => onDelete t idx x) := by
  intro idx o ho
  simp only [onDelete] at ho
  split at ho
  · simp at ho; subst ho
    exact ⟨_, inSpace_indexKey t idx x, fun k' h => h.symm⟩
  · simp at ho

theorem onUpdate_in (t : Table T F) (x y : T) : OpsIn t (fun idx => onUpdate t idx x y) := by
  intro idx o ho
  simp only [onUpdate] at ho
  by_cases h1 : idx.filter x = true <;> by_cases h2 : idx.filter y = true <;> simp [h1, h2] at ho
  · obtain ⟨_, ho⟩ := ho
    rcases ho with rfl | rfl
    · exact ⟨_, inSpace_indexKey t idx x, fun k' h => h.symm⟩
    · exact ⟨_, inSpace_indexKey t idx y, fun k' h => h.symm⟩
  · subst ho; exact ⟨_, inSpace_indexKey t idx x, fun k' h => h.symm⟩
  · subst ho; exact ⟨_, inSpace_indexKey t idx y, fun k' h => h.symm⟩

/-- index writes do not change keys outside the index key spaces -/
theorem get_indexOps_outside {t : Table T F} {g : Index T → List WOp} (hg : OpsIn t g) {ord : List (Index T)}
    (hp : ord.Perm t.indexes) (V : KV) (k : Bytes) (hk : ∀ idx ∈ t.indexes, ¬ InSpace t.id idx.id k) :
    (V.apply (ord.flatMap g)).get k = V.get k := by
  apply get_apply_of_not_touch
  intro o ho hto
  rw [List.mem_flatMap] at ho
  obtain ⟨idx, hi, ho⟩ := ho
  obtain ⟨k', hs, hu⟩ := hg idx o ho
  have := hu k hto; subst this
  exact hk idx (hp.mem_iff.1 hi) hs

/-- in the key space of one index only that index's writes matter -/
theorem get_indexOps_inside {t : Table T F} (wf : t.WF) {g : Index T → List WOp} (hg : OpsIn t g)
    {ord : List (Index T)} (hp : ord.Perm t.indexes) (V : KV) {k : Bytes} {idx : Index T} (hi : idx ∈ t.indexes)
    (hk : InSpace t.id idx.id k) : (V.apply (ord.flatMap g)).get k = (V.apply (g idx)).get k := by
  apply get_apply_flatMap V ord g k idx (hp.nodup_iff.2 wf.nodup) (hp.mem_iff.2 hi)
  intro b hb hne o ho hto
  obtain ⟨k', hs, hu⟩ := hg b o ho
  have := hu k hto; subst this
  exact hne (wf.id_inj (hp.mem_iff.1 hb) hi (C09_disjoint hs hk).2)

theorem not_inSpace_index {t : Table T F} (wf : t.WF) (pk : Bytes) :
    ∀ idx ∈ t.indexes, ¬ InSpace t.id idx.id (dataKey t.id pk) := by
  intro idx hi h
  exact wf.nz idx hi (C09_disjoint h (inSpace_dataKey t.id pk)).2

theorem ne_dataKey_of_index {t : Table T F} (wf : t.WF) {idx : Index T} (hi : idx ∈ t.indexes) {k pk : Bytes}
    (hk : InSpace t.id idx.id k) : k ≠ dataKey t.id pk := by
  intro e; subst e; exact not_inSpace_index wf pk idx hi hk

/-- General one-row step: `o` writes the data key of `pk`, `g` the index keys. -/
theorem holds_row {t : Table T F} (wf : t.WF) {V : KV} {m m' : Rows T} (h : Holds t V m) {pk : Bytes} {o : WOp}
    (ho : ∀ W : KV, ∀ k, k ≠ dataKey t.id pk → (W.apply1 o).get k = W.get k)
    (g : Index T → List WOp) (hg : OpsIn t g) {ord : List (Index T)} (hp : ord.Perm t.indexes)
    (hm : ∀ p, p ≠ pk → m' p = m p)
    (hrow : ∀ x, m' pk = some x → t.pk x = pk)
    (hdata : match m' pk with
      | none => (V.apply1 o).get (dataKey t.id pk) = none
      | some x => ∃ b, t.ser x = some b ∧ (V.apply1 o).get (dataKey t.id pk) = some b)
    (hidx : ∀ idx ∈ t.indexes, ∀ W : KV, ∀ k, (∀ y, t.pk y = pk → k ≠ t.indexKey idx y) → (W.apply (g idx)).get k = W.get k)
    (hidx2 : ∀ idx ∈ t.indexes, ∀ y, t.pk y = pk → ∀ v,
      ((V.apply (g idx)).get (t.indexKey idx y) = some v ↔
        v = [] ∧ ∃ x, m' pk = some x ∧ idx.filter x = true ∧ t.indexKey idx y = t.indexKey idx x)) :
    Holds t (V.apply (o :: ord.flatMap g)) m' ∧ SameOutside t V (V.apply (o :: ord.flatMap g)) := by
  have hd : ∀ p, (V.apply (o :: ord.flatMap g)).get (dataKey t.id p) = (V.apply1 o).get (dataKey t.id p) := by
    intro p
    rw [KV.apply_cons, get_indexOps_outside hg hp _ _ (not_inSpace_index wf p)]
  have hdne : ∀ p, p ≠ pk → (V.apply (o :: ord.flatMap g)).get (dataKey t.id p) = V.get (dataKey t.id p) := by
    intro p hpk
    rw [hd, ho]
    intro e; exact hpk (dataKey_inj e).2
  constructor
  · constructor
    · intro p x hx
      by_cases hpk : p = pk
      · subst hpk; exact hrow x hx
      · rw [hm p hpk] at hx; exact h.row_pk p x hx
    · intro p hx
      by_cases hpk : p = pk
      · subst hpk; rw [hd]; rw [hx] at hdata; exact hdata
      · rw [hm p hpk] at hx; rw [hdne p hpk]; exact h.absent p hx
    · intro p x hx
      by_cases hpk : p = pk
      · subst hpk; rw [hd]; rw [hx] at hdata; exact hdata
      · rw [hm p hpk] at hx; rw [hdne p hpk]; exact h.present p x hx
    · intro k v hk hs
      by_cases hkk : k = dataKey t.id pk
      · exact ⟨pk, hkk⟩
      · rw [KV.apply_cons, get_indexOps_outside hg hp _ _ (by
          intro idx hi h'; exact wf.nz idx hi (C09_disjoint h' hs).2), ho _ _ hkk] at hk
        exact h.only_data k v hk hs
    · intro idx hi k v hk
      have e : (V.apply (o :: ord.flatMap g)).get k = (V.apply (g idx)).get k := by
        rw [KV.apply_cons, get_indexOps_inside wf hg hp _ hi hk]
        apply get_apply_congr
        exact ho _ _ (ne_dataKey_of_index wf hi hk)
      rw [e]
      by_cases hy : ∃ y, t.pk y = pk ∧ k = t.indexKey idx y
      · obtain ⟨y, hpy, rfl⟩ := hy
        rw [hidx2 idx hi y hpy v]
        constructor
        · rintro ⟨hv, x, h1, h2, h3⟩; exact ⟨hv, pk, x, h1, h2, h3⟩
        · rintro ⟨hv, p, x, h1, h2, h3⟩
          have : p = pk := by
            have e1 := wf.indexKey_pk hi h3
            by_cases hpp : p = pk
            · exact hpp
            · rw [hm p hpp] at h1; rw [← h.row_pk p x h1, ← e1, hpy]
          subst this
          exact ⟨hv, x, h1, h2, h3⟩
      · rw [hidx idx hi V k (fun y hpy e => hy ⟨y, hpy, e⟩), h.index idx hi k v hk]
        constructor
        · rintro ⟨hv, p, x, h1, h2, h3⟩
          refine ⟨hv, p, x, ?_, h2, h3⟩
          rw [hm p]; exact h1
          intro e; subst e; exact hy ⟨x, h.row_pk p x h1, h3⟩
        · rintro ⟨hv, p, x, h1, h2, h3⟩
          refine ⟨hv, p, x, ?_, h2, h3⟩
          rw [← hm p]; exact h1
          intro e; subst e; exact hy ⟨x, hrow x h1, h3⟩
  · intro k hk
    rw [KV.apply_cons, get_indexOps_outside hg hp _ _ hk.2, ho]
    intro e; subst e; exact hk.1 (inSpace_dataKey t.id pk)

theorem set_other {pk b : Bytes} {tid : UInt8} (W : KV) (k : Bytes) (h : k ≠ dataKey tid pk) :
    (W.apply1 (.set (dataKey tid pk) b)).get k = W.get k := by
  simp only [KV.apply1]; rw [KV.get_set, if_neg h]

theorem del_other {pk : Bytes} {tid : UInt8} (W : KV) (k : Bytes) (h : k ≠ dataKey tid pk) :
    (W.apply1 (.del (dataKey tid pk))).get k = W.get k := by
  simp only [KV.apply1]; rw [KV.get_del, if_neg h]

/-- inserting a row that is absent -/
theorem holds_insert {t : Table T F} (wf : t.WF) {V : KV} {m : Rows T} (h : Holds t V m) {x : T} {b : Bytes}
    (habs : m (t.pk x) = none) (hser : t.ser x = some b) {ord : List (Index T)} (hp : ord.Perm t.indexes) :
    Holds t (V.apply (.set (t.key x) b :: ord.flatMap (fun idx => onInsert t idx x))) (m.put (t.pk x) x) ∧
    SameOutside t V (V.apply (.set (t.key x) b :: ord.flatMap (fun idx => onInsert t idx x))) := by
  apply holds_row wf h (pk := t.pk x) (fun W k hk => set_other W k hk) _ (onInsert_in t x) hp
  · intro p hpk; simp [Rows.put, hpk]
  · intro y hy; simp [Rows.put] at hy; rw [← hy]
  · simp only [Rows.put, if_true]; exact ⟨b, hser, by simp [KV.apply1, KV.get_set]⟩
  · intro idx hi W k hk
    unfold onInsert; split
    · rw [KV.apply_cons, KV.apply_nil]; simp only [KV.apply1]
      rw [KV.get_set, if_neg (hk x rfl)]
    · rfl
  · intro idx hi y hy v
    have hV : V.get (t.indexKey idx y) = none := by
      cases hg : V.get (t.indexKey idx y) with
      | none => rfl
      | some w =>
        obtain ⟨_, p, z, h1, h2, h3⟩ := (h.index idx hi _ w (inSpace_indexKey t idx y)).1 hg
        have e := wf.indexKey_pk hi h3
        rw [← h.row_pk p z h1, ← e, hy, habs] at h1; simp at h1
    simp only [Rows.put, if_true, Option.some.injEq, exists_eq_left']
    unfold onInsert
    by_cases hf : idx.filter x = true
    · rw [if_pos hf, KV.apply_cons, KV.apply_nil]; simp only [KV.apply1]
      rw [KV.get_set]
      by_cases he : t.indexKey idx y = t.indexKey idx x
      · simp [he, hf, indexKeyValue, eq_comm]
      · simp [he, hV]
    · rw [if_neg hf, KV.apply_nil, hV]; simp [hf]

/-- replacing a stored row -/
theorem holds_update {t : Table T F} (wf : t.WF) {V : KV} {m : Rows T} (h : Holds t V m) {x old : T} {b : Bytes}
    (hold : m (t.pk x) = some old) (hser : t.ser x = some b) {ord : List (Index T)} (hp : ord.Perm t.indexes) :
    Holds t (V.apply (.set (t.key x) b :: ord.flatMap (fun idx => onUpdate t idx old x))) (m.put (t.pk x) x) ∧
    SameOutside t V (V.apply (.set (t.key x) b :: ord.flatMap (fun idx => onUpdate t idx old x))) := by
  have hpo : t.pk old = t.pk x := h.row_pk _ _ hold
  apply holds_row wf h (pk := t.pk x) (fun W k hk => set_other W k hk) _ (onUpdate_in t old x) hp
  · intro p hpk; simp [Rows.put, hpk]
  · intro y hy; simp [Rows.put] at hy; rw [← hy]
  · simp only [Rows.put, if_true]; exact ⟨b, hser, by simp [KV.apply1, KV.get_set]⟩
  · intro idx hi W k hk
    apply get_apply_of_not_touch
    intro o ho hto
    simp only [onUpdate] at ho
    by_cases h1 : idx.filter old = true <;> by_cases h2 : idx.filter x = true <;> simp [h1, h2] at ho
    · obtain ⟨_, ho⟩ := ho
      rcases ho with rfl | rfl
      · exact hk old hpo hto.symm
      · exact hk x rfl hto.symm
    · subst ho; exact hk old hpo hto.symm
    · subst ho; exact hk x rfl hto.symm
  · intro idx hi y hy v
    have hV : ∀ w, V.get (t.indexKey idx y) = some w ↔
        w = [] ∧ idx.filter old = true ∧ t.indexKey idx y = t.indexKey idx old := by
      intro w
      rw [h.index idx hi _ w (inSpace_indexKey t idx y)]
      constructor
      · rintro ⟨hw, p, z, h1, h2, h3⟩
        have e := wf.indexKey_pk hi h3
        rw [← h.row_pk p z h1, ← e, hy, hold] at h1; simp at h1; subst h1
        exact ⟨hw, h2, h3⟩
      · rintro ⟨hw, h2, h3⟩
        exact ⟨hw, t.pk x, old, hold, h2, h3⟩
    simp only [Rows.put, if_true, Option.some.injEq, exists_eq_left']
    simp only [onUpdate]
    by_cases h1 : idx.filter old = true <;> by_cases h2 : idx.filter x = true <;>
      simp only [h1, h2, if_true, if_false, Bool.false_eq_true]
    · by_cases hdk : t.indexKey idx old = t.indexKey idx x
      · simp only [hdk, ne_eq, not_true, if_false]
        rw [KV.apply_nil, hV]; simp [h1, hdk]
      · simp only [ne_eq, hdk, not_false_eq_true, if_true]
        rw [KV.apply_cons, KV.apply_cons, KV.apply_nil]; simp only [KV.apply1]
        rw [KV.get_set, KV.get_del]
        by_cases e1 : t.indexKey idx y = t.indexKey idx x
        · simp [e1, indexKeyValue, eq_comm]
        · rw [if_neg e1]
          by_cases e2 : t.indexKey idx y = t.indexKey idx old
          · simp [e2, hdk]
          · rw [if_neg e2, hV]; simp [e1, e2]
    · rw [KV.apply_cons, KV.apply_nil]; simp only [KV.apply1]
      rw [KV.get_del]
      by_cases e2 : t.indexKey idx y = t.indexKey idx old
      · simp [e2]
      · rw [if_neg e2, hV]; simp [e2]
    · rw [KV.apply_cons, KV.apply_nil]; simp only [KV.apply1]
      rw [KV.get_set]
      by_cases e1 : t.indexKey idx y = t.indexKey idx x
      · simp [e1, indexKeyValue, eq_comm]
      · rw [if_neg e1, hV]; simp [e1, h1]
    · rw [KV.apply_nil, hV]; simp [h1]

/-- deleting with a record that has the index keys of the stored one, or whose key is absent -/
theorem holds_delete {t : Table T F} (wf : t.WF) {V : KV} {m : Rows T} (h : Holds t V m) {x : T}
    (hsame : ∀ old, m (t.pk x) = some old → ∀ idx ∈ t.indexes,
      idx.filter old = true → idx.filter x = true ∧ t.indexKey idx x = t.indexKey idx old)
    {ord : List (Index T)} (hp : ord.Perm t.indexes) :
    Holds t (V.apply (.del (t.key x) :: ord.flatMap (fun idx => onDelete t idx x))) (m.erase (t.pk x)) ∧
    SameOutside t V (V.apply (.del (t.key x) :: ord.flatMap (fun idx => onDelete t idx x))) := by
  apply holds_row wf h (pk := t.pk x) (fun W k hk => del_other W k hk) _ (onDelete_in t x) hp
  · intro p hpk; simp [Rows.erase, hpk]
  · intro y hy; simp [Rows.erase] at hy
  · simp only [Rows.erase, if_true]; simp [KV.apply1, KV.get_del]
  · intro idx hi W k hk
    unfold onDelete; split
    · rw [KV.apply_cons, KV.apply_nil]; simp only [KV.apply1]
      rw [KV.get_del, if_neg (hk x rfl)]
    · rfl
  · intro idx hi y hy v
    simp only [Rows.erase, if_true, reduceCtorEq, false_and, exists_false, and_false, iff_false]
    have hV : ∀ w, V.get (t.indexKey idx y) = some w → idx.filter x = true ∧ t.indexKey idx y = t.indexKey idx x := by
      intro w hw
      obtain ⟨_, p, z, h1, h2, h3⟩ := (h.index idx hi _ w (inSpace_indexKey t idx y)).1 hw
      have e := wf.indexKey_pk hi h3
      rw [← h.row_pk p z h1, ← e, hy] at h1
      obtain ⟨a, b⟩ := hsame z h1 idx hi h2
      exact ⟨a, by rw [h3, b]⟩
    unfold onDelete
    split
    · rw [KV.apply_cons, KV.apply_nil]; simp only [KV.apply1]
      rw [KV.get_del]
      split
      · simp
      · rename_i hne; intro hw; exact hne (hV v hw).2
    · rename_i hf; rw [KV.apply_nil]; intro hw; exact hf (hV v hw).1

theorem SameOutside.trans {t : Table T F} {a b c : KV} (h1 : SameOutside t a b) (h2 : SameOutside t b c) :
    SameOutside t a c := fun k hk => by rw [h2 k hk, h1 k hk]

theorem SameOutside.refl (t : Table T F) (a : KV) : SameOutside t a a := fun _ _ => rfl

/-- the stored content determines the database up to keys outside the table -/
theorem holds_unique {t : Table T F} {a b : KV} {m : Rows T} (ha : Holds t a m) (hb : Holds t b m)
    (ho : SameOutside t a b) : a = b := by
  apply KV.ext
  intro k
  by_cases h0 : InSpace t.id 0 k
  · by_cases hk : ∃ pk, k = dataKey t.id pk
    · obtain ⟨pk, rfl⟩ := hk
      cases hm : m pk with
      | none => rw [ha.absent pk hm, hb.absent pk hm]
      | some x =>
        obtain ⟨u, h1, h2⟩ := ha.present pk x hm
        obtain ⟨v, h3, h4⟩ := hb.present pk x hm
        rw [h1] at h3; simp at h3; subst h3; rw [h2, h4]
    · have none_of : ∀ {c : KV}, Holds t c m → c.get k = none := by
        intro c hc
        cases hg : c.get k with
        | none => rfl
        | some v => exact absurd (hc.only_data k v hg h0) hk
      rw [none_of ha, none_of hb]
  · by_cases hi : ∃ idx ∈ t.indexes, InSpace t.id idx.id k
    · obtain ⟨idx, hi, hs⟩ := hi
      have e : ∀ v, a.get k = some v ↔ b.get k = some v := by
        intro v; rw [ha.index idx hi k v hs, hb.index idx hi k v hs]
      cases hg : a.get k with
      | none =>
        cases hg' : b.get k with
        | none => rfl
        | some v => rw [(e v).2 hg'] at hg; simp at hg
      | some v => rw [(e v).1 hg]
    · exact (ho k ⟨h0, fun idx hi' hs => hi ⟨idx, hi', hs⟩⟩).symm

end Bond
