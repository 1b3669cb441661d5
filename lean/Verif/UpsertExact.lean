import Verif.Props.Writes
/-
Upsert of any rows: which of the given rows are folded into the record of a key.
-/
namespace Bond
open Spec
variable {T F : Type}

/-- the data entries of the table are the records `m`, whatever keys these records have themselves (kept by table.go:637-789) -/
structure DataIs (t : Table T F) (V : KV) (m : Rows T) : Prop where
  absent : ∀ pk, m pk = none → V.get (dataKey t.id pk) = none
  present : ∀ pk x, m pk = some x → ∃ b, t.ser x = some b ∧ V.get (dataKey t.id pk) = some b

theorem Holds.dataIs {t : Table T F} {V : KV} {m : Rows T} (h : Holds t V m) : DataIs t V m := ⟨h.absent, h.present⟩

theorem DataIs.existIter {t : Table T F} {f : F} {m : Rows T} {V : KV} (hH : DataIs t V m) (hF : FilterCovers t f m)
    {entries : List (Bytes × Bytes)} {pk : Bytes} (he : seekExact entries (dataKey t.id pk) = V.get (dataKey t.id pk)) :
    t.existIter f entries (dataKey t.id pk) = V.get (dataKey t.id pk) := by
  unfold Table.existIter
  split
  · rename_i fl hfl
    split
    · rename_i hm
      cases hp : m pk with
      | none => rw [hH.absent pk hp]
      | some x => rw [hF fl hfl pk x hp] at hm; simp at hm
    · exact he
  · exact he

theorem DataIs.put {t : Table T F} (wf : t.WF) {V : KV} {m : Rows T} (h : DataIs t V m) {p : Bytes} {x : T} {b : Bytes} (hb : t.ser x = some b)
    {g : Index T → List WOp} (hg : OpsIn t g) {ord : List (Index T)} (hp : ord.Perm t.indexes) :
    DataIs t (V.apply (.set (dataKey t.id p) b :: ord.flatMap g)) (m.put p x) := by
  have hget : ∀ pk, (V.apply (.set (dataKey t.id p) b :: ord.flatMap g)).get (dataKey t.id pk) =
      if pk = p then some b else V.get (dataKey t.id pk) := by
    intro pk
    rw [KV.apply_cons, get_indexOps_outside hg hp _ _ (not_inSpace_index wf pk)]
    simp only [KV.apply1, KV.get_set]
    by_cases he : pk = p
    · subst he; simp
    · have : dataKey t.id pk ≠ dataKey t.id p := fun e => he (dataKey_inj e).2
      simp [he, this]
  refine ⟨?_, ?_⟩
  · intro pk hn
    rw [put_apply] at hn
    split at hn
    · cases hn
    · rename_i hne; rw [hget, if_neg hne]; exact h.absent pk hn
  · intro pk y hy
    rw [put_apply] at hy
    split at hy
    · rename_i he; cases hy; exact ⟨b, hb, by rw [hget, if_pos he]⟩
    · rename_i hne; rw [hget, if_neg hne]; exact h.present pk y hy

/-- the loop over repeated keys folds in the rows at the following positions of the given rows -/
theorem upsertDup_exact {oc : Table.OnConflict T} {trs : List T} {k : Bytes} : ∀ (rest : List (Bytes × Nat)) (i : Nat) (tr old : T),
    i + 1 + rest.length ≤ trs.length →
    ∃ old', Table.upsertDup oc trs k rest i tr old =
      some (rest.dropWhile (fun e => decide (e.1 = k)), i + (rest.takeWhile (fun e => decide (e.1 = k))).length,
        ((trs.drop (i + 1)).take (rest.takeWhile (fun e => decide (e.1 = k))).length).foldl (fun a x => (oc a x).1) tr, old') := by
  intro rest
  induction rest with
  | nil => intro i tr old _; exact ⟨old, by simp [Table.upsertDup]⟩
  | cons e rest ih =>
    intro i tr old hl
    obtain ⟨key', j'⟩ := e
    simp only [List.length_cons] at hl
    unfold Table.upsertDup
    by_cases hk : key' = k
    · have hlt : i + 1 < trs.length := by omega
      rw [if_pos hk, List.getElem?_eq_getElem hlt]
      simp only
      obtain ⟨old', e⟩ := ih (i + 1) (oc tr trs[i + 1]).1 (oc tr trs[i + 1]).2 (by omega)
      refine ⟨old', ?_⟩
      rw [e]
      simp only [List.dropWhile_cons, List.takeWhile_cons, hk, decide_true, if_true, List.length_cons]
      rw [List.drop_eq_getElem_cons hlt, List.take_succ_cons, List.foldl_cons,
        show i + 1 + (rest.takeWhile (fun e => decide (e.1 = k))).length = i + ((rest.takeWhile (fun e => decide (e.1 = k))).length + 1) by omega]
    · rw [if_neg hk]
      exact ⟨old, by simp [List.dropWhile_cons, List.takeWhile_cons, hk]⟩

/-- the rows folded into the record of key `k`, when the loop has reached position `i` and the keys `items` are left -/
def foldedAt (trs : List T) (items : List (Bytes × Nat)) (i : Nat) (k : Bytes) : List T :=
  match items.dropWhile (fun e => decide (e.1 ≠ k)) with
  | [] => []
  | e :: r => (trs[e.2]?).toList ++
    (trs.drop (i + (items.takeWhile (fun e => decide (e.1 ≠ k))).length + 1)).take (r.takeWhile (fun e => decide (e.1 = k))).length

/-- the records after a slice: `m0` was read, `m` is what is stored before -/
def Spec.putFolded (oc : T → T → T) (m0 m : Rows T) (xs : Bytes → List T) : Rows T := fun p =>
  match xs p with
  | [] => m p
  | x :: ys => foldKey oc (m0 p) (x :: ys)

theorem foldedAt_none (trs : List T) {items : List (Bytes × Nat)} {i : Nat} {k : Bytes} (h : ∀ e ∈ items, e.1 ≠ k) : foldedAt trs items i k = [] := by
  unfold foldedAt
  have : items.dropWhile (fun e => decide (e.1 ≠ k)) = [] := by
    induction items with
    | nil => rfl
    | cons a l ih =>
      rw [List.dropWhile_cons, if_pos (by simpa using h a (by simp))]
      exact ih (fun e he => h e (by simp [he]))
  rw [this]

theorem foldedAt_head {trs : List T} {k : Bytes} {j i : Nat} {rest : List (Bytes × Nat)} {r : T} (h : trs[j]? = some r) :
    foldedAt trs ((k, j) :: rest) i k = r :: (trs.drop (i + 1)).take (rest.takeWhile (fun e => decide (e.1 = k))).length := by
  unfold foldedAt
  simp [List.dropWhile_cons, List.takeWhile_cons, h]

theorem foldedAt_skip {trs : List T} {k k' : Bytes} {j i : Nat} {rest : List (Bytes × Nat)} (hk : k ≠ k') :
    foldedAt trs ((k, j) :: rest) i k' =
    foldedAt trs (rest.dropWhile (fun e => decide (e.1 = k))) (i + (rest.takeWhile (fun e => decide (e.1 = k))).length + 1) k' := by
  have h : ∀ (l : List (Bytes × Nat)), l.dropWhile (fun e => decide (e.1 ≠ k')) =
        (l.dropWhile (fun e => decide (e.1 = k))).dropWhile (fun e => decide (e.1 ≠ k')) ∧
      (l.takeWhile (fun e => decide (e.1 ≠ k'))).length = (l.takeWhile (fun e => decide (e.1 = k))).length +
        ((l.dropWhile (fun e => decide (e.1 = k))).takeWhile (fun e => decide (e.1 ≠ k'))).length := by
    intro l
    induction l with
    | nil => simp
    | cons e l ih =>
      by_cases he : e.1 = k
      · have hn : e.1 ≠ k' := by rw [he]; exact hk
        simp only [List.dropWhile_cons, List.takeWhile_cons, he, hk, ne_eq, not_false_eq_true, decide_true, if_true, List.length_cons]
        refine ⟨ih.1, ?_⟩
        have := ih.2
        simp only [ne_eq] at this
        omega
      · simp [List.dropWhile_cons, List.takeWhile_cons, he]
  unfold foldedAt
  have hc : ((k, j) :: rest).dropWhile (fun e => decide (e.1 ≠ k')) = rest.dropWhile (fun e => decide (e.1 ≠ k')) := by
    simp [List.dropWhile_cons, hk]
  have hc2 : (((k, j) :: rest).takeWhile (fun e => decide (e.1 ≠ k'))).length = (rest.takeWhile (fun e => decide (e.1 ≠ k'))).length + 1 := by
    simp [List.takeWhile_cons, hk]
  rw [hc, hc2, (h rest).1, (h rest).2]
  split
  · rfl
  · congr 3
    omega

theorem foldKey_some (oc : T → T → T) (xs : List T) : ∀ (o : T), foldKey oc (some o) xs = some (xs.foldl oc o) := by
  induction xs with
  | nil => intro o; rfl
  | cons x xs ih => intro o; exact ih _

theorem upsertLoop_exact {t : Table T F} (wf : t.WF) {env : Env T} (ok : env.OK t) (rt : t.RoundTrip) (fs : t.FilterSound)
    {oc : Table.OnConflict T} {base R : KV} {m0 : Rows T} (hR : DataIs t R m0) {lo : Bytes} {trs : List T} :
    ∀ (fuel i : Nat) (items : List (Bytes × Nat)) {s s' : WSt T F} {m : Rows T}, items.length ≤ fuel → i + items.length ≤ trs.length →
    (items.map Prod.fst).Pairwise (fun a b => ble a b = true) →
    (∀ e ∈ items, ble lo e.1 = true) → (∀ e ∈ items, ∃ r, trs[e.2]? = some r ∧ e.1 = t.key r) →
    DataIs t (base.apply s.ops) m → FilterCovers t s.filt m0 → FilterCovers t s.filt m →
    t.upsertLoop env oc (R.scan lo t.dataKeySpaceEnd) trs fuel i items s = (s', none) →
    DataIs t (base.apply s'.ops) (putFolded (fun o x => (oc o x).1) m0 m (fun p => foldedAt trs items i (dataKey t.id p))) ∧
    FilterCovers t s'.filt (putFolded (fun o x => (oc o x).1) m0 m (fun p => foldedAt trs items i (dataKey t.id p))) ∧
    FilterCovers t s'.filt m0 := by
  intro fuel
  induction fuel with
  | zero =>
    intro i items s s' m hf _ _ _ _ hD hF0 hF he
    have : items = [] := List.length_eq_zero_iff.1 (by omega)
    subst this
    simp only [Table.upsertLoop, Prod.mk.injEq, and_true] at he
    subst he
    exact ⟨hD, hF, hF0⟩
  | succ fuel ih =>
    intro i items s s' m hf hlen hsort hlo hdesc hD hF0 hF he
    cases items with
    | nil =>
      simp only [Table.upsertLoop, Prod.mk.injEq, and_true] at he
      subst he
      exact ⟨hD, hF, hF0⟩
    | cons e rest =>
      obtain ⟨k, j⟩ := e
      obtain ⟨r, hr, hk⟩ := hdesc (k, j) (by simp)
      simp only at hr hk
      have hkd : k = dataKey t.id (t.pk r) := hk
      have hseek := seekExact_scan R (hlo (k, j) (by simp)) (show blt k t.dataKeySpaceEnd = true by rw [hkd]; exact dataKey_lt_end t (t.pk r))
      have hex : t.existIter s.filt (R.scan lo t.dataKeySpaceEnd) k = R.get k := by
        rw [hkd] at hseek ⊢; exact hR.existIter hF0 hseek
      simp only [List.length_cons] at hf hlen
      have hsuf : (rest.dropWhile (fun e => decide (e.1 = k))).Sublist rest := List.dropWhile_sublist _
      have hlen2 : (rest.takeWhile (fun e => decide (e.1 = k))).length + (rest.dropWhile (fun e => decide (e.1 = k))).length = rest.length := by
        rw [← List.length_append, List.takeWhile_append_dropWhile]
      have hps : (rest.map Prod.fst).Pairwise (fun a b => ble a b = true) := (List.pairwise_cons.1 hsort).2
      have hne : ∀ e ∈ rest.dropWhile (fun e => decide (e.1 = k)), e.1 ≠ k := by
        cases hd : rest.dropWhile (fun e => decide (e.1 = k)) with
        | nil => simp
        | cons h0 r' =>
          have h0ne : h0.1 ≠ k := by
            have hhead : (rest.dropWhile (fun e => decide (e.1 = k))).head? = some h0 := by rw [hd]; rfl
            have := List.head?_dropWhile_not (fun e : Bytes × Nat => decide (e.1 = k)) rest
            rw [hhead] at this
            simpa using this
          have h0m : h0 ∈ rest := hsuf.subset (by rw [hd]; simp)
          have h0le : ble k h0.1 = true := (List.pairwise_cons.1 hsort).1 h0.1 (List.mem_map_of_mem h0m)
          have h0lt := blt_of_ble_ne h0le (Ne.symm h0ne)
          intro e hm hek
          rcases List.mem_cons.1 hm with rfl | hm
          · exact h0ne hek
          · have hp : ((h0 :: r').map Prod.fst).Pairwise (fun a b => ble a b = true) := by
              rw [← hd]; exact hps.sublist (hsuf.map _)
            have := (List.pairwise_cons.1 hp).1 e.1 (List.mem_map_of_mem hm)
            rw [hek] at this
            simp [ble, h0lt] at this
      -- what follows a group
      have next : ∀ (s1 : WSt T F) (tr' : T),
          foldKey (fun o x => (oc o x).1) (m0 (t.pk r)) (foldedAt trs ((k, j) :: rest) i k) = some tr' →
          DataIs t (base.apply s1.ops) (m.put (t.pk r) tr') → FilterCovers t s1.filt m0 → FilterCovers t s1.filt (m.put (t.pk r) tr') →
          t.upsertLoop env oc (R.scan lo t.dataKeySpaceEnd) trs fuel (i + (rest.takeWhile (fun e => decide (e.1 = k))).length + 1)
            (rest.dropWhile (fun e => decide (e.1 = k))) s1 = (s', none) →
          DataIs t (base.apply s'.ops) (putFolded (fun o x => (oc o x).1) m0 m (fun p => foldedAt trs ((k, j) :: rest) i (dataKey t.id p))) ∧
          FilterCovers t s'.filt (putFolded (fun o x => (oc o x).1) m0 m (fun p => foldedAt trs ((k, j) :: rest) i (dataKey t.id p))) ∧
          FilterCovers t s'.filt m0 := by
        intro s1 tr' e1 hD1 hF01 hF1 he1
        have key := ih _ (rest.dropWhile (fun e => decide (e.1 = k))) (s := s1) (s' := s') (m := m.put (t.pk r) tr') (by omega) (by omega)
          (hps.sublist (hsuf.map _)) (fun e he => hlo e (by simp [hsuf.subset he])) (fun e he => hdesc e (by simp [hsuf.subset he]))
          hD1 hF01 hF1 he1
        have hEq : putFolded (fun o x => (oc o x).1) m0 (m.put (t.pk r) tr') (fun p => foldedAt trs (rest.dropWhile (fun e => decide (e.1 = k)))
              (i + (rest.takeWhile (fun e => decide (e.1 = k))).length + 1) (dataKey t.id p)) =
            putFolded (fun o x => (oc o x).1) m0 m (fun p => foldedAt trs ((k, j) :: rest) i (dataKey t.id p)) := by
          funext p
          by_cases hp : p = t.pk r
          · subst hp
            unfold putFolded
            simp only
            rw [← hkd, foldedAt_none trs hne]
            rw [foldedAt_head hr] at e1 ⊢
            simp only [put_apply, if_true]
            exact e1.symm
          · have hkp : k ≠ dataKey t.id p := fun e => hp (dataKey_inj (hkd ▸ e)).2.symm
            unfold putFolded
            simp only
            rw [foldedAt_skip hkp, put_apply, if_neg hp]
        rw [hEq] at key
        exact key
      rw [Table.upsertLoop, hr] at he
      simp only [hex] at he
      split at he
      · simp at he
      cases hm : m0 (t.pk r) with
      | none =>
        rw [show R.get k = none by rw [hkd]; exact hR.absent _ hm] at he
        simp only at he
        obtain ⟨old', e6⟩ := upsertDup_exact (oc := oc) (trs := trs) (k := k) rest i r s.oldTr (by omega)
        rw [e6] at he
        simp only at he
        split at he
        · simp at he
        rename_i data hdata
        have hput := hD.put wf (p := t.pk r) hdata (onInsert_in t (((trs.drop (i + 1)).take (rest.takeWhile (fun e => decide (e.1 = k))).length).foldl (fun a x => (oc a x).1) r)) (ok.order s.clock)
        rw [← hkd, ← KV.apply_append] at hput
        refine next _ _ ?_ hput (filterCovers_mono fs hF0 k) ?_ he
        · rw [hm, foldedAt_head hr]
          exact foldKey_some _ _ _
        · intro fl hfl pk y hy
          rw [put_apply] at hy
          split at hy
          · rename_i hpk; subst hpk
            unfold Table.filterAdd; rw [hfl, ← hkd]; exact (fs fl hfl _ _).1
          · exact filterCovers_mono fs hF k fl hfl pk y hy
      | some old =>
        obtain ⟨b, hb1, hb2⟩ := hR.present _ _ hm
        rw [show R.get k = some b by rw [hkd]; exact hb2] at he
        simp only [rt old b hb1, Option.map_some] at he
        obtain ⟨old', e6⟩ := upsertDup_exact (oc := oc) (trs := trs) (k := k) rest i (oc old r).1 (oc old r).2 (by omega)
        rw [e6] at he
        simp only at he
        split at he
        · simp at he
        rename_i data hdata
        have hput := hD.put wf (p := t.pk r) hdata (onUpdate_in t old' (((trs.drop (i + 1)).take (rest.takeWhile (fun e => decide (e.1 = k))).length).foldl (fun a x => (oc a x).1) (oc old r).1)) (ok.order s.clock)
        rw [← hkd, ← KV.apply_append] at hput
        refine next ⟨_, s.filt, _, _⟩ _ ?_ hput hF0 ?_ he
        · rw [hm, foldedAt_head hr]
          exact foldKey_some _ _ _
        · intro fl hfl pk y hy
          rw [put_apply] at hy
          split at hy
          · rename_i hpk; subst hpk; exact hF0 fl hfl _ old hm
          · exact hF fl hfl pk y hy

/-- in a sorted list, the elements before the first `k` are those below `k`, and the group of `k` is all of them -/
theorem sorted_group {k : Bytes} : ∀ (l : List (Bytes × Nat)), (l.map Prod.fst).Pairwise (fun a b => ble a b = true) → ∀ (e : Bytes × Nat) (r : List (Bytes × Nat)),
    l.dropWhile (fun e => decide (e.1 ≠ k)) = e :: r →
    e.1 = k ∧ (l.takeWhile (fun e => decide (e.1 ≠ k))).length = (l.map Prod.fst).countP (fun a => blt a k) ∧
    (r.takeWhile (fun e => decide (e.1 = k))).length + 1 = (l.map Prod.fst).countP (fun a => decide (a = k)) := by
  intro l
  induction l with
  | nil => intro _ e r h; simp at h
  | cons a l ih =>
    intro hs e r h
    rw [List.map_cons, List.pairwise_cons] at hs
    by_cases ha : a.1 = k
    · simp only [List.dropWhile_cons, ha, ne_eq, not_true_eq_false, decide_false, Bool.false_eq_true, if_false, List.cons.injEq] at h
      obtain ⟨rfl, rfl⟩ := h
      refine ⟨ha, ?_, ?_⟩
      · have h0 : (l.map Prod.fst).countP (fun a => blt a k) = 0 := by
          rw [List.countP_eq_zero]
          intro x hx
          have := hs.1 x hx
          rw [ha] at this
          simpa [ble] using this
        simp [List.takeWhile_cons, ha, List.countP_cons, h0, blt_irrefl]
      · rw [List.map_cons, List.countP_cons]
        simp only [ha, decide_true, if_true, Nat.add_right_cancel_iff]
        have hge : ∀ x ∈ l, ble k x.1 = true := fun x hx => ha ▸ hs.1 x.1 (List.mem_map_of_mem hx)
        have hs2 := hs.2
        clear hs ih
        induction l with
        | nil => rfl
        | cons b l ih2 =>
          rw [List.map_cons, List.pairwise_cons] at hs2
          by_cases hb : b.1 = k
          · simp only [List.takeWhile_cons, hb, decide_true, if_true, List.length_cons, List.map_cons, List.countP_cons]
            rw [ih2 (fun x hx => hge x (by simp [hx])) hs2.2]
          · have hlt : blt k b.1 = true := blt_of_ble_ne (hge b (by simp)) (Ne.symm hb)
            simp only [List.takeWhile_cons, hb, decide_false, Bool.false_eq_true, if_false, List.length_nil]
            symm
            rw [List.countP_eq_zero]
            intro x hx
            simp only [List.map_cons, List.mem_cons] at hx
            rcases hx with rfl | hx
            · simpa using hb
            · have := hs2.1 x hx
              intro hxk
              simp only [decide_eq_true_eq] at hxk
              rw [hxk] at this
              simp [ble, hlt] at this
    · simp only [List.dropWhile_cons, ha, ne_eq, not_false_eq_true, decide_true, if_true] at h
      obtain ⟨h1, h2, h3⟩ := ih hs.2 e r h
      have hem : e ∈ l := (List.dropWhile_sublist _).subset (by rw [h]; simp)
      have hlt : blt a.1 k = true := blt_of_ble_ne (h1 ▸ hs.1 e.1 (List.mem_map_of_mem hem)) ha
      refine ⟨h1, ?_, ?_⟩
      · simp only [List.takeWhile_cons, ha, ne_eq, not_false_eq_true, decide_true, if_true, List.length_cons, List.map_cons, List.countP_cons, hlt]
        rw [← h2]
      · rw [h3]; simp [List.countP_cons, ha]

end Bond
