import Verif.WriteTheorems
/-
Upsert of rows given in the order of their primary keys, with repeated keys.
-/
namespace Bond
open Spec
variable {T F : Type}

/-- the data entries of the table are those of the rows `m` (nothing is said about indexes) (kept by table.go:637-789) -/
structure DataHolds (t : Table T F) (V : KV) (m : Rows T) : Prop where
  row_pk : ∀ pk x, m pk = some x → t.pk x = pk
  absent : ∀ pk, m pk = none → V.get (dataKey t.id pk) = none
  present : ∀ pk x, m pk = some x → ∃ b, t.ser x = some b ∧ V.get (dataKey t.id pk) = some b

theorem Holds.data {t : Table T F} {V : KV} {m : Rows T} (h : Holds t V m) : DataHolds t V m := ⟨h.row_pk, h.absent, h.present⟩

theorem DataHolds.existIter {t : Table T F} {f : F} {m : Rows T} {V : KV} (hH : DataHolds t V m) (hF : FilterCovers t f m)
    {entries : List (Bytes × Bytes)} {pk : Bytes} (he : seekExact entries (dataKey t.id pk) = V.get (dataKey t.id pk)) :
    t.existIter f entries (dataKey t.id pk) = V.get (dataKey t.id pk) := by
  unfold Table.existIter
  split
  · rename_i fl hfl
    split
    · rename_i hm
      cases hp : m pk with
      | none => rw [hH.absent pk hp]
      | some x => rw [hF fl hfl pk x hp] at hm; simp at hm
    · exact he
  · exact he

theorem DataHolds.put {t : Table T F} (wf : t.WF) {V : KV} {m : Rows T} (h : DataHolds t V m) {x : T} {b : Bytes} (hb : t.ser x = some b)
    {g : Index T → List WOp} (hg : OpsIn t g) {ord : List (Index T)} (hp : ord.Perm t.indexes) :
    DataHolds t (V.apply (.set (t.key x) b :: ord.flatMap g)) (m.put (t.pk x) x) ∧
    ∀ pk, pk ≠ t.pk x → (V.apply (.set (t.key x) b :: ord.flatMap g)).get (dataKey t.id pk) = V.get (dataKey t.id pk) := by
  have hget : ∀ pk, (V.apply (.set (t.key x) b :: ord.flatMap g)).get (dataKey t.id pk) =
      if pk = t.pk x then some b else V.get (dataKey t.id pk) := by
    intro pk
    rw [KV.apply_cons, get_indexOps_outside hg hp _ _ (not_inSpace_index wf pk)]
    simp only [KV.apply1, KV.get_set]
    by_cases he : pk = t.pk x
    · subst he; simp [Table.key]
    · have : dataKey t.id pk ≠ t.key x := fun e => he (dataKey_inj e).2
      simp [he, this]
  refine ⟨⟨?_, ?_, ?_⟩, fun pk hne => by rw [hget, if_neg hne]⟩
  · intro pk y hy
    rw [put_apply] at hy
    split at hy
    · rename_i he; cases hy; exact he.symm
    · exact h.row_pk pk y hy
  · intro pk hn
    rw [put_apply] at hn
    split at hn
    · cases hn
    · rename_i hne; rw [hget, if_neg hne]; exact h.absent pk hn
  · intro pk y hy
    rw [put_apply] at hy
    split at hy
    · rename_i he; cases hy; exact ⟨b, hb, by rw [hget, if_pos he]⟩
    · rename_i hne; rw [hget, if_neg hne]; exact h.present pk y hy

/-- the loop over repeated keys, when position and sorted position agree -/
theorem upsertDup_sorted {t : Table T F} {trs : List T} {oc : Table.OnConflict T} {k : Bytes} : ∀ (ys : List T) (i : Nat) (tr old : T),
    trs.drop (i + 1) = ys →
    ∃ n dups rest old', ys = dups ++ rest ∧ dups.length = n ∧ (∀ d ∈ dups, t.key d = k) ∧ (∀ r, rest.head? = some r → t.key r ≠ k) ∧
      (n = 0 → old' = old) ∧
      Table.upsertDup oc trs k ((ys.map t.key).zipIdx (i + 1)) i tr old =
        some ((rest.map t.key).zipIdx (i + n + 1), i + n, dups.foldl (fun a x => (oc a x).1) tr, old') := by
  intro ys
  induction ys with
  | nil =>
    intro i tr old _
    exact ⟨0, [], [], old, rfl, rfl, by simp, by simp, fun _ => rfl, rfl⟩
  | cons y ys ih =>
    intro i tr old hd
    simp only [List.map_cons, List.zipIdx_cons]
    unfold Table.upsertDup
    by_cases hk : t.key y = k
    · have hy : trs[i + 1]? = some y := by
        have := congrArg List.head? hd
        rwa [List.head?_drop] at this
      have hd' : trs.drop (i + 1 + 1) = ys := by
        rw [← List.drop_drop, hd]; rfl
      obtain ⟨n, dups, rest, old', e1, e2, e3, e4, _, e6⟩ := ih (i + 1) (oc tr y).1 (oc tr y).2 hd'
      rw [if_pos hk, hy]
      simp only
      refine ⟨n + 1, y :: dups, rest, old', by rw [e1]; rfl, by simp [e2], ?_, e4, fun h => by omega, ?_⟩
      · intro d hd
        rcases List.mem_cons.1 hd with rfl | hd
        · exact hk
        · exact e3 d hd
      · rw [e6]
        simp only [List.foldl_cons]
        rw [show i + 1 + n + 1 = i + (n + 1) + 1 by omega, show i + 1 + n = i + (n + 1) by omega]
    · rw [if_neg hk]
      exact ⟨0, [], y :: ys, old, rfl, rfl, by simp, fun r h => by cases h; exact hk, fun _ => rfl, rfl⟩

theorem foldl_oc_pk {t : Table T F} {oc : Table.OnConflict T} (hoc : OnConflictOK t oc) (dups : List T) : ∀ (tr : T),
    (∀ d ∈ dups, t.pk d = t.pk tr) → t.pk (dups.foldl (fun a x => (oc a x).1) tr) = t.pk tr := by
  induction dups with
  | nil => intro tr _; rfl
  | cons d dups ih =>
    intro tr h
    have h1 : t.pk (oc tr d).1 = t.pk tr := by
      rw [hoc.pk tr d (h d (by simp)).symm]; exact h d (by simp)
    rw [List.foldl_cons, ih _ (fun x hx => by rw [h1]; exact h x (by simp [hx])), h1]

theorem upsertAll_dups {m : Rows T} {pk : T → Bytes} {oc : T → T → T} (dups : List T) : ∀ (a : T),
    (∀ d ∈ dups, pk d = pk a) → (∀ o x, pk o = pk x → pk (oc o x) = pk x) →
    (m.put (pk a) a).upsertAll pk oc dups = m.put (pk a) (dups.foldl oc a) := by
  induction dups with
  | nil => intro a _ _; rfl
  | cons d dups ih =>
    intro a h hpk
    have hd : pk d = pk a := h d (by simp)
    have h1 : pk (oc a d) = pk a := by rw [hpk a d hd.symm, hd]
    have : (m.put (pk a) a).upsertAll pk oc (d :: dups) = ((m.put (pk a) a).upsert pk oc d).upsertAll pk oc dups := rfl
    rw [this]
    have : (m.put (pk a) a).upsert pk oc d = m.put (pk (oc a d)) (oc a d) := by
      unfold Rows.upsert
      rw [hd, h1]
      funext p
      simp only [put_apply, if_true]
      split <;> rfl
    rw [this, ih _ (fun x hx => by rw [h1]; exact h x (by simp [hx])) hpk, h1, List.foldl_cons]

theorem blt_of_ble_ne {a b : Bytes} (h : ble a b = true) (hne : a ≠ b) : blt a b = true := by
  rcases blt_tri a b with h1 | h1 | h1
  · exact h1
  · exact absurd h1 hne
  · simp [ble, h1] at h

theorem upsertLoop_sorted {t : Table T F} (wf : t.WF) {env : Env T} (ok : env.OK t) (rt : t.RoundTrip) (fs : t.FilterSound)
    {oc : Table.OnConflict T} (hoc : OnConflictOK t oc) (full : Bool)
    {base R : KV} {lo : Bytes} {trs : List T} :
    ∀ (fuel i : Nat) {s s' : WSt T F} {m : Rows T}, trs.length - i ≤ fuel →
    (trs.drop i).Pairwise (fun x y => ble (t.pk x) (t.pk y) = true) →
    (∀ r ∈ trs.drop i, ble lo (t.key r) = true) →
    (∀ r ∈ trs.drop i, R.get (t.key r) = (base.apply s.ops).get (t.key r)) →
    DataHolds t (base.apply s.ops) m → (full = true → Holds t (base.apply s.ops) m) →
    (full = true → (trs.drop i).Pairwise (fun x y => t.pk x = t.pk y → m (t.pk x) = none)) →
    FilterCovers t s.filt m →
    t.upsertLoop env oc (R.scan lo t.dataKeySpaceEnd) trs fuel i (((trs.drop i).map t.key).zipIdx i) s = (s', none) →
    DataHolds t (base.apply s'.ops) (m.upsertAll t.pk (fun o x => (oc o x).1) (trs.drop i)) ∧
    (full = true → Holds t (base.apply s'.ops) (m.upsertAll t.pk (fun o x => (oc o x).1) (trs.drop i)) ∧
      SameOutside t (base.apply s.ops) (base.apply s'.ops)) ∧
    FilterCovers t s'.filt (m.upsertAll t.pk (fun o x => (oc o x).1) (trs.drop i)) := by
  intro fuel
  induction fuel with
  | zero =>
    intro i s s' m hf _ _ _ hD hH _ hF he
    rw [List.drop_eq_nil_of_le (by omega)] at he ⊢
    simp only [Table.upsertLoop, Prod.mk.injEq, and_true] at he
    subst he
    exact ⟨hD, fun h => ⟨hH h, SameOutside.refl _ _⟩, hF⟩
  | succ fuel ih =>
    intro i s s' m hf hsort hlo hag hD hH hrep hF he
    cases hdr : trs.drop i with
    | nil =>
      rw [hdr] at he
      simp only [List.map_nil, List.zipIdx_nil, Table.upsertLoop, Prod.mk.injEq, and_true] at he
      subst he
      exact ⟨hD, fun h => ⟨hH h, SameOutside.refl _ _⟩, hF⟩
    | cons r ys =>
      rw [hdr] at he hsort hlo hag hrep
      have hr : trs[i]? = some r := by
        have := congrArg List.head? hdr
        rwa [List.head?_drop] at this
      have hys : trs.drop (i + 1) = ys := by rw [← List.drop_drop, hdr]; rfl
      have hlen : trs.length - i = ys.length + 1 := by
        have := congrArg List.length hdr
        rwa [List.length_drop] at this
      have hseek := seekExact_scan R (hlo r (by simp)) (dataKey_lt_end t (t.pk r))
      have hex : t.existIter s.filt (R.scan lo t.dataKeySpaceEnd) (t.key r) = (base.apply s.ops).get (t.key r) :=
        hD.existIter hF (hseek.trans (hag r (by simp)))
      -- what follows a group
      have next : ∀ (n : Nat) (dups rest : List T) (s1 : WSt T F) (tr' : T) (m1 : Rows T),
          ys = dups ++ rest → dups.length = n → (∀ d ∈ dups, t.key d = t.key r) → (∀ r', rest.head? = some r' → t.key r' ≠ t.key r) →
          m1 = m.put (t.pk r) tr' →
          m.upsertAll t.pk (fun o x => (oc o x).1) (r :: dups) = m1 →
          DataHolds t (base.apply s1.ops) m1 → (∀ pk, pk ≠ t.pk r → (base.apply s1.ops).get (dataKey t.id pk) = (base.apply s.ops).get (dataKey t.id pk)) →
          (full = true → Holds t (base.apply s1.ops) m1 ∧ SameOutside t (base.apply s.ops) (base.apply s1.ops)) →
          FilterCovers t s1.filt m1 →
          t.upsertLoop env oc (R.scan lo t.dataKeySpaceEnd) trs fuel (i + n + 1) ((rest.map t.key).zipIdx (i + n + 1)) s1 = (s', none) →
          DataHolds t (base.apply s'.ops) (m.upsertAll t.pk (fun o x => (oc o x).1) (r :: ys)) ∧
          (full = true → Holds t (base.apply s'.ops) (m.upsertAll t.pk (fun o x => (oc o x).1) (r :: ys)) ∧
            SameOutside t (base.apply s.ops) (base.apply s'.ops)) ∧
          FilterCovers t s'.filt (m.upsertAll t.pk (fun o x => (oc o x).1) (r :: ys)) := by
        intro n dups rest s1 tr' m1 e1 e2 e3 e4 e5 e6 hD1 hget hH1 hF1 he1
        have hrest : trs.drop (i + n + 1) = rest := by
          rw [show i + n + 1 = (i + 1) + n by omega, ← List.drop_drop, hys, e1, ← e2, List.drop_left]
        have hmem : ∀ y ∈ rest, y ∈ r :: ys := fun y hy => by rw [e1]; simp [hy]
        have hsub : rest.Sublist (r :: ys) := by rw [e1]; exact (List.sublist_append_right dups rest).cons r
        have hne : ∀ y ∈ rest, t.pk y ≠ t.pk r := by
          cases hrr : rest with
          | nil => simp
          | cons h0 rest' =>
            have h0ne : t.pk r ≠ t.pk h0 := fun e => e4 h0 (by rw [hrr]; rfl) (by unfold Table.key; rw [e])
            have h0le : ble (t.pk r) (t.pk h0) = true := (List.pairwise_cons.1 hsort).1 h0 (by rw [e1, hrr]; simp)
            have h0lt := blt_of_ble_ne h0le h0ne
            intro y hy e
            rcases List.mem_cons.1 hy with rfl | hy
            · exact h0ne e.symm
            · have hp : (h0 :: rest').Pairwise (fun x y => ble (t.pk x) (t.pk y) = true) := by
                rw [← hrr]; exact hsort.sublist hsub
              have := (List.pairwise_cons.1 hp).1 y hy
              rw [e] at this
              simp [ble, h0lt] at this
        have hall : m.upsertAll t.pk (fun o x => (oc o x).1) (r :: ys) = m1.upsertAll t.pk (fun o x => (oc o x).1) (trs.drop (i + n + 1)) := by
          rw [hrest, e1, ← List.cons_append, upsertAll_append, e6]
        rw [hall]
        have hm1 : ∀ y ∈ rest, m1 (t.pk y) = m (t.pk y) := fun y hy => by rw [e5, put_apply, if_neg (hne y hy)]
        have key := ih (i + n + 1) (s := s1) (s' := s') (m := m1) (by omega) (by rw [hrest]; exact hsort.sublist hsub)
          (by rw [hrest]; exact fun y hy => hlo y (hmem y hy))
          (by
            rw [hrest]; intro y hy
            rw [hag y (hmem y hy)]
            exact (hget (t.pk y) (hne y hy)).symm)
          hD1 (fun h => (hH1 h).1)
          (by
            rw [hrest]; intro h
            exact ((hrep h).sublist hsub).imp_of_mem (fun hx _ hp he => by rw [hm1 _ hx]; exact hp he))
          hF1 (by rw [hrest]; exact he1)
        exact ⟨key.1, fun h => ⟨(key.2.1 h).1, (hH1 h).2.trans (key.2.1 h).2⟩, key.2.2⟩
      simp only [List.map_cons, List.zipIdx_cons] at he
      rw [Table.upsertLoop, hr] at he
      simp only [hex] at he
      split at he
      · simp at he
      cases hm : m (t.pk r) with
      | none =>
        rw [show t.key r = dataKey t.id (t.pk r) from rfl, hD.absent _ hm] at he
        simp only at he
        rw [show dataKey t.id (t.pk r) = t.key r from rfl] at he
        obtain ⟨n, dups, rest, old', e1, e2, e3, e4, _, e6⟩ := upsertDup_sorted (t := t) (oc := oc) (k := t.key r) ys i r s.oldTr hys
        rw [e6] at he
        simp only at he
        split at he
        · simp at he
        rename_i data hdata
        have hpd : ∀ d ∈ dups, t.pk d = t.pk r := fun d hd => key_inj.1 (e3 d hd)
        have hpk := foldl_oc_pk hoc dups r hpd
        generalize htr : dups.foldl (fun a x => (oc a x).1) r = tr' at *
        have hkey : t.key tr' = t.key r := key_inj.2 hpk
        have hput := hD.put wf hdata (onInsert_in t tr') (ok.order s.clock)
        rw [hkey, hpk, ← KV.apply_append] at hput
        refine next n dups rest _ tr' _ e1 e2 e3 e4 rfl ?_ hput.1 hput.2 ?_ ?_ he
        · have : m.upsertAll t.pk (fun o x => (oc o x).1) (r :: dups) = (m.put (t.pk r) r).upsertAll t.pk (fun o x => (oc o x).1) dups := by
            show (m.upsert t.pk (fun o x => (oc o x).1) r).upsertAll t.pk (fun o x => (oc o x).1) dups = _
            simp [Rows.upsert, hm]
          rw [this, upsertAll_dups dups r hpd (fun o x h => hoc.pk o x h), htr]
        · intro hfull
          have hins := holds_insert wf (hH hfull) (x := tr') (by rw [hpk]; exact hm) hdata (ok.order s.clock)
          rw [hkey, hpk, ← KV.apply_append] at hins
          exact hins
        · have := filterCovers_add fs hF tr'
          rw [hkey, hpk] at this
          exact this
      | some old =>
        obtain ⟨b, hb1, hb2⟩ := hD.present _ _ hm
        rw [show t.key r = dataKey t.id (t.pk r) from rfl, hb2] at he
        simp only [rt old b hb1, Option.map_some] at he
        rw [show dataKey t.id (t.pk r) = t.key r from rfl] at he
        obtain ⟨n, dups, rest, old', e1, e2, e3, e4, e5, e6⟩ := upsertDup_sorted (t := t) (oc := oc) (k := t.key r) ys i (oc old r).1 (oc old r).2 hys
        rw [e6] at he
        simp only at he
        split at he
        · simp at he
        rename_i data hdata
        have hpko : t.pk (oc old r).1 = t.pk r := hoc.pk old r (hD.row_pk _ _ hm)
        have hpd : ∀ d ∈ dups, t.pk d = t.pk (oc old r).1 := fun d hd => by rw [hpko]; exact key_inj.1 (e3 d hd)
        have hpk : t.pk (dups.foldl (fun a x => (oc a x).1) (oc old r).1) = t.pk r := by rw [foldl_oc_pk hoc dups _ hpd, hpko]
        have hup : m.upsertAll t.pk (fun o x => (oc o x).1) (r :: dups) = m.put (t.pk r) (dups.foldl (fun a x => (oc a x).1) (oc old r).1) := by
          have : m.upsertAll t.pk (fun o x => (oc o x).1) (r :: dups) =
              (m.put (t.pk (oc old r).1) (oc old r).1).upsertAll t.pk (fun o x => (oc o x).1) dups := by
            show (m.upsert t.pk (fun o x => (oc o x).1) r).upsertAll t.pk (fun o x => (oc o x).1) dups = _
            simp [Rows.upsert, hm, hpko]
          rw [this, upsertAll_dups dups _ hpd (fun o x h => hoc.pk o x h), hpko]
        have hfold0 : dups = [] → dups.foldl (fun a x => (oc a x).1) (oc old r).1 = (oc old r).1 := by rintro rfl; rfl
        generalize htr : dups.foldl (fun a x => (oc a x).1) (oc old r).1 = tr' at *
        have hkey : t.key tr' = t.key r := key_inj.2 hpk
        have hput := hD.put wf hdata (onUpdate_in t old' tr') (ok.order s.clock)
        rw [hkey, hpk, ← KV.apply_append] at hput
        refine next n dups rest ⟨_, s.filt, _, _⟩ tr' _ e1 e2 e3 e4 rfl hup hput.1 hput.2 ?_ (filterCovers_put hF hm) he
        intro hfull
        have hnil : dups = [] := by
          cases hdd : dups with
          | nil => rfl
          | cons d ds =>
            have := (List.pairwise_cons.1 (hrep hfull)).1 d (by rw [e1, hdd]; simp) (key_inj.1 (e3 d (by rw [hdd]; simp))).symm
            rw [hm] at this; cases this
        have hn0 : n = 0 := by rw [← e2, hnil]; rfl
        have ho : old' = old := by rw [e5 hn0, hoc.pure]
        have hins := holds_update wf (hH hfull) (x := tr') (old := old) (by rw [hpk]; exact hm) hdata (ok.order s.clock)
        rw [hkey, hpk, ← KV.apply_append, ← ho] at hins
        exact hins

/-- a stable sort leaves sorted keys where they are -/
theorem sort_of_sorted {t : Table T F} {env : Env T} (ok : env.OK t) (st : env.Stable) {ks : List Bytes}
    (h : ks.Pairwise (fun a b => ble a b = true)) : env.sort ks = List.range ks.length := by
  refine List.Perm.eq_of_pairwise (le := fun a b => a < b) (fun a b _ _ h1 h2 => by omega) ?_ List.pairwise_lt_range (ok.sort_perm ks)
  have h1 := List.pairwise_map.1 (ok.sort_sorted ks)
  refine (h1.and (st ks)).imp_of_mem ?_
  intro a b ha hb hab
  have ha' : a < ks.length := List.mem_range.1 ((ok.sort_perm ks).mem_iff.1 ha)
  have hb' : b < ks.length := List.mem_range.1 ((ok.sort_perm ks).mem_iff.1 hb)
  by_cases he : ks.getD a [] = ks.getD b []
  · exact hab.2 he
  · rcases Nat.lt_trichotomy a b with hlt | heq | hgt
    · exact hlt
    · subst heq; exact absurd rfl he
    · have := List.pairwise_iff_getElem.1 h b a hb' ha' hgt
      have hlt := blt_of_ble_ne hab.1 he
      simp only [List.getD_eq_getElem?_getD, List.getElem?_eq_getElem ha', List.getElem?_eq_getElem hb', Option.getD_some] at hlt
      simp [ble, hlt] at this

theorem sortKeys_of_sorted {t : Table T F} {env : Env T} (ok : env.OK t) (st : env.Stable) {ks : List Bytes}
    (h : ks.Pairwise (fun a b => ble a b = true)) : sortKeys env ks = ks.zipIdx 0 := by
  unfold sortKeys
  rw [sort_of_sorted ok st h]
  apply List.ext_getElem?
  intro i
  by_cases hi : i < ks.length
  · rw [List.getElem?_map, List.getElem?_range hi, List.getElem?_zipIdx, List.getElem?_eq_getElem hi]
    simp [List.getElem?_eq_getElem hi]
  · rw [List.getElem?_eq_none (by simp; omega), List.getElem?_eq_none (by simp; omega)]

end Bond
