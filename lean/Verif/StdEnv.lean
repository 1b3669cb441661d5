import Verif.Calls
/-
A concrete legal environment (stable insertion sort, indexes in declaration order, context never done) and a concrete
table: used to show that the hypotheses of the theorems can be met, and as witnesses of refutations.
-/
namespace Bond
open Spec
variable {T F : Type}

/-- insert a position into a sorted list of positions, after those with an equal key (nothing in /repo: test data) -/
def insPos (ks : List Bytes) (i : Nat) : List Nat → List Nat
  | [] => [i]
  | j :: l => if blt (ks.getD i []) (ks.getD j []) then i :: j :: l else j :: insPos ks i l

/-- stable insertion sort of positions (nothing in /repo: a legal instance of `sort.Sort`) -/
def stdSort (ks : List Bytes) : List Nat := (List.range ks.length).foldl (fun l i => insPos ks i l) []

theorem insPos_perm (ks : List Bytes) (i : Nat) (l : List Nat) : (insPos ks i l).Perm (i :: l) := by
  induction l with
  | nil => exact List.Perm.refl _
  | cons j l ih =>
    rw [insPos]
    split
    · exact List.Perm.refl _
    · exact (ih.cons j).trans (List.Perm.swap i j l)

theorem stdSort_foldl_perm (ks : List Bytes) (l acc : List Nat) :
    (l.foldl (fun l i => insPos ks i l) acc).Perm (l ++ acc) := by
  induction l generalizing acc with
  | nil => exact List.Perm.refl _
  | cons i l ih =>
    rw [List.foldl_cons]
    refine (ih _).trans ?_
    refine (List.Perm.append_left l (insPos_perm ks i acc)).trans ?_
    exact List.perm_middle

theorem stdSort_perm (ks : List Bytes) : (stdSort ks).Perm (List.range ks.length) := by
  have := stdSort_foldl_perm ks (List.range ks.length) []
  rw [List.append_nil] at this
  exact this

theorem insPos_sorted (ks : List Bytes) (i : Nat) (l : List Nat)
    (h : l.Pairwise (fun a b => ble (ks.getD a []) (ks.getD b []) = true ∧ (ks.getD a [] = ks.getD b [] → a < b)))
    (hi : ∀ a ∈ l, a < i) : (insPos ks i l).Pairwise (fun a b => ble (ks.getD a []) (ks.getD b []) = true ∧ (ks.getD a [] = ks.getD b [] → a < b)) := by
  induction l with
  | nil => exact List.pairwise_singleton _ _
  | cons j l ih =>
    rw [List.pairwise_cons] at h
    rw [insPos]
    split
    · rename_i hlt
      rw [List.pairwise_cons]
      refine ⟨?_, List.pairwise_cons.2 h⟩
      intro b hb
      have hle : blt (ks.getD i []) (ks.getD b []) = true := by
        rcases List.mem_cons.1 hb with rfl | hb
        · exact hlt
        · exact blt_of_blt_of_ble hlt (h.1 b hb).1
      refine ⟨ble_of_blt hle, fun e => ?_⟩
      rw [e, blt_irrefl] at hle; simp at hle
    · rename_i hge
      rw [List.pairwise_cons]
      refine ⟨?_, ih h.2 (fun a ha => hi a (by simp [ha]))⟩
      intro b hb
      rcases List.mem_cons.1 ((insPos_perm ks i l).mem_iff.1 hb) with rfl | hb
      · refine ⟨?_, fun _ => hi j (by simp)⟩
        simp only [ble, Bool.not_eq_true] at hge ⊢
        rw [hge]; rfl
      · exact h.1 b hb

theorem stdSort_foldl_sorted (ks : List Bytes) (n k : Nat) (acc : List Nat)
    (h : acc.Pairwise (fun a b => ble (ks.getD a []) (ks.getD b []) = true ∧ (ks.getD a [] = ks.getD b [] → a < b)))
    (hi : ∀ a ∈ acc, a < k) :
    ((List.range' k n).foldl (fun l i => insPos ks i l) acc).Pairwise
      (fun a b => ble (ks.getD a []) (ks.getD b []) = true ∧ (ks.getD a [] = ks.getD b [] → a < b)) := by
  induction n generalizing k acc with
  | zero => exact h
  | succ n ih =>
    rw [List.range'_succ, List.foldl_cons]
    apply ih (k + 1) _ (insPos_sorted ks k acc h hi)
    intro a ha
    rcases List.mem_cons.1 ((insPos_perm ks k acc).mem_iff.1 ha) with rfl | ha
    · omega
    · have := hi a ha; omega

theorem stdSort_sorted (ks : List Bytes) : (stdSort ks).Pairwise
    (fun a b => ble (ks.getD a []) (ks.getD b []) = true ∧ (ks.getD a [] = ks.getD b [] → a < b)) := by
  rw [stdSort, List.range_eq_range']
  exact stdSort_foldl_sorted ks ks.length 0 [] List.Pairwise.nil (by simp)

/-- the sort keeps equal keys in their order -/
def Env.Stable (env : Env T) : Prop :=
  ∀ ks, (env.sort ks).Pairwise (fun a b => ks.getD a [] = ks.getD b [] → a < b)

/-- an environment in which nothing goes wrong (nothing in /repo: one legal run) -/
def stdEnv (t : Table T F) : Env T :=
  { done := fun _ => false, order := fun _ => t.indexes, sort := stdSort, commitOk := true }

theorem stdEnv_ok (t : Table T F) : (stdEnv t).OK t where
  order := fun _ => List.Perm.refl _
  sort_perm := stdSort_perm
  sort_sorted := fun ks => by
    rw [List.pairwise_map]
    exact (stdSort_sorted ks).imp (fun h => h.1)

theorem stdEnv_stable (t : Table T F) : (stdEnv t).Stable := fun ks => (stdSort_sorted ks).imp (fun h => h.2)

/-! A concrete table: records (id, group), primary key = id, one index on the group. -/

/-- test record: (id, group) -/
abbrev Rec := UInt8 × UInt8

/-- test index 1 on the group -/
def exIndex : Index Rec := { id := 1, key := fun x => [x.2], ord := fun _ => [], filter := fun _ => true }

/-- test table 7 -/
def exTable : Table Rec Unit :=
  { id := 7, pk := fun x => [x.1], indexes := [exIndex], ser := fun x => some [x.1, x.2]
    deser := fun _ b => match b with | [a, g] => some (a, g) | _ => none
    nil := (0, 0), empty := (0, 0), filter := none, prefetch := 100 }

theorem exTable_wf : exTable.WF where
  ids := by decide
  nz := by intro idx h; simp [exTable] at h; subst h; decide
  klen := by intro idx h x; simp [exTable] at h; subst h; simp [exIndex]
  olen := by intro idx h x; simp [exTable] at h; subst h; simp [exIndex]

theorem exTable_rt : exTable.RoundTrip := by
  intro x b h o
  simp only [exTable, Option.some.injEq] at h
  subst h; rfl

theorem exTable_fs : exTable.FilterSound := by intro fl h; simp [exTable] at h

theorem covers_nofilter {t : Table T F} (h : t.filter = none) (f : F) (m : Rows T) : FilterCovers t f m := by
  intro fl hfl; rw [h] at hfl; simp at hfl

/-- a database without any key of the table holds no rows -/
theorem holds_none {t : Table T F} {db : KV} (h : ∀ k, ¬ Outside t k → db.get k = none) : Holds t db (fun _ => none) where
  row_pk := by intro pk x h; simp at h
  absent := fun pk _ => h _ (fun ho => ho.1 (inSpace_dataKey t.id pk))
  present := by intro pk x h; simp at h
  only_data := by
    intro k v hk hs
    rw [h k (fun ho => ho.1 hs)] at hk; simp at hk
  index := by
    intro idx hi k v hs
    rw [h k (fun ho => ho.2 idx hi hs)]
    simp

theorem holds_empty (t : Table T F) : Holds t KV.empty (fun _ => none) := holds_none (fun _ _ => rfl)

end Bond
