import Verif.Read
import Verif.WriteTheorems
/-
Lemmas about the point reads.
-/
namespace Bond
open Spec
variable {T F : Type}

theorem insByPos_perm (x : Nat × Bytes) (l : List (Nat × Bytes)) : (insByPos x l).Perm (x :: l) := by
  induction l with
  | nil => exact List.Perm.refl _
  | cons y l ih =>
    rw [insByPos]
    split
    · exact List.Perm.refl _
    · exact (ih.cons y).trans (List.Perm.swap x y l)

theorem insByPos_sorted (x : Nat × Bytes) {l : List (Nat × Bytes)} (h : l.Pairwise (fun a b => a.1 ≤ b.1)) :
    (insByPos x l).Pairwise (fun a b => a.1 ≤ b.1) := by
  induction l with
  | nil => simp [insByPos]
  | cons y l ih =>
    have hp := List.pairwise_cons.1 h
    rw [insByPos]
    split
    · rename_i hlt
      refine List.pairwise_cons.2 ⟨?_, h⟩
      intro z hz
      rcases List.mem_cons.1 hz with rfl | hz
      · omega
      · have := hp.1 z hz; omega
    · rename_i hnlt
      refine List.pairwise_cons.2 ⟨?_, ih hp.2⟩
      intro z hz
      rcases List.mem_cons.1 ((insByPos_perm x l).mem_iff.1 hz) with rfl | hz
      · omega
      · exact hp.1 z hz

theorem foldr_insByPos (l : List (Nat × Bytes)) :
    (l.foldr insByPos []).Perm l ∧ (l.foldr insByPos []).Pairwise (fun a b => a.1 ≤ b.1) := by
  induction l with
  | nil => exact ⟨List.Perm.refl _, List.Pairwise.nil⟩
  | cons x l ih => exact ⟨(insByPos_perm x _).trans (ih.1.cons x), insByPos_sorted x ih.2⟩

/-- after the sort, the value computed for position `j` is at position `j` -/
theorem reorderValues_eq {order : List Nat} {n : Nat} (hp : order.Perm (List.range n)) (g : Nat → Bytes) :
    reorderValues (order.map g) order = (List.range n).map g := by
  unfold reorderValues
  obtain ⟨h1, h2⟩ := foldr_insByPos (order.zip (order.map g))
  generalize (order.zip (order.map g)).foldr insByPos [] = l at h1 h2
  have hz : order.zip (order.map g) = order.map (fun j => (j, g j)) := by
    clear hp h1
    induction order with
    | nil => rfl
    | cons a r ih => simp [ih]
  rw [hz] at h1
  have hl : l = (List.range n).map (fun j => (j, g j)) := by
    apply List.Perm.eq_of_pairwise (le := fun a b : Nat × Bytes => a.1 ≤ b.1) _ h2 _ (h1.trans (hp.map _))
    · intro a b ha hb hab hba
      obtain ⟨j, _, rfl⟩ := List.mem_map.1 (h1.mem_iff.1 ha)
      obtain ⟨i, _, rfl⟩ := List.mem_map.1 hb
      have : j = i := Nat.le_antisymm hab hba
      rw [this]
    · rw [List.pairwise_map]
      exact List.pairwise_le_range
  rw [hl, List.map_map]; rfl

/-- what `get` should find for a key -/
def lookup (t : Table T F) (f : F) (db : KV) (ob : Option Batch) (key : Bytes) : Option Bytes :=
  if t.mayContain f key then (match readable db ob with | some V => V.get key | none => none) else none

theorem getLoop_ok {t : Table T F} {f : F} {entries : List (Bytes × Bytes)} (g : Bytes → Option Bytes) (strict : Bool)
    (keys : List Bytes) (hg : ∀ k ∈ keys, (if t.mayContain f k then seekExact entries k else none) = g k)
    (hs : strict = true → ∀ k ∈ keys, (g k).isSome) :
    ∀ cap, keys.length ≤ cap → t.getLoop f entries strict keys cap = .ok (keys.map (fun k => (g k).getD [])) := by
  induction keys with
  | nil => intros; rfl
  | cons k ks ih =>
    intro cap hc
    rw [List.length_cons] at hc
    have := ih (fun k hk => hg k (by simp [hk])) (fun h k hk => hs h k (by simp [hk])) (cap - 1) (by omega)
    rw [Table.getLoop, hg k (by simp), this]
    have hn : ¬ ((g k).isNone && strict) = true := by
      cases strict with
      | false => simp
      | true => have := hs rfl k (by simp); cases hk : g k <;> simp_all
    rw [if_neg hn, if_neg (by omega)]
    rfl

/-- for keys between the bounds of the iterator of `get`, the seek is a lookup -/
theorem seek_iterEntries {db : KV} {ob : Option Batch} {lo hi key : Bytes} (h1 : ble lo key = true) (h2 : blt key hi = true) :
    seekExact (iterEntries db ob lo hi) key = (match readable db ob with | some V => V.get key | none => none) := by
  unfold iterEntries
  cases readable db ob with
  | none => rfl
  | some V => exact seekExact_scan V h1 h2

theorem getD_sort (t : Table T F) {env : Env T} (ok : env.OK t) (keys : List Bytes) :
    ((sortKeys env keys).map Prod.snd).Perm (List.range keys.length) := by
  unfold sortKeys
  rw [List.map_map]
  have : (Prod.snd ∘ fun j => (keys.getD j [], j)) = (id : Nat → Nat) := rfl
  rw [this, List.map_id]
  exact ok.sort_perm keys

theorem map_getD_range {α β : Type} (l : List α) (d : α) (g : α → β) : (List.range l.length).map (fun j => g (l.getD j d)) = l.map g := by
  apply List.ext_getElem
  · simp
  · intro i h1 h2
    simp at h1
    simp [List.getD, h1]

theorem getKeys_aux (t : Table T F) {env : Env T} (ok : env.OK t) (f : F) (db : KV) (ob : Option Batch) {keys : List Bytes}
    (hk : ∀ k ∈ keys, blt k t.dataKeySpaceEnd = true) :
    ∀ k ∈ (sortKeys env keys).map Prod.fst, k ∈ keys ∧
    (if t.mayContain f k then seekExact (iterEntries db ob (((sortKeys env keys).map Prod.fst).headD []) t.dataKeySpaceEnd) k
      else none) = lookup t f db ob k := by
  intro k hmem
  have hin : k ∈ keys := by
    unfold sortKeys at hmem
    rw [List.map_map] at hmem
    obtain ⟨j, hj, rfl⟩ := List.mem_map.1 hmem
    have := (ok.sort_perm keys).mem_iff.1 hj
    rw [List.mem_range] at this
    simp [List.getD, this]
  refine ⟨hin, ?_⟩
  rw [seek_iterEntries (sorted_headD (sortKeys_sorted t env ok keys) k hmem) (hk k hin)]
  rfl

/-- `get` returns, at every position, the value found for the key of that position; with `errorOnNotExist` if all keys
are found -/
theorem getKeys_ok (t : Table T F) {env : Env T} (ok : env.OK t) (f : F) (db : KV) (ob : Option Batch) {keys : List Bytes}
    (hk : ∀ k ∈ keys, blt k t.dataKeySpaceEnd = true) {cap : Nat} (hc : keys.length ≤ cap) (strict : Bool)
    (hs : strict = true → ∀ k ∈ keys, (lookup t f db ob k).isSome) :
    t.getKeys env f db ob keys cap strict = .ok (keys.map (fun k => (lookup t f db ob k).getD [])) := by
  unfold Table.getKeys
  split
  · rename_i h; subst h; rfl
  · have haux := getKeys_aux t ok f db ob hk
    have hlen : ((sortKeys env keys).map Prod.fst).length = keys.length := by
      have := (getD_sort t ok keys).length_eq; simpa using this
    simp only
    rw [getLoop_ok (lookup t f db ob) strict _ (fun k hk => (haux k hk).2) (fun h k hk => hs h k (haux k hk).1) cap (by omega)]
    simp only [Except.map]
    congr 1
    have h1 : ((sortKeys env keys).map Prod.fst).map (fun k => (lookup t f db ob k).getD []) =
        ((sortKeys env keys).map Prod.snd).map (fun j => (lookup t f db ob (keys.getD j [])).getD []) := by
      unfold sortKeys; simp [List.map_map, Function.comp_def]
    rw [h1, reorderValues_eq (getD_sort t ok keys) (fun j => (lookup t f db ob (keys.getD j [])).getD []),
      map_getD_range keys [] (fun k => (lookup t f db ob k).getD [])]

theorem mayContain_of_covers {t : Table T F} {f : F} {m : Rows T} (hF : FilterCovers t f m) {pk : Bytes} {x : T}
    (hm : m pk = some x) : t.mayContain f (dataKey t.id pk) = true := by
  unfold Table.mayContain
  split
  · rename_i fl hfl; exact hF fl hfl pk x hm
  · rfl

/-- with a covering filter, the lookup of a data key is the content -/
theorem lookup_eq {t : Table T F} {f : F} {m : Rows T} {db V : KV} {ob : Option Batch} (hr : readable db ob = some V)
    (hH : Holds t V m) (hF : FilterCovers t f m) (pk : Bytes) :
    lookup t f db ob (dataKey t.id pk) = V.get (dataKey t.id pk) := by
  unfold lookup
  rw [hr]
  split
  · rfl
  · rename_i hn
    cases hm : m pk with
    | none => exact (hH.absent pk hm).symm
    | some x => exact absurd (mayContain_of_covers hF hm) hn

theorem getOne_eq {t : Table T F} (rt : t.RoundTripFresh) {f : F} {m : Rows T} {db V : KV} {ob : Option Batch}
    (hr : readable db ob = some V) (hH : Holds t V m) (hF : FilterCovers t f m) (x : T) :
    t.getOne f db ob x = (match m (t.pk x) with | some y => .ok [y] | none => .error .notFound) := by
  have hl := lookup_eq hr hH hF (t.pk x)
  unfold lookup at hl
  unfold Table.getOne
  rw [hr] at hl ⊢
  unfold Table.key
  cases hm : m (t.pk x) with
  | none =>
    simp only [hH.absent _ hm]
    cases t.mayContain f (dataKey t.id (t.pk x)) <;> rfl
  | some y =>
    obtain ⟨b, hb, hg⟩ := hH.present _ _ hm
    simp [mayContain_of_covers hF hm, hg, rt y b hb]

theorem getPoint_eq {t : Table T F} (rt : t.RoundTripFresh) {f : F} {m : Rows T} {db V : KV} {ob : Option Batch}
    (hr : readable db ob = some V) (hH : Holds t V m) (hF : FilterCovers t f m) (x : T) :
    t.getPoint f db ob x = (match m (t.pk x) with | some y => .ok y | none => .error .notFound) := by
  unfold Table.getPoint
  rw [getOne_eq rt hr hH hF]
  cases m (t.pk x) <;> rfl

theorem exist_eq {t : Table T F} {f : F} {m : Rows T} {db V : KV} {ob : Option Batch}
    (hr : readable db ob = some V) (hH : Holds t V m) (hF : FilterCovers t f m) (x : T) :
    t.exist f db ob x = (m (t.pk x)).isSome := by
  unfold Table.exist
  rw [hr]
  unfold Table.key
  cases hm : m (t.pk x) with
  | none =>
    simp only [hH.absent _ hm]
    cases t.mayContain f (dataKey t.id (t.pk x)) <;> rfl
  | some y =>
    obtain ⟨b, hb, hg⟩ := hH.present _ _ hm
    simp [mayContain_of_covers hF hm, hg]

/-- decoding the values found for rows -/
theorem decodeAll_eq {t : Table T F} (rt : t.RoundTripFresh) {m : Rows T} {V : KV} (hH : Holds t V m) (pts : List T)
    (hne : ∀ p ∈ pts, ∀ x, m (t.pk p) = some x → t.ser x ≠ some []) :
    t.decodeAll (pts.map (fun p => (V.get (t.key p)).getD [])) = .ok (pts.map (fun p => (m (t.pk p)).getD t.nil)) := by
  induction pts with
  | nil => rfl
  | cons p ps ih =>
    rw [List.map_cons, Table.decodeAll, ih (fun q hq => hne q (by simp [hq]))]
    unfold Table.key
    cases hm : m (t.pk p) with
    | none => rw [hH.absent _ hm]; simp [Except.map, hm]
    | some x =>
      obtain ⟨b, hb, hg⟩ := hH.present _ _ hm
      have hb' : b ≠ [] := fun e => hne p (by simp) x hm (by rw [hb, e])
      rw [hg]
      simp [Except.map, hb', rt x b hb, hm]

theorem getMany_values {t : Table T F} {env : Env T} (ok : env.OK t) {f : F} {m : Rows T} {db V : KV} {ob : Option Batch}
    (hr : readable db ob = some V) (hH : Holds t V m) (hF : FilterCovers t f m) (pts : List T) :
    t.getMany env f db ob pts = t.decodeAll (pts.map (fun p => (V.get (t.key p)).getD [])) := by
  unfold Table.getMany
  by_cases h : pts = []
  · subst h; rfl
  · rw [batched_single pts (Nat.le_refl _) h, Table.getChunks, getKeys_ok t ok f db ob _ (by simp) false (by simp)]
    · simp only [List.map_map]
      have : (fun k => (lookup t f db ob k).getD []) ∘ t.key = fun p => (V.get (t.key p)).getD [] := by
        funext p
        simp only [Function.comp]
        rw [show t.key p = dataKey t.id (t.pk p) from rfl, lookup_eq hr hH hF]
      rw [this]
      cases t.decodeAll (pts.map (fun p => (V.get (t.key p)).getD [])) with
      | error e => rfl
      | ok l => simp [Table.getChunks, Except.map]
    · intro k hk
      obtain ⟨p, _, rfl⟩ := List.mem_map.1 hk
      exact dataKey_lt_end t _

end Bond
