import Verif.QueryLemmas
/-
Lemmas about intersect queries.
-/
namespace Bond
open Spec
variable {T F σ : Type}

/-- the keys collected from one iterator -/
theorem collectSet_eq {t : Table T F} (wf : t.WF) {idx : Index T} (hi : IsIndex t idx) {done : Nat → Bool} (hd : ∀ n, done n = false)
    (keep : Bytes → Bool) (rows : List T) (clock : Nat) (m : KV) :
    ∃ c m', collectSet done keep (rows.map (entryOf t idx)) clock m = .ok (c, m') ∧
      ∀ k, (m'.get k).isSome = true ↔ ((∃ x ∈ rows, t.key x = k) ∧ keep k = true) ∨ (m.get k).isSome = true := by
  induction rows generalizing clock m with
  | nil => exact ⟨clock, m, rfl, by simp⟩
  | cons x rows ih =>
    obtain ⟨c, m', h1, h2⟩ := ih (clock + 1) (if keep (t.key x) then m.set (t.key x) [] else m)
    refine ⟨c, m', ?_, ?_⟩
    · rw [List.map_cons]
      show collectSet done keep ((t.indexKey idx x, _) :: _) clock m = _
      rw [collectSet, hd, toDataKey_indexKey wf hi]
      simp only [Bool.false_eq_true, if_false]
      exact h1
    · intro k
      rw [h2]
      by_cases hk : keep (t.key x) = true
      · rw [if_pos hk, KV.get_set]
        by_cases he : k = t.key x
        · subst he; simp [hk]
        · rw [if_neg he]
          have : (∃ y ∈ x :: rows, t.key y = k) ↔ ∃ y ∈ rows, t.key y = k := by
            constructor
            · rintro ⟨y, hy, hyk⟩
              rw [List.mem_cons] at hy
              rcases hy with rfl | hy
              · exact absurd hyk.symm he
              · exact ⟨y, hy, hyk⟩
            · rintro ⟨y, hy, hyk⟩; exact ⟨y, by simp [hy], hyk⟩
          rw [this]
      · rw [if_neg hk]
        have : ((∃ y ∈ x :: rows, t.key y = k) ∧ keep k = true) ↔ ((∃ y ∈ rows, t.key y = k) ∧ keep k = true) := by
          constructor
          · rintro ⟨⟨y, hy, hyk⟩, hkk⟩
            rw [List.mem_cons] at hy
            rcases hy with rfl | hy
            · subst hyk; exact absurd hkk hk
            · exact ⟨⟨y, hy, hyk⟩, hkk⟩
          · rintro ⟨⟨y, hy, hyk⟩, hkk⟩; exact ⟨⟨y, by simp [hy], hyk⟩, hkk⟩
        rw [this]

/-- the entries of a selector are those of the rows that a scan returns -/
theorem Setting.entries {t : Table T F} {env : Env T} {filt : F} {db : KV} {ob : Option Batch} {m : Rows T}
    (S : Setting t env filt db ob m) {idx : Index T} (hi : IsIndex t idx) {sel : Selector T} (hs : sel.OK idx) {rows : List T}
    (hy : Yields t env filt db ob idx sel false rows) :
    (∃ parts, t.iterParts db ob idx sel = some parts ∧ parts.flatten = rows.map (entryOf t idx)) ∧
      ∀ x ∈ rows, Indexed t idx m x := by
  obtain ⟨parts, h1, h2, _⟩ := S.parts hi hs
  obtain ⟨V, hr, hH⟩ := S.content
  obtain ⟨g1, g2⟩ := iterBounds_eq S.wf hi hs
  obtain ⟨parts', h3, h4⟩ := scan_parts S.wf hi hH _ g2
  have hu : parts' = parts := h4.unique S.wf hi h1
  subst hu
  have hrows : rows = parts'.flatten := hy.unique (h2 false)
  subst hrows
  refine ⟨⟨parts'.map (fun rows => rows.map (entryOf t idx)), ?_, ?_⟩, h1.indexed⟩
  · unfold Table.iterParts
    rw [g1, ← h3]
    unfold iterEntries
    rw [hr]; rfl
  · rw [List.map_flatten]

/-- `x` is among the rows that each of the queries selects -/
def Spec.InAll (t : Table T F) (env : Env T) (filt : F) (db : KV) (ob : Option Batch) (qs : List (Query T)) (x : T) : Prop :=
  ∀ q ∈ qs, ∃ rows, Yields t env filt db ob q.index q.sel false rows ∧ x ∈ rows

theorem key_inj_rows {t : Table T F} {x y : T} (h : t.key x = t.key y) : t.pk x = t.pk y := by
  unfold Table.key at h
  rw [dataKey_eq, dataKey_eq] at h
  simpa using h

theorem intersectLoop_eq {t : Table T F} {env : Env T} {filt : F} {db : KV} {ob : Option Batch} {m : Rows T}
    (S : Setting t env filt db ob m) (qs : List (Query T)) (hqs : ∀ q ∈ qs, IsIndex t q.index ∧ q.sel.OK q.index) (clock : Nat) (c : KV)
    (P : T → Prop) (hP : ∀ x, P x → m (t.pk x) = some x) (hc : ∀ k, (c.get k).isSome = true ↔ ∃ x, P x ∧ t.key x = k) :
    ∃ c', t.intersectLoop env db ob qs clock c = .ok c' ∧
      ∀ k, (c'.get k).isSome = true ↔ ∃ x, P x ∧ InAll t env filt db ob qs x ∧ t.key x = k := by
  induction qs generalizing clock c P with
  | nil => exact ⟨c, rfl, by intro k; rw [hc]; simp [InAll]⟩
  | cons q qs ih =>
    obtain ⟨hi, hs⟩ := hqs q (by simp)
    obtain ⟨prts, _, h2, _⟩ := S.parts hi hs
    have hy := h2 false
    generalize hrows : dir false prts.flatten = rows at hy
    obtain ⟨⟨parts, g1, g2⟩, g3⟩ := S.entries hi hs hy
    obtain ⟨cl, c1, e1, e2⟩ := collectSet_eq S.wf hi S.alive (fun k => (c.get k).isSome) rows clock KV.empty
    obtain ⟨c', f1, f2⟩ := ih (fun q hq => hqs q (by simp [hq])) cl c1 (fun x => P x ∧ x ∈ rows) (fun x hx => hP x hx.1) (by
      intro k
      rw [e2, hc]
      simp only [KV.get_empty, Option.isSome_none, Bool.false_eq_true, or_false]
      constructor
      · rintro ⟨⟨x, hx, rfl⟩, ⟨y, hy, hyx⟩⟩
        have hpk := key_inj_rows hyx
        have : y = x := by
          have a := hP y hy
          have b := (g3 x hx).1
          rw [hpk, b] at a; simpa using a.symm
        subst this
        exact ⟨y, ⟨hy, hx⟩, rfl⟩
      · rintro ⟨x, ⟨h1, h2⟩, rfl⟩
        exact ⟨⟨x, h2, rfl⟩, x, h1, rfl⟩)
    refine ⟨c', ?_, ?_⟩
    · rw [Table.intersectLoop, g1]
      simp only
      rw [g2, e1]
      exact f1
    · intro k
      rw [f2]
      constructor
      · rintro ⟨x, ⟨h1, hxr⟩, h3, h4⟩
        refine ⟨x, h1, ?_, h4⟩
        intro q' hq'
        rw [List.mem_cons] at hq'
        rcases hq' with rfl | hq'
        · exact ⟨rows, hy, hxr⟩
        · exact h3 q' hq'
      · rintro ⟨x, h1, h3, h4⟩
        refine ⟨x, ⟨h1, ?_⟩, fun q' hq' => h3 q' (by simp [hq']), h4⟩
        obtain ⟨rows', hy', hx'⟩ := h3 q (by simp)
        rw [hy.unique hy']; exact hx'

/-- the keys of the intersection are the keys of the rows selected by all parts, in primary key order -/
theorem intersect_eq {t : Table T F} {env : Env T} {filt : F} {db : KV} {ob : Option Batch} {m : Rows T}
    (S : Setting t env filt db ob m) {idx : Index T} {sel : Selector T} (hi : IsIndex t idx) (hs : sel.OK idx) (qs : List (Query T))
    (hqs : ∀ q ∈ qs, IsIndex t q.index ∧ q.sel.OK q.index) {first : List T} (hy : Yields t env filt db ob idx sel false first) :
    ∃ rows, t.intersect env db ob idx sel qs = .ok (rows.map t.key) ∧
      IsRows t t.primaryIndex m (fun x => x ∈ first ∧ InAll t env filt db ob qs x) rows := by
  obtain ⟨⟨parts, g1, g2⟩, g3⟩ := S.entries hi hs hy
  obtain ⟨cl, c1, e1, e2⟩ := collectSet_eq S.wf hi S.alive (fun _ => true) first 0 KV.empty
  obtain ⟨c', f1, f2⟩ := intersectLoop_eq S qs hqs cl c1 (fun x => x ∈ first) (fun x hx => (g3 x hx).1) (by
    intro k; rw [e2]; simp)
  have hprim : IsIndex t t.primaryIndex := Or.inr rfl
  obtain ⟨rows, hrows, hmem⟩ := exists_map_of_forall t.key (fun x => x ∈ first ∧ InAll t env filt db ob qs x) (c'.l.map Prod.fst) (by
    intro k hk
    obtain ⟨⟨k', v⟩, hkv, rfl⟩ := List.mem_map.1 hk
    have := (KV.get_eq_some_iff c' k' v).2 hkv
    obtain ⟨x, h1, h2, h3⟩ := (f2 k').1 (by rw [this]; rfl)
    exact ⟨x, h3.symm, h1, h2⟩)
  refine ⟨rows, ?_, ?_, ?_⟩
  · unfold Table.intersect
    rw [g1]
    simp only
    rw [g2, e1]
    simp only
    rw [f1, ← hrows]
  · have hs := c'.sorted
    unfold SortedKV at hs
    have : (c'.l.map Prod.fst).Pairwise (fun a b => blt a b = true) := by
      rw [List.pairwise_map]; exact hs
    rw [hrows, List.pairwise_map] at this
    refine this.imp ?_
    intro a b h
    rw [← indexKey_lt S.wf hprim, indexKey_primary, indexKey_primary]; exact h
  · intro x
    constructor
    · intro hx
      have := hmem x hx
      exact ⟨⟨(g3 x this.1).1, rfl⟩, this⟩
    · rintro ⟨_, h1, h2⟩
      have := (f2 (t.key x)).2 ⟨x, h1, h2, rfl⟩
      obtain ⟨v, hv⟩ := Option.isSome_iff_exists.1 this
      have hin : t.key x ∈ rows.map t.key := by
        rw [← hrows]; exact List.mem_map.2 ⟨(t.key x, v), (KV.get_eq_some_iff c' _ v).1 hv, rfl⟩
      obtain ⟨y, hy', hyx⟩ := List.mem_map.1 hin
      have hpk := key_inj_rows hyx
      have a := (g3 y (hmem y hy').1).1
      rw [hpk, (g3 x h1).1] at a
      simp at a
      rw [a]; exact hy'

theorem decodeFilter_eq {t : Table T F} (rt : t.RoundTripFresh) (q : Query T) (rows : List T) (val : T → Bytes)
    (h : ∀ x ∈ rows, t.ser x = some (val x)) : t.decodeFilter q (rows.map val) = .ok (rows.filter (accepts q)) := by
  induction rows with
  | nil => rfl
  | cons x rows ih =>
    rw [List.map_cons, Table.decodeFilter, rt x _ (h x (by simp)), ih (fun y hy => h y (by simp [hy]))]
    simp only [filter_all]
    by_cases hx : accepts q x = true
    · rw [if_pos hx, List.filter_cons_of_pos hx]
    · rw [if_neg hx, List.filter_cons_of_neg hx]

/-- reading and decoding the rows of some keys -/
theorem fetchRows {t : Table T F} (rt : t.RoundTripFresh) {env : Env T} (ok : env.OK t) {filt : F} {db : KV} {m : Rows T}
    (hH : Holds t db m) (hF : FilterCovers t filt m) (q : Query T) (rows : List T) (hrows : ∀ x ∈ rows, m (t.pk x) = some x) :
    ∃ values, t.getKeys env filt db none (rows.map t.key) (rows.map t.key).length true = .ok values ∧
      t.decodeFilter q values = .ok (rows.filter (accepts q)) := by
  have hl : ∀ x ∈ rows, ∃ b, t.ser x = some b ∧ lookup t filt db none (t.key x) = some b := by
    intro x hx
    obtain ⟨b, hb, hg⟩ := hH.present _ x (hrows x hx)
    exact ⟨b, hb, by show lookup t filt db none (dataKey t.id (t.pk x)) = _; rw [lookup_eq (V := db) rfl hH hF]; exact hg⟩
  refine ⟨_, getKeys_ok t ok filt db none ?_ (Nat.le_refl _) true ?_, ?_⟩
  · intro k hk
    obtain ⟨x, _, rfl⟩ := List.mem_map.1 hk
    exact dataKey_lt_end t _
  · intro _ k hk
    obtain ⟨x, hx, rfl⟩ := List.mem_map.1 hk
    obtain ⟨b, _, hb⟩ := hl x hx
    rw [hb]; rfl
  · rw [List.map_map]
    apply decodeFilter_eq rt
    intro x hx
    obtain ⟨b, hb, hb'⟩ := hl x hx
    simp only [Function.comp, hb', hb]; rfl

theorem page_map {α β : Type} (f : α → β) (o n : Nat) (l : List α) : page o n (l.map f) = (page o n l).map f := by
  unfold page; split <;> simp [List.map_drop, List.map_take]

theorem sliceKeys_eq {q : Query T} (ho : q.offset.toNat < 2 ^ 63) (hL : q.limit.toNat < 2 ^ 63) (keys : List Bytes) :
    q.sliceKeys keys = .ok (if q.filter.isNone ∧ q.less.isNone ∧ q.after.isNone then page q.offset.toNat q.limit.toNat keys else keys) := by
  unfold Query.sliceKeys
  split
  · split
    · rename_i h
      rw [goInt_small ho] at h
      have : keys.drop q.offset.toNat = [] := List.drop_eq_nil_of_le (by omega)
      unfold page; rw [this]; simp
    · exact slice_off ho hL _ _ (by simp)
  · rfl

/-- intersect queries: `rows` are the selected rows in primary key order, and the committed database has them -/
theorem executeIntersect_eq {t : Table T F} {env : Env T} {filt : F} {db : KV} {ob : Option Batch}
    (rt : t.RoundTripFresh) (ok : env.OK t) (srt : (T → T → Bool) → List T → List T) {m0 : Rows T}
    (hH : Holds t db m0) (hF : FilterCovers t filt m0) {q : Query T} (hchk : q.checkIntersect = true) {rows : List T}
    (hint : t.intersect env db ob q.index q.sel q.intersects = .ok (rows.map t.key)) (hrows : ∀ x ∈ rows, m0 (t.pk x) = some x)
    (ho : q.offset.toNat < 2 ^ 63) (hL : q.limit.toNat < 2 ^ 63) :
    q.executeIntersect t env srt filt db ob =
      .ok (if q.filter.isNone ∧ q.less.isNone ∧ q.after.isSome then q.skipAfter t false rows
        else page q.offset.toNat q.limit.toNat (q.skipAfter t false (ordered srt q rows))) := by
  unfold Query.executeIntersect
  rw [if_neg (by rw [hchk]; simp), hint]
  simp only [sliceKeys_eq ho hL]
  have hsort : ∀ l : List T, q.sortRecords srt (l.filter (accepts q)) = ordered srt q l := by
    intro l; unfold Query.sortRecords ordered; cases q.less <;> rfl
  by_cases hearly : q.filter.isNone ∧ q.less.isNone ∧ q.after.isNone
  · rw [if_pos hearly, page_map]
    obtain ⟨values, h1, h2⟩ := fetchRows rt ok hH hF q (page q.offset.toNat q.limit.toNat rows) (by
      intro x hx
      apply hrows
      unfold page at hx
      split at hx
      · exact List.mem_of_mem_drop hx
      · exact List.mem_of_mem_drop (List.mem_of_mem_take hx))
    rw [h1]
    simp only [h2, hsort]
    obtain ⟨hf, hl, ha⟩ := hearly
    have hf : q.filter = none := by simpa using hf
    have hl : q.less = none := by simpa using hl
    have ha : q.after = none := by simpa using ha
    have hall : ∀ l : List T, ordered srt q l = l := by
      intro l; unfold ordered; rw [hl]; simp only; rw [List.filter_eq_self]; intro x _; simp [accepts, hf]
    simp [Query.finishIntersect, hf, hl, ha, Query.skipAfter, hall]
  · rw [if_neg hearly]
    obtain ⟨values, h1, h2⟩ := fetchRows rt ok hH hF q rows hrows
    rw [h1]
    simp only [h2, hsort]
    unfold Query.finishIntersect
    by_cases hfl : q.filter.isSome ∨ q.less.isSome
    · rw [if_pos hfl, slice_off ho hL _ _ (by simp), if_neg]
      rintro ⟨a, b, _⟩
      rcases hfl with h | h
      · cases hq : q.filter <;> simp_all
      · cases hq : q.less <;> simp_all
    · rw [if_neg hfl]
      have hf : q.filter = none := by cases hq : q.filter <;> simp_all
      have hl : q.less = none := by cases hq : q.less <;> simp_all
      have ha : q.after.isSome = true := by cases hq : q.after <;> simp_all
      have hall : ∀ l : List T, ordered srt q l = l := by
        intro l; unfold ordered; rw [hl]; simp only; rw [List.filter_eq_self]; intro x _; simp [accepts, hf]
      simp [hf, hl, ha, hall]

end Bond
