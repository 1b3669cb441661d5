import Verif.Props.Concurrent
import Verif.InsertRaceLemmas
/-
C52: what several Inserts at the same time leave behind, exactly.
-/
namespace Bond
open Spec
variable {T F : Type}

/-- C52, exactly, for any number of Inserts at the same time with any rows, under any schedule, at any moment, while others write elsewhere:
rows that were stored stay as they are, and no Insert of their keys succeeds; a key that was not stored has a row if and only if an
Insert of it has succeeded, and then the row is one of those given to such Inserts; every index has exactly the entries of the rows that
were stored and of all rows given to Inserts that have succeeded. So only the entries of rows that lost against another Insert of the
same key are wrong. -/
theorem C52_exact {t : Table T F} (wf : t.WF) (fs : t.FilterSound) {db : KV} {f : F} {m : Rows T} (hH : Holds t db m) (hF : FilterCovers t f m)
    {cs : List (Env T × WCall T)} (hok : ∀ c ∈ cs, c.1.OK t) (hins : ∀ c ∈ cs, ∃ trs, c.2 = .insert trs) (sched : List (Nat ⊕ List WOp))
    (ho : OthersOutside t sched) :
    let w := (t.world db f cs).run sched
    (∀ pk x, m pk = some x → w.db.get (dataKey t.id pk) = db.get (dataKey t.id pk) ∧ ∀ y, Won cs w y → t.pk y ≠ pk) ∧
    (∀ pk, m pk = none → (w.db.get (dataKey t.id pk) = none ∧ ∀ y, Won cs w y → t.pk y ≠ pk) ∨
      ∃ y b, Won cs w y ∧ t.pk y = pk ∧ t.ser y = some b ∧ w.db.get (dataKey t.id pk) = some b) ∧
    ∀ idx ∈ t.indexes, ∀ k v, InSpace t.id idx.id k →
      (w.db.get k = some v ↔ v = [] ∧ ∃ x, (m (t.pk x) = some x ∨ Won cs w x) ∧ idx.filter x = true ∧ k = t.indexKey idx x) := by
  have h0 : RaceInv t db cs (t.world db f cs) := by
    have hnw : ∀ x, ¬ Won cs (t.world db f cs) x := by
      rintro x ⟨i, th, env, trs, hi, hr, _⟩
      simp only [Table.world, List.getElem?_map, Option.map_eq_some_iff] at hi
      obtain ⟨c, _, rfl⟩ := hi
      simp [Table.spawn] at hr
    refine ⟨by simp [Table.world], ?_, ⟨fun x hx => absurd hx (hnw x), fun pk => .inl ⟨rfl, fun y hy => absurd hy (hnw y)⟩, ?_⟩⟩
    · intro i th env c hi hc
      simp only [Table.world, List.getElem?_map, hc, Option.map_some, Option.some.injEq] at hi
      subst hi
      obtain ⟨trs, ht⟩ := hins _ (List.mem_of_getElem? hc)
      simp only at ht; subst ht
      exact ⟨rfl, trs, rfl, fun _ => InsTh.start⟩
    · intro idx _ k v _
      constructor
      · intro h; exact .inl ⟨h, fun x hx => absurd hx (hnw x)⟩
      · rintro (⟨h, _⟩ | ⟨_, x, hx, _⟩)
        · exact h
        · exact absurd hx (hnw x)
  have h := (h0.run wf hok sched ho).raced
  intro w
  have hold : ∀ pk x, m pk = some x → ∀ y, Won cs w y → t.pk y ≠ pk := by
    rintro pk x hm y ⟨i, th, env, trs, hi, hr, hc, hy⟩ he
    obtain ⟨b, _, hb⟩ := hH.present pk x hm
    refine C52_partial wf fs (covKV_of_holds hH hF) hok (x := y) ?_ ?_ hc hy sched ho th hi hr
    · show (db.get (dataKey t.id (t.pk y))).isSome = true
      rw [he, hb]; rfl
    · intro e ds hd
      obtain ⟨_, hc'⟩ := hins _ hd
      simp at hc'
  refine ⟨fun pk x hm => ⟨?_, hold pk x hm⟩, fun pk hm => ?_, fun idx hi k v hk => ?_⟩
  · rcases h.data pk with ⟨h1, _⟩ | ⟨y, b, hw, hp, _⟩
    · exact h1
    · exact absurd hp (hold pk x hm y hw)
  · rcases h.data pk with ⟨h1, h2⟩ | h2
    · exact .inl ⟨by rw [h1, hH.absent pk hm], h2⟩
    · exact .inr h2
  · rw [h.index idx hi k v hk, hH.index idx hi k v hk]
    constructor
    · rintro (⟨⟨h1, pk, x, hm, hf, he⟩, _⟩ | ⟨h1, x, hw, hf, he⟩)
      · exact ⟨h1, x, .inl (by rw [hH.row_pk pk x hm]; exact hm), hf, he⟩
      · exact ⟨h1, x, .inr hw, hf, he⟩
    · rintro ⟨h1, x, hx, hf, he⟩
      by_cases hex : ∃ y, Won cs w y ∧ idx.filter y = true ∧ k = t.indexKey idx y
      · obtain ⟨y, hy⟩ := hex
        exact .inr ⟨h1, y, hy⟩
      · rcases hx with hx | hx
        · refine .inl ⟨⟨h1, _, x, hx, hf, he⟩, fun y hy hfy e => hex ⟨y, hy, hfy, e⟩⟩
        · exact absurd ⟨x, hx, hf, he⟩ hex

/-- `C52_exact` at two Inserts of the same key that both succeed -/
example := C52_exact exTable_wf exTable_fs exDB_holds (covers_nofilter rfl () _) (cs := exSameKey)
  (by intro c hc; simp only [exSameKey, List.mem_cons, List.not_mem_nil, or_false] at hc; rcases hc with rfl | rfl <;> exact stdEnv_ok _)
  (by intro c hc; simp only [exSameKey, List.mem_cons, List.not_mem_nil, or_false] at hc; rcases hc with rfl | rfl <;> exact ⟨_, rfl⟩)
  exSameKeySched (by intro ops hm; simp [exSameKeySched] at hm)

end Bond
