import Verif.SameRowsLemmas
import Verif.Scan
/-
C114: write calls on the same rows at the same time.
-/
namespace Bond
open Spec
variable {T F : Type}

/-- C114 (what holds): Inserts, Updates, Upserts and UnsafeInserts on any rows, the same or not, any number of them, under any schedule and while
others write elsewhere; `A` are rows that include those stored and those given to the calls, on which conflict functions stay, and of which those
with the same key have the same index entries. At any moment the indexes agree with the rows, every row is one of `A`, no row has disappeared, and
every key given to a call that has succeeded is stored. Missing: calls that change an index value of a row that another call writes
(`C114_refuted_update`), and Deletes (`C114_refuted_delete`). -/
theorem C114_partial {t : Table T F} (wf : t.WF) (rt : t.RoundTrip) {A : T → Prop} (hs : SameEntries t A) {db : KV} {m : Rows T} (hH : Holds t db m)
    (hm : ∀ pk x, m pk = some x → A x) {cs : List (Env T × WCall T)} (hok : ∀ c ∈ cs, c.1.OK t) (hc : ∀ c ∈ cs, CallIn t A c.2) (f : F)
    (sched : List (Nat ⊕ List WOp)) (ho : OthersOutside t sched) :
    let w := (t.world db f cs).run sched
    ∃ m', Holds t w.db m' ∧ (∀ pk x, m' pk = some x → A x) ∧ (∀ pk, (m pk).isSome → (m' pk).isSome) ∧
      ∀ (i : Nat) (th : Thread T F) (c : Env T × WCall T), w.threads[i]? = some th → cs[i]? = some c → th.res = some none →
        ∀ pk, dataKey t.id pk ∈ c.2.keys t → (m' pk).isSome := by
  have h := (WorldWithin.start wf rt hs hH hm hok hc f).run wf sched ho
  obtain ⟨m', hm', hA⟩ := h.db.holds hs
  have hst : ∀ pk, (((t.world db f cs).run sched).db.get (dataKey t.id pk)).isSome → (m' pk).isSome := by
    intro pk hp
    cases hn : m' pk with
    | none => rw [hm'.absent pk hn] at hp; simp at hp
    | some x => rfl
  exact ⟨m', hm', hA, fun pk hp => hst pk (h.kept pk hp), fun i th c hi hci hr pk hx => hst _ (h.done i th c hi hci hr _ hx)⟩

/-- test index on the tens of the group -/
def tensIndex : Index Rec := { id := 1, key := fun x => [x.2 / 10], ord := fun _ => [], filter := fun x => x.2 ≠ 0 }

/-- test table with that index -/
def tensTable : Table Rec Unit := { exTable with indexes := [tensIndex] }

theorem tensTable_wf : tensTable.WF where
  ids := by decide
  nz := by intro idx h; simp [tensTable] at h; subst h; decide
  klen := by intro idx h x; simp [tensTable] at h; subst h; simp [tensIndex]
  olen := by intro idx h x; simp [tensTable] at h; subst h; simp [tensIndex]

/-- row 1 has a group in the fifties, row 3 in the tens, the others 60 -/
def exTens (x : Rec) : Prop := if x.1 = 1 then x.2 / 10 = 5 ∧ x.2 ≠ 0 else if x.1 = 3 then x.2 / 10 = 1 ∧ x.2 ≠ 0 else x.2 = 60

theorem exTens_same : SameEntries tensTable exTens := by
  rintro ⟨a, g⟩ ⟨b, h⟩ hx hy hp idx hi
  simp only [tensTable, List.mem_singleton] at hi
  subst hi
  simp only [tensTable, exTable, List.cons.injEq, and_true] at hp
  subst hp
  simp only [exTens] at hx hy
  split at hx
  · rename_i e
    rw [if_pos e] at hy
    exact ⟨by simp [tensIndex, hx.2, hy.2], fun _ => by simp [Table.indexKey, tensIndex, hx.1, hy.1, tensTable, exTable]⟩
  · rename_i e
    rw [if_neg e] at hy
    split at hx
    · rename_i e
      rw [if_pos e] at hy
      exact ⟨by simp [tensIndex, hx.2, hy.2], fun _ => by simp [Table.indexKey, tensIndex, hx.1, hy.1, tensTable, exTable]⟩
    · rename_i e
      rw [if_neg e] at hy
      subst hx hy
      exact ⟨rfl, fun _ => rfl⟩

instance : DecidablePred exTens := fun x => by unfold exTens; exact inferInstance

/-- calls on rows 1 and 3, most of them at the same time -/
def exSameRows : List (Env Rec × WCall Rec) :=
  [(stdEnv tensTable, .insert [(1, 53), (2, 60)]), (stdEnv tensTable, .update [(1, 57)]),
   (stdEnv tensTable, .upsert (fun o _ => (o, o)) [(1, 55), (3, 10)]), (stdEnv tensTable, .unsafeInsert [(3, 12)])]

/-- the Insert first, then the others mixed -/
def exSameRowsSched : List (Nat ⊕ List WOp) :=
  [.inl 0, .inl 0, .inl 0, .inl 0, .inl 1, .inl 2, .inl 3, .inl 1, .inl 2, .inl 3, .inl 2, .inl 1, .inl 2]

theorem exSameRows_in : ∀ c ∈ exSameRows, CallIn tensTable exTens c.2 := by
  intro c hc
  simp only [exSameRows, List.mem_cons, List.not_mem_nil, or_false] at hc
  rcases hc with rfl | rfl | rfl | rfl
  · intro x hx; simp only [List.mem_cons, List.not_mem_nil, or_false] at hx; rcases hx with rfl | rfl <;> decide
  · intro x hx; simp only [List.mem_cons, List.not_mem_nil, or_false] at hx; subst hx; decide
  · refine ⟨?_, by decide, fun x y hx _ _ => ⟨⟨hx, rfl⟩, hx, rfl⟩⟩
    intro x hx; simp only [List.mem_cons, List.not_mem_nil, or_false] at hx; rcases hx with rfl | rfl <;> decide
  · intro x hx; simp only [List.mem_cons, List.not_mem_nil, or_false] at hx; subst hx; decide

/-- `C114_partial` at these calls -/
example := C114_partial tensTable_wf exTable_rt exTens_same (holds_empty tensTable) (by intro _ _ h; simp at h) (cs := exSameRows)
  (by intro c hc; simp only [exSameRows, List.mem_cons, List.not_mem_nil, or_false] at hc; rcases hc with rfl | rfl | rfl | rfl <;> exact stdEnv_ok _)
  exSameRows_in () exSameRowsSched (by intro ops hm; simp [exSameRowsSched] at hm)

/-- they all succeed, and the last one decides -/
example : ((tensTable.world KV.empty () exSameRows).run exSameRowsSched).threads.map Thread.res = [some none, some none, some none, some none] ∧
    ((tensTable.world KV.empty () exSameRows).run exSameRowsSched).db.get (tensTable.key (1, 0)) = some [1, 53] ∧
    ((tensTable.world KV.empty () exSameRows).run exSameRowsSched).db.get (tensTable.key (3, 0)) = some [3, 10] := by
  decide +kernel

/-- no content agrees with a row that has no index entry -/
theorem not_holds_of_missing {db : KV} (hd : db.get (exTable.key (1, 5)) = some [1, 5]) (hi : db.get (exTable.indexKey exIndex (1, 5)) = none) :
    ¬ ∃ m, Holds exTable db m := by
  rintro ⟨m, h⟩
  have hd' : db.get (dataKey exTable.id (exTable.pk (1, 5))) = some [1, 5] := hd
  cases hm : m (exTable.pk (1, 5)) with
  | none => rw [h.absent _ hm] at hd'; simp at hd'
  | some x =>
    obtain ⟨b, hb, hg⟩ := h.present _ _ hm
    rw [hd'] at hg
    simp only [exTable, Option.some.injEq] at hb hg
    rw [← hg] at hb
    obtain ⟨a, g⟩ := x
    simp only [List.cons.injEq, and_true] at hb
    obtain ⟨rfl, rfl⟩ := hb
    have := (h.index exIndex (by simp [exTable]) _ [] (inSpace_indexKey exTable exIndex (1, 5))).2 ⟨rfl, _, _, hm, rfl, rfl⟩
    rw [hi] at this; simp at this

/-- one Update changes the index value of row 1, the other does not -/
def exTwoUpdates : List (Env Rec × WCall Rec) := [(stdEnv exTable, .update [(1, 7)]), (stdEnv exTable, .update [(1, 5)])]

/-- both look before either commits -/
def exTwoSched : List (Nat ⊕ List WOp) := [.inl 0, .inl 0, .inl 1, .inl 1, .inl 0, .inl 1]

/-- C114 is false: two Updates of one row at the same time succeed, and afterwards the row is stored but its index does not have it: a scan of
the index for its value gives nothing, and a scan for the value of the other Update gives a row that does not have that value. -/
theorem C114_refuted_update : Holds exTable exDB (Rows.putAll (fun _ => none) exTable.pk [(1, 5), (2, 6)]) ∧
    let w := (exTable.world exDB () exTwoUpdates).run exTwoSched
    w.threads.map Thread.res = [some none, some none] ∧ w.db.get (exTable.key (1, 5)) = some [1, 5] ∧
    exTable.scanIndex (stdEnv exTable) () w.db none exIndex (.point (0, 5)) false 9 [] = some ⟨[], none⟩ ∧
    exTable.scanIndex (stdEnv exTable) () w.db none exIndex (.point (0, 7)) false 9 [] = some ⟨[(1, 5)], none⟩ ∧
    ¬ ∃ m, Holds exTable w.db m := by
  refine ⟨exDB_holds, by decide +kernel, by decide +kernel, by decide +kernel, by decide +kernel, not_holds_of_missing (by decide +kernel) (by decide +kernel)⟩

/-- a Delete of row 1 and an Update that leaves it as it is -/
def exUpdateDelete : List (Env Rec × WCall Rec) := [(stdEnv exTable, .delete [(1, 5)]), (stdEnv exTable, .update [(1, 5)])]

/-- the Update looks before the Delete commits -/
def exUpdateDeleteSched : List (Nat ⊕ List WOp) := [.inl 1, .inl 1, .inl 0, .inl 0, .inl 1]

/-- C114 is false with Deletes even if no index value changes: the row is stored again without its index entry -/
theorem C114_refuted_delete :
    let w := (exTable.world exDB () exUpdateDelete).run exUpdateDeleteSched
    w.threads.map Thread.res = [some none, some none] ∧ w.db.get (exTable.key (1, 5)) = some [1, 5] ∧
    exTable.scanIndex (stdEnv exTable) () w.db none exIndex (.point (0, 5)) false 9 [] = some ⟨[], none⟩ ∧ ¬ ∃ m, Holds exTable w.db m := by
  refine ⟨by decide +kernel, by decide +kernel, by decide +kernel, not_holds_of_missing (by decide +kernel) (by decide +kernel)⟩

end Bond
