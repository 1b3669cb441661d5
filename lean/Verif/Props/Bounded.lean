import Verif.Bounded
import Verif.Props.SameRows
import Verif.Props.ReIndex
import Verif.Batches
/-
C114: what any write calls on the same rows at the same time leave behind, and how ReIndex repairs it.
-/
namespace Bond
open Spec
variable {T F : Type}

theorem DbOf.of_holds {t : Table T F} {A : T → Prop} {db : KV} {m : Rows T} (hH : Holds t db m) (hm : ∀ pk x, m pk = some x → A x) : DbOf t A db := by
  refine ⟨fun pk v hg => ?_, hH.only_data, fun idx hi k v hk hg => ?_⟩
  · cases hp : m pk with
    | none => rw [hH.absent pk hp] at hg; simp at hg
    | some x =>
      obtain ⟨b, hb, hg'⟩ := hH.present pk x hp
      rw [hg] at hg'
      simp only [Option.some.injEq] at hg'
      subst hg'
      exact ⟨x, hm pk x hp, hH.row_pk pk x hp, hb⟩
  · obtain ⟨hv, pk, x, hp, hf, hk'⟩ := (hH.index idx hi k v hk).1 hg
    exact ⟨hv, x, hm pk x hp, hf, hk'⟩

/-- C114 (the damage is bounded): any write calls on any rows at the same time, Deletes and index values that change included, any number of
them, under any schedule and while others write elsewhere, with failed commits or not; `A` are rows that include those stored and those given
to the calls to be stored. At any moment every key holds a record of `A` with that key or nothing, nothing else is in the table, and every index
entry is the entry of a record of `A`: no call mixes the fields of two records or leaves an entry of a record that was never there. -/
theorem C114_bounded {t : Table T F} (wf : t.WF) (rt : t.RoundTrip) {A : T → Prop} {db : KV} {m : Rows T} (hH : Holds t db m)
    (hm : ∀ pk x, m pk = some x → A x) {cs : List (Env T × WCall T)} (hok : ∀ c ∈ cs, c.1.OK t) (hc : ∀ c ∈ cs, CallOf t A c.2) (f : F)
    (sched : List (Nat ⊕ List WOp)) (ho : OthersOutside t sched) :
    let w := (t.world db f cs).run sched
    ∃ m', Holds { t with indexes := [] } w.db m' ∧ (∀ pk x, m' pk = some x → A x) ∧
      ∀ idx ∈ t.indexes, ∀ k v, InSpace t.id idx.id k → w.db.get k = some v → v = [] ∧ ∃ x, A x ∧ idx.filter x = true ∧ k = t.indexKey idx x := by
  have h := (WorldOf.start rt (DbOf.of_holds hH hm) hok hc f).run wf sched ho
  obtain ⟨m', h1, h2⟩ := h.db.data
  exact ⟨m', h1, h2, h.db.index⟩

/-- C114 (and it is repaired): after any such calls, a ReIndex of all indexes that runs alone and returns without error makes the indexes agree
with the rows again, and the rows are those the calls left. Index ids other than 255, see `C36_refuted`. -/
theorem C114_repair {t : Table T F} (wf : t.WF) (rt : t.RoundTrip) {A : T → Prop} {db : KV} {m : Rows T} (hH : Holds t db m)
    (hm : ∀ pk x, m pk = some x → A x) {cs : List (Env T × WCall T)} (hok : ∀ c ∈ cs, c.1.OK t) (hc : ∀ c ∈ cs, CallOf t A c.2) (f : F)
    (sched : List (Nat ⊕ List WOp)) (ho : OthersOutside t sched) (h255 : ∀ idx ∈ t.indexes, idx.id ≠ 0xFF) (size : Nat)
    (commitOk : Nat → Bool) :
    let w := (t.world db f cs).run sched
    (t.reIndexBs size commitOk w.db t.indexes).err = none →
    ∃ m', Holds { t with indexes := [] } w.db m' ∧ (∀ pk x, m' pk = some x → A x) ∧ Holds t ((t.reIndexBs size commitOk w.db t.indexes).db w.db) m' := by
  intro w herr
  obtain ⟨m', h1, h2, _⟩ := C114_bounded wf rt hH hm hok hc f sched ho
  refine ⟨m', h1, h2, C36_partial size wf (fun x b hb => rt x b hb _) commitOk (fun _ h => h) h255 (holds_data (l := []) h1 ?_) herr⟩
  intro i hi
  simp only [List.mem_filter, Bool.not_eq_true', List.contains_eq_mem, decide_eq_false_iff_not] at hi
  exact absurd (List.mem_map_of_mem hi.1) hi.2

/-- the rows stored in `exDB`, and those of the two Updates -/
def exBoundA (x : Rec) : Prop := x ∈ [(1, 5), (2, 6), (1, 7)]

theorem exBoundA_start : ∀ pk x, Rows.putAll (fun _ => none) exTable.pk [(1, 5), (2, 6)] pk = some x → exBoundA x := by
  intro pk x h
  simp only [Rows.putAll, List.foldl, Rows.put] at h
  split at h
  · simp only [Option.some.injEq] at h; subst h; simp [exBoundA]
  · split at h
    · simp only [Option.some.injEq] at h; subst h; simp [exBoundA]
    · simp at h

/-- `C114_repair` at the two Updates of `C114_refuted_update`, after which an index scan misses the row -/
example := C114_repair exTable_wf exTable_rt exDB_holds exBoundA_start (cs := exTwoUpdates)
  (by intro c hc; simp only [exTwoUpdates, List.mem_cons, List.not_mem_nil, or_false] at hc; rcases hc with rfl | rfl <;> exact stdEnv_ok _)
  (by intro c hc; simp only [exTwoUpdates, List.mem_cons, List.not_mem_nil, or_false] at hc; rcases hc with rfl | rfl <;> (intro x hx; simp at hx; subst hx; simp [exBoundA]))
  () exTwoSched (by intro ops hm; simp [exTwoSched] at hm) (by decide) 2 (fun _ => true)

/-- the ReIndex returns without error, and a scan of the index then finds the row under the value it has and not under the other -/
example :
    let db := ((exTable.world exDB () exTwoUpdates).run exTwoSched).db
    let r := exTable.reIndexBs 2 (fun _ => true) db exTable.indexes
    r.err = none ∧ exTable.scanIndex (stdEnv exTable) () (r.db db) none exIndex (.point (0, 5)) false 9 [] = some ⟨[(1, 5)], none⟩ ∧
    exTable.scanIndex (stdEnv exTable) () (r.db db) none exIndex (.point (0, 7)) false 9 [] = some ⟨[], none⟩ := by decide +kernel

/-- a step of Batches.lean, or batch `i` applied to batch `j`, written `(j, i)` (batch.go:114-132) -/
abbrev BatchAct (T : Type) := BatchStep T ⊕ (Nat × Nat)

/-- one step (table.go:338-789, table_unsafe.go:20-203, batch.go:83-163) -/
def Table.batchAct (t : Table T F) (rw : Nat → Bool) (w : BatchWorld T F) : BatchAct T → BatchWorld T F
  | .inl s => t.batchStep rw w s
  | .inr (j, i) => w.applyBatch j i

/-- the step is any call that may store rows of `A` only, a write elsewhere, a commit, a drop or an Apply -/
def Spec.ActOf (t : Table T F) (A : T → Prop) : BatchAct T → Prop
  | .inl (.call _ env c) => env.OK t ∧ CallOf t A c
  | .inl (.direct env c) => env.OK t ∧ CallOf t A c
  | .inl (.put _ ops) => ∀ o ∈ ops, ∀ k, o.touches k → Outside t k
  | .inl (.others ops) => ∀ o ∈ ops, ∀ k, o.touches k → Outside t k
  | .inl (.commit _ _) => True
  | .inl (.drop _) => True
  | .inr _ => True

/-- database and open batches hold only what comes from `A` (proof notion) -/
structure BatchesOf (t : Table T F) (A : T → Prop) (w : BatchWorld T F) : Prop where
  db : DbOf t A w.db
  bats : ∀ j, ∀ o ∈ (w.bats j).ops, OpOut t A o

theorem BatchesOf.setBat {t : Table T F} {A : T → Prop} {w : BatchWorld T F} (h : BatchesOf t A w) (j : Nat) {b : OpenBatch T}
    (hb : ∀ o ∈ b.ops, OpOut t A o) (i : Nat) : ∀ o ∈ (Bond.setBat w.bats j b i).ops, OpOut t A o := by
  unfold Bond.setBat
  split
  · exact hb
  · exact h.bats i

theorem BatchesOf.act {t : Table T F} (wf : t.WF) (rt : t.RoundTrip) {A : T → Prop} {rw : Nat → Bool} {w : BatchWorld T F} (h : BatchesOf t A w)
    {a : BatchAct T} (ha : ActOf t A a) : BatchesOf t A (t.batchAct rw w a) := by
  have hnew : ∀ o ∈ (OpenBatch.new : OpenBatch T).ops, OpOut t A o := by simp [OpenBatch.new]
  rcases a with (_ | _ | _ | _ | _ | _) | ⟨j, i⟩
  · rename_i j env c
    refine ⟨h.db, h.setBat j ?_⟩
    intro o ho
    simp only [WOut.batchOps, Table.run_eq] at ho
    split at ho
    · rename_i b hb
      split at hb
      · simp only [Option.some.injEq] at hb; subst hb; exact h.bats j o ho
      · simp only [finish, Option.some.injEq] at hb
        subst hb
        rcases List.mem_append.1 ho with ho | ho
        · exact h.bats j o ho
        · exact Or.inl (body_of wf rt ha.1 ha.2 h.db (by rintro b hb; cases hb; exact h.bats j) w.filt o ho)
    · simp at ho
  · rename_i j ops
    refine ⟨h.db, h.setBat j ?_⟩
    intro o ho
    rcases List.mem_append.1 ho with ho | ho
    · exact h.bats j o ho
    · exact Or.inr (ha o ho)
  · rename_i env c
    refine ⟨?_, h.bats⟩
    have hbody := body_of wf rt ha.1 ha.2 h.db (ob := none) (by simp) w.filt
    simp only [Table.batchAct, Table.batchStep, Table.run_eq]
    split
    · exact h.db
    · unfold finish
      simp only
      split
      · exact h.db
      · split
        · exact h.db
        · split
          · exact h.db.apply wf _ hbody
          · exact h.db
  · exact ⟨h.db.others ha, h.bats⟩
  · rename_i j ok
    refine ⟨?_, h.setBat j hnew⟩
    simp only [Table.batchAct, Table.batchStep, Batch.commit]
    split
    · exact h.db
    · split
      · exact h.db.applyOut wf _ (h.bats j)
      · exact h.db
  · rename_i j
    exact ⟨h.db, h.setBat j hnew⟩
  · refine ⟨h.db, h.setBat j ?_⟩
    intro o ho
    rcases List.mem_append.1 ho with ho | ho
    · exact h.bats j o ho
    · exact h.bats i o ho

theorem BatchesOf.run {t : Table T F} (wf : t.WF) (rt : t.RoundTrip) {A : T → Prop} {rw : Nat → Bool} (l : List (BatchAct T)) :
    ∀ {w : BatchWorld T F}, BatchesOf t A w → (∀ a ∈ l, ActOf t A a) → BatchesOf t A (l.foldl (t.batchAct rw) w) := by
  induction l with
  | nil => intro w h _; exact h
  | cons a l ih => intro w h ha; exact ih (h.act wf rt (ha a (by simp))) (fun a' h' => ha a' (by simp [h']))

/-- C117 (batches): any number of batches of either kind, any calls on them and any direct calls, failing or not, on the same rows or not, in any
order; batches are applied to others, dropped, and committed with or without success; others write elsewhere. `A` are rows that include those
stored and those given to the calls to be stored. At any moment every key holds a record of `A` with that key or nothing, nothing else is in the
table, and every index entry is the entry of a record of `A`. -/
theorem C117_batches {t : Table T F} (wf : t.WF) (rt : t.RoundTrip) {A : T → Prop} (rw : Nat → Bool) {db : KV} {m : Rows T} (hH : Holds t db m)
    (hm : ∀ pk x, m pk = some x → A x) (f : F) (l : List (BatchAct T)) (hl : ∀ a ∈ l, ActOf t A a) :
    let w := l.foldl (t.batchAct rw) (BatchWorld.start db f)
    ∃ m', Holds { t with indexes := [] } w.db m' ∧ (∀ pk x, m' pk = some x → A x) ∧
      ∀ idx ∈ t.indexes, ∀ k v, InSpace t.id idx.id k → w.db.get k = some v → v = [] ∧ ∃ x, A x ∧ idx.filter x = true ∧ k = t.indexKey idx x := by
  have h : BatchesOf t A (l.foldl (t.batchAct rw) (BatchWorld.start db f)) :=
    BatchesOf.run wf rt l (w := BatchWorld.start db f) ⟨DbOf.of_holds hH hm, by simp [BatchWorld.start, OpenBatch.new]⟩ hl
  obtain ⟨m', h1, h2⟩ := h.db.data
  exact ⟨m', h1, h2, h.db.index⟩

/-- C117 (repair): after any such steps, a ReIndex of all indexes that returns without error makes the indexes agree with the rows the steps left. -/
theorem C117_repair {t : Table T F} (wf : t.WF) (rt : t.RoundTrip) {A : T → Prop} (rw : Nat → Bool) {db : KV} {m : Rows T} (hH : Holds t db m)
    (hm : ∀ pk x, m pk = some x → A x) (f : F) (l : List (BatchAct T)) (hl : ∀ a ∈ l, ActOf t A a) (h255 : ∀ idx ∈ t.indexes, idx.id ≠ 0xFF) (size : Nat)
    (commitOk : Nat → Bool) :
    let w := l.foldl (t.batchAct rw) (BatchWorld.start db f)
    (t.reIndexBs size commitOk w.db t.indexes).err = none →
    ∃ m', Holds { t with indexes := [] } w.db m' ∧ (∀ pk x, m' pk = some x → A x) ∧ Holds t ((t.reIndexBs size commitOk w.db t.indexes).db w.db) m' := by
  intro w herr
  obtain ⟨m', h1, h2, _⟩ := C117_batches wf rt rw hH hm f l hl
  refine ⟨m', h1, h2, C36_partial size wf (fun x b hb => rt x b hb _) commitOk (fun _ h => h) h255 (holds_data (l := []) h1 ?_) herr⟩
  intro i hi
  simp only [List.mem_filter, Bool.not_eq_true', List.contains_eq_mem, decide_eq_false_iff_not] at hi
  exact absurd (List.mem_map_of_mem hi.1) hi.2

/-- two batches that change row 1 differently, an Upsert with row 1 twice that keeps the first, an Insert that fails, and a batch applied to the other -/
def exMixedActs : List (BatchAct Rec) :=
  [.inl (.call 0 (stdEnv exTable) (.update [(1, 7)])), .inl (.call 1 (stdEnv exTable) (.update [(1, 8)])),
   .inl (.call 1 (stdEnv exTable) (.insert [(2, 9)])), .inl (.direct (stdEnv exTable) (.upsert (fun o _ => (o, o)) [(1, 5), (1, 8)])),
   .inr (0, 1), .inl (.commit 0 true)]

/-- the rows stored in `exDB` and those given to these calls -/
def exMixedA (x : Rec) : Prop := x ∈ [(1, 5), (2, 6), (1, 7), (1, 8), (2, 9)]

theorem exMixed_of : ∀ a ∈ exMixedActs, ActOf exTable exMixedA a := by
  intro a ha
  simp only [exMixedActs, List.mem_cons, List.not_mem_nil, or_false] at ha
  rcases ha with rfl | rfl | rfl | rfl | rfl | rfl
  · exact ⟨stdEnv_ok _, by intro x hx; simp at hx; subst hx; simp [exMixedA]⟩
  · exact ⟨stdEnv_ok _, by intro x hx; simp at hx; subst hx; simp [exMixedA]⟩
  · exact ⟨stdEnv_ok _, by intro x hx; simp at hx; subst hx; simp [exMixedA]⟩
  · exact ⟨stdEnv_ok _, by intro x hx; simp at hx; rcases hx with rfl | rfl <;> simp [exMixedA], Or.inr (fun x y hx _ => ⟨hx, rfl⟩)⟩
  · trivial
  · trivial

theorem exMixedA_start : ∀ pk x, Rows.putAll (fun _ => none) exTable.pk [(1, 5), (2, 6)] pk = some x → exMixedA x := by
  intro pk x h
  have := exBoundA_start pk x h
  simp only [exBoundA, exMixedA, List.mem_cons, List.not_mem_nil, or_false] at this ⊢
  rcases this with h | h | h <;> simp [h]

/-- `C117_repair` at these steps -/
example := C117_repair exTable_wf exTable_rt (fun _ => true) exDB_holds exMixedA_start () exMixedActs exMixed_of (by decide) 2 (fun _ => true)

/-- the index has two entries for row 1 then, and one after ReIndex -/
example :
    let w := exMixedActs.foldl (exTable.batchAct (fun _ => true)) (BatchWorld.start exDB ())
    let r := exTable.reIndexBs 2 (fun _ => true) w.db exTable.indexes
    w.db.get (exTable.key (1, 0)) = some [1, 8] ∧ w.db.get (exTable.indexKey exIndex (1, 7)) = some [] ∧ w.db.get (exTable.indexKey exIndex (1, 8)) = some [] ∧
    r.err = none ∧ (r.db w.db).get (exTable.indexKey exIndex (1, 7)) = none ∧ (r.db w.db).get (exTable.indexKey exIndex (1, 8)) = some [] := by decide +kernel

end Bond
