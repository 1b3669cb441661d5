import Verif.Props.Bounded
import Verif.Props.Faults
/-
C81: what write calls leave behind when reads of the storage fail, and how ReIndex repairs it.
-/
namespace Bond
open Spec
variable {T F : Type}

/-- one write call, `bad n`: the `n`-th seek of the call fails (table.go:338-789, table_unsafe.go:20-203; Delete and the unsafe calls read nothing) -/
def Table.runF (t : Table T F) (env : Env T) (bad : Nat → Bool) (db : KV) (f : F) (ob : Option Batch) : WCall T → WOut F
  | .insert trs => t.insertBsF persistentBatchSize env bad db f ob trs
  | .update trs => t.updateBsF persistentBatchSize env bad db f ob trs
  | .upsert oc trs => t.upsertBsF persistentBatchSize env bad db f ob oc trs
  | .delete trs => t.delete env db f ob trs
  | .unsafeInsert trs => t.unsafeInsert env db f ob trs
  | .unsafeUpdate trs olds => t.unsafeUpdate env db f ob trs olds

theorem insertLoopF_of {t : Table T F} {A : T → Prop} {env : Env T} (ok : env.OK t) (bad : Nat → Bool) {c : List T} (hc : ∀ x ∈ c, A x)
    (entries : List (Bytes × Bytes)) (items : List (Bytes × Nat)) : ∀ (prev : Option Bytes) (s : WSt T F), ItemsOf t c items → (∀ o ∈ s.ops, OpOf t A o) →
      ∀ o ∈ (t.insertLoopF env bad entries c prev items s).1.ops, OpOf t A o := by
  induction items with
  | nil => intro prev s _ ho; exact ho
  | cons e items ih =>
    intro prev s hi ho
    obtain ⟨x, hxc, hcx, hkx⟩ := hi e (by simp)
    obtain ⟨ek, ej⟩ := e
    simp only at hcx hkx
    simp only [Table.insertLoopF, hcx]
    generalize (if bad s.clock then [] else entries) = seen
    split
    · exact ho
    · split
      · exact ho
      · cases hb : t.ser x with
        | none => exact ho
        | some b =>
          refine ih _ _ (fun e he => hi e (by simp [he])) ?_
          simp only; rw [hkx]; exact opOf_insert ho (hc x hxc) hb (ok.order _)

theorem updateLoopF_of {t : Table T F} {A : T → Prop} {env : Env T} (ok : env.OK t) (bad : Nat → Bool) {c : List T} (hc : ∀ x ∈ c, A x)
    (entries : List (Bytes × Bytes)) (items : List (Bytes × Nat)) : ∀ (s : WSt T F), ItemsOf t c items → (∀ o ∈ s.ops, OpOf t A o) →
      ∀ o ∈ (t.updateLoopF env bad entries c items s).1.ops, OpOf t A o := by
  induction items with
  | nil => intro s _ ho; exact ho
  | cons e items ih =>
    intro s hi ho
    obtain ⟨x, hxc, hcx, hkx⟩ := hi e (by simp)
    have hi' : ItemsOf t c items := fun e he => hi e (by simp [he])
    obtain ⟨ek, ej⟩ := e
    simp only at hcx hkx
    simp only [Table.updateLoopF]
    split
    · exact ho
    · split
      · exact ih { s with clock := s.clock + 1 } hi' ho
      · cases hv : seekExact (if bad s.clock then [] else entries) ek with
        | none => exact ho
        | some v =>
          simp only
          cases hd : t.deser s.oldTr v with
          | none => exact ho
          | some y =>
            simp only [hcx]
            cases hb : t.ser x with
            | none => exact ho
            | some b => exact ih _ hi' (by simp only; rw [hkx]; exact opOf_update ho y (hc x hxc) hb (ok.order _))

theorem upsertLoopF_of {t : Table T F} (rt : t.RoundTrip) {A : T → Prop} {env : Env T} (ok : env.OK t) (bad : Nat → Bool) {c : List T} (hc : ∀ x ∈ c, A x)
    {oc : Table.OnConflict T} {entries : List (Bytes × Bytes)} (he : EntriesOf t A entries) (fuel : Nat) :
    ∀ (i : Nat) (items : List (Bytes × Nat)) (s : WSt T F), ItemsOf t c items → OcOf t A oc items → (∀ o ∈ s.ops, OpOf t A o) →
      ∀ o ∈ (t.upsertLoopF env bad oc entries c fuel i items s).1.ops, OpOf t A o := by
  induction fuel with
  | zero => intro i items s _ _ ho; exact ho
  | succ fuel ih =>
    intro i items s hi hoc ho
    cases items with
    | nil => exact ho
    | cons e items =>
      obtain ⟨x, hxc, hcx, hkx⟩ := hi e (by simp)
      obtain ⟨ek, ej⟩ := e
      simp only at hcx hkx
      have hA := hc x hxc
      simp only [Table.upsertLoopF, hcx]
      split
      · exact ho
      · cases hf : t.existIter s.filt (if bad s.clock then [] else entries) ek with
        | none =>
          simp only
          cases hd : Table.upsertDup oc c ek items i x s.oldTr with
          | none => exact ho
          | some r =>
            obtain ⟨h1, h2⟩ := upsertDup_of hc items i ej x s.oldTr r hoc hA hd
            obtain ⟨hr1, _⟩ := upsertDup_rest items i x s.oldTr r hd
            obtain ⟨rest, i', tr', old'⟩ := r
            simp only at h1 h2 hr1 ⊢
            have hk : ek = t.key tr' := by rw [hkx]; show dataKey t.id _ = dataKey t.id _; rw [h2]
            have hsub : rest.Sublist items := by rw [hr1]; exact List.dropWhile_sublist _
            cases hb : t.ser tr' with
            | none => exact ho
            | some b =>
              refine ih _ _ _ (fun e he => hi e (by simp [hsub.subset he])) (hoc.sub (hsub.trans (List.sublist_cons_self _ _))) ?_
              simp only; rw [hk]; exact opOf_insert ho h1 hb (ok.order _)
        | some v =>
          have hm := existIter_mem hf
          split at hm
          · simp at hm
          rw [hkx] at hm
          obtain ⟨y, hy, hpy, hsy⟩ := he (t.pk x) v hm
          obtain ⟨g1, g2⟩ := hoc.same hy hA hpy
          simp only [rt y v hsy, Option.map_some]
          cases hd : Table.upsertDup oc c ek items i (oc y x).1 (oc y x).2 with
          | none => exact ho
          | some r =>
            obtain ⟨h1, h2⟩ := upsertDup_of hc items i ej _ _ r hoc g1 hd
            obtain ⟨hr1, _⟩ := upsertDup_rest items i _ _ r hd
            obtain ⟨rest, i', tr', old'⟩ := r
            simp only at h1 h2 hr1 ⊢
            have hk : ek = t.key tr' := by rw [hkx]; show dataKey t.id _ = dataKey t.id _; rw [h2, g2, hpy]
            have hsub : rest.Sublist items := by rw [hr1]; exact List.dropWhile_sublist _
            cases hb : t.ser tr' with
            | none => exact ho
            | some b =>
              refine ih _ _ _ (fun e he => hi e (by simp [hsub.subset he])) (hoc.sub (hsub.trans (List.sublist_cons_self _ _))) ?_
              simp only; rw [hk]; exact opOf_update ho _ h1 hb (ok.order _)

theorem DbOf.finish {t : Table T F} (wf : t.WF) {A : T → Prop} {db : KV} (h : DbOf t A db) {env : Env T} {r : WSt T F × Option Err}
    (hr : ∀ o ∈ r.1.ops, OpOf t A o) : DbOf t A (finish env db none r).db := by
  unfold Bond.finish
  simp only
  split
  · exact h
  · split
    · exact h
    · split
      · exact h.apply wf _ hr
      · exact h

theorem DbOf.runF {t : Table T F} (wf : t.WF) (rt : t.RoundTrip) {A : T → Prop} {env : Env T} (ok : env.OK t) (bad : Nat → Bool) {c : WCall T} (hc : CallOf t A c)
    {db : KV} (hd : DbOf t A db) (f : F) : DbOf t A (t.runF env bad db f none c).db := by
  have h0 : ∀ o ∈ (t.start f).ops, OpOf t A o := by simp [Table.start]
  cases c with
  | insert trs =>
    exact hd.finish wf (forChunks_of _ (fun c hcm s ho => insertLoopF_of ok bad (fun x hx => hc x (mem_of_batched trs c hcm x hx)) _ _ _ _ (itemsOf_sort ok c) ho) _ h0)
  | update trs =>
    exact hd.finish wf (forChunks_of _ (fun c hcm s ho => updateLoopF_of ok bad (fun x hx => hc x (mem_of_batched trs c hcm x hx)) _ _ _ (itemsOf_sort ok c) ho) _ h0)
  | upsert oc trs =>
    exact hd.finish wf (forChunks_of _ (fun c hcm s ho => upsertLoopF_of rt ok bad (fun x hx => hc.1 x (mem_of_batched trs c hcm x hx))
      (fun pk v hm => hd.rows pk v ((KV.mem_scan _ _ _ _ _).1 hm).1) _ _ _ _ (itemsOf_sort ok c) (ocOf_sort ok hc hcm) ho) _ h0)
  | delete trs => exact hd.finish wf (deleteLoop_of trs _ h0)
  | unsafeInsert trs =>
    exact hd.finish wf (forChunks_of _ (fun c hcm s ho => unsafeInsertLoop_of ok c s (fun x hx => hc x (mem_of_batched trs c hcm x hx)) ho) _ h0)
  | unsafeUpdate trs olds =>
    simp only [Table.runF, Table.unsafeUpdate]
    split
    · exact hd
    · exact hd.finish wf (unsafeUpdateLoop_of ok _ _ (fun p hp => hc p.1 (List.of_mem_zip hp).1) h0)

/-- the calls one after the other, without batch (table.go:338-789, table_unsafe.go:20-203) -/
def Table.runAllF (t : Table T F) (s : KV × F) (cs : List (Env T × (Nat → Bool) × WCall T)) : KV × F :=
  cs.foldl (fun s c => let o := t.runF c.1 c.2.1 s.1 s.2 none c.2.2; (o.db, o.filt)) s

/-- C81 (the damage is bounded): after any write calls of which any reads failed, every key holds a record that was stored before or given, with
that key, or nothing, and every index entry is that of such a record (`A` are these records); a ReIndex of all indexes without failed reads that
returns without error makes the indexes agree with the rows again. Index numbers other than 255. -/
theorem C81_repair {t : Table T F} (wf : t.WF) (rt : t.RoundTrip) {A : T → Prop} {db : KV} {m : Rows T} (hH : Holds t db m)
    (hm : ∀ pk x, m pk = some x → A x) (f : F) (cs : List (Env T × (Nat → Bool) × WCall T)) (hok : ∀ c ∈ cs, c.1.OK t) (hc : ∀ c ∈ cs, CallOf t A c.2.2)
    (h255 : ∀ idx ∈ t.indexes, idx.id ≠ 0xFF) (size : Nat) (commitOk : Nat → Bool) :
    let db' := (t.runAllF (db, f) cs).1
    ∃ m', Holds { t with indexes := [] } db' m' ∧ (∀ pk x, m' pk = some x → A x) ∧
      (∀ idx ∈ t.indexes, ∀ k v, InSpace t.id idx.id k → db'.get k = some v → v = [] ∧ ∃ x, A x ∧ idx.filter x = true ∧ k = t.indexKey idx x) ∧
      ((t.reIndexBs size commitOk db' t.indexes).err = none → Holds t ((t.reIndexBs size commitOk db' t.indexes).db db') m') := by
  have h : ∀ (cs : List (Env T × (Nat → Bool) × WCall T)) (s : KV × F), DbOf t A s.1 → (∀ c ∈ cs, c.1.OK t) → (∀ c ∈ cs, CallOf t A c.2.2) →
      DbOf t A (t.runAllF s cs).1 := by
    intro cs
    induction cs with
    | nil => intro s hs _ _; exact hs
    | cons c cs ih =>
      intro s hs h1 h2
      exact ih _ (DbOf.runF wf rt (h1 c (by simp)) c.2.1 (h2 c (by simp)) hs s.2) (fun c hc => h1 c (by simp [hc])) (fun c hc => h2 c (by simp [hc]))
  have hd := h cs (db, f) (DbOf.of_holds hH hm) hok hc
  obtain ⟨m', h1, h2⟩ := hd.data
  refine ⟨m', h1, h2, hd.index, fun herr => C36_partial size wf (fun x b hb => rt x b hb _) commitOk (fun _ h => h) h255 (holds_data (l := []) h1 ?_) herr⟩
  intro i hi
  simp only [List.mem_filter, Bool.not_eq_true', List.contains_eq_mem, decide_eq_false_iff_not] at hi
  exact absurd (List.mem_map_of_mem hi.1) hi.2

/-- the Insert of `C81_refuted_insert`, which overwrites a row because its read failed -/
example := C81_repair exTable_wf exTable_rt exDB_holds exBoundA_start () [(stdEnv exTable, fun _ => true, .insert [(1, 7)])]
  (by intro c hc; simp at hc; subst hc; exact stdEnv_ok _) (by intro c hc; simp at hc; subst hc; intro x hx; simp at hx; subst hx; simp [exBoundA])
  (by decide) 2 (fun _ => true)

/-- it leaves two index entries for the row, ReIndex leaves one -/
example :
    let db := (exTable.runAllF (exDB, ()) [(stdEnv exTable, fun _ => true, .insert [(1, 7)])]).1
    let r := exTable.reIndexBs 2 (fun _ => true) db exTable.indexes
    db.get (exTable.key (1, 0)) = some [1, 7] ∧ db.get (exTable.indexKey exIndex (1, 5)) = some [] ∧ db.get (exTable.indexKey exIndex (1, 7)) = some [] ∧
    r.err = none ∧ (r.db db).get (exTable.indexKey exIndex (1, 5)) = none ∧ (r.db db).get (exTable.indexKey exIndex (1, 7)) = some [] := by decide +kernel

end Bond
