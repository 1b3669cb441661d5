import Verif.WorldLemmas
/-
C51, C52: write calls running at the same time.
-/
namespace Bond
open Spec
variable {T F : Type}

/-- the writes that somebody else does during a schedule are outside the table -/
def OthersOutside (t : Table T F) (sched : List (Nat ⊕ List WOp)) : Prop :=
  ∀ ops, .inr ops ∈ sched → ∀ o ∈ ops, ∀ k, o.touches k → Outside t k

/-- C51 (any schedule, any number of calls with pairwise different keys, any arguments, failing or not): at any moment the
database is the one obtained by running the calls that have returned one after the other, each alone, in the order in which
they returned; every call that has returned has returned what it returns in that sequence; and every such call occurs once
in it. -/
theorem C51_sequential {t : Table T F} (wf : t.WF) (fs : t.FilterSound) {db : KV} {f : F} (hc : CovKV t f db)
    {cs : List (Env T × WCall T)} (hok : ∀ c ∈ cs, c.1.OK t) (hd : DisjointKeys t cs) (sched : List (Nat ⊕ List WOp))
    (hx : OthersOutside t sched) :
    let w := (t.world db f cs).run sched
    let s := inOrder t cs db f w.log
    w.db = s.db ∧ (s.res.map Prod.fst).Nodup ∧
    ∀ i r, (∃ th, w.threads[i]? = some th ∧ th.res = some r) ↔ (i, r) ∈ s.res := by
  obtain ⟨s, h⟩ := (Lin.start wf fs hok hc).runs wf fs hok hd sched hx
  simp only
  rw [← h.seq]
  refine ⟨h.db, h.once, fun i r => ⟨?_, fun hm => ?_⟩⟩
  · rintro ⟨th, hi, hr⟩
    have hlt : i < ((t.world db f cs).run sched).threads.length := by
      by_cases hlt : i < ((t.world db f cs).run sched).threads.length
      · exact hlt
      · rw [List.getElem?_eq_none (by omega)] at hi; simp at hi
    exact (h.run i th (cs[i]'(h.len ▸ hlt)) hi (List.getElem?_eq_getElem _)).2.2 r hr
  · have hlt := h.bound _ hm
    simp only at hlt
    have hlt' : i < ((t.world db f cs).run sched).threads.length := by rw [h.len]; exact hlt
    have hth := List.getElem?_eq_getElem hlt'
    obtain ⟨_, h1, h2⟩ := h.run i _ _ hth (List.getElem?_eq_getElem hlt)
    refine ⟨_, hth, ?_⟩
    cases hr : (((t.world db f cs).run sched).threads[i]'hlt').res with
    | none => exact absurd hm ((h1 hr).1 r)
    | some r' =>
      have hm' := h2 r' hr
      have : r = r' := by
        have hp := h.once
        rw [List.nodup_iff_pairwise_ne, List.pairwise_map] at hp
        apply Classical.byContradiction
        intro hne
        have hpne : (i, r) ≠ (i, r') := fun e => hne (by simpa using e)
        obtain ⟨a, ha⟩ := List.getElem_of_mem hm
        obtain ⟨b, hb⟩ := List.getElem_of_mem hm'
        rw [List.pairwise_iff_getElem] at hp
        obtain ⟨ha1, ha2⟩ := ha
        obtain ⟨hb1, hb2⟩ := hb
        rcases Nat.lt_trichotomy a b with hab | hab | hab
        · exact hp a b ha1 hb1 hab (by rw [ha2, hb2])
        · subst hab; rw [ha2] at hb2; exact hpne hb2
        · exact hp b a hb1 ha1 hab (by rw [ha2, hb2])
      rw [this]

/-- C51 (indexes): if moreover the table was consistent and every call is within the documented use, then at any moment the
database stores exactly the rows produced by the calls that have succeeded, and every index agrees with them. -/
theorem C51_indexes {t : Table T F} (wf : t.WF) (rt : t.RoundTrip) (fs : t.FilterSound) {db : KV} {f : F} {m : Rows T}
    (hH : Holds t db m) (hF : FilterCovers t f m) {cs : List (Env T × WCall T)} (hok : ∀ c ∈ cs, c.1.OK t) (hd : DisjointKeys t cs)
    (hgood : ∀ c ∈ cs, GoodRun t c.1 db c.2) (sched : List (Nat ⊕ List WOp)) (hx : OthersOutside t sched) :
    let w := (t.world db f cs).run sched
    Holds t w.db (contentOf t.pk cs m (inOrder t cs db f w.log).res) := by
  obtain ⟨s, h, hs⟩ := (Lin.start wf fs hok (covKV_of_holds hH hF)).runs_holds wf rt fs hok hd hgood (m := m) sched hH hF hx
  simp only
  rw [← h.seq, h.db]
  exact hs

/-- C51 (calls return): a call returns after as many turns as it has actions, whatever the others do. -/
theorem C51_returns (t : Table T F) (db : KV) (f : F) (cs : List (Env T × WCall T)) (sched : List (Nat ⊕ List WOp)) {i : Nat}
    {c : Env T × WCall T} (hi : cs[i]? = some c) (hn : (t.acts c.1 c.2).length < sched.countP (fun x => x = .inl i)) :
    ∃ th r, ((t.world db f cs).run sched).threads[i]? = some th ∧ th.res = some r := by
  obtain ⟨th, h1, h2⟩ := run_left i sched (t.world db f cs) (th := t.spawn c) (by simp [Table.world, hi])
  have : th.left = 0 := by
    simp only [Table.spawn, Thread.left] at h2
    simp only [Thread.left]
    omega
  cases hr : th.res with
  | none => simp [Thread.left, hr] at this
  | some r => exact ⟨th, r, h1, hr⟩

/-- Three calls with different keys: an insert, an update that changes an index entry, and an insert of a stored key. -/
def exCalls : List (Env Rec × WCall Rec) :=
  [(stdEnv exTable, .insert [(3, 6), (4, 6)]), (stdEnv exTable, .update [(1, 7)]), (stdEnv exTable, .insert [(2, 9)])]

/-- a schedule that interleaves them -/
def exSched : List (Nat ⊕ List WOp) :=
  [.inl 0, .inl 1, .inl 2, .inl 0, .inr [.set [9] [9]], .inl 1, .inl 1, .inl 2, .inl 0, .inl 0, .inl 0]

theorem exCalls_disjoint : DisjointKeys exTable exCalls := by
  intro i j c d hij hi hj
  have hi' : i < 3 := by
    by_cases h : i < 3
    · exact h
    · rw [List.getElem?_eq_none (by simp [exCalls]; omega)] at hi; simp at hi
  have hj' : j < 3 := by
    by_cases h : j < 3
    · exact h
    · rw [List.getElem?_eq_none (by simp [exCalls]; omega)] at hj; simp at hj
  have hk : ∀ i j : Fin 3, i ≠ j → ∀ k ∈ (exCalls[i]'(by simp [exCalls])).2.keys exTable,
      k ∉ (exCalls[j]'(by simp [exCalls])).2.keys exTable := by decide
  have := hk ⟨i, hi'⟩ ⟨j, hj'⟩ (by simpa using hij)
  rw [List.getElem?_eq_getElem (show i < exCalls.length by simp [exCalls]; omega)] at hi
  rw [List.getElem?_eq_getElem (show j < exCalls.length by simp [exCalls]; omega)] at hj
  simp only [Option.some.injEq] at hi hj
  subst hi hj
  exact this

/-- the hypotheses of C51 hold for these calls and this schedule, the first two succeed and the third fails -/
example : DisjointKeys exTable exCalls ∧ (∀ c ∈ exCalls, c.1.OK exTable) ∧ (∀ c ∈ exCalls, GoodRun exTable c.1 exDB c.2) ∧
    CovKV exTable () exDB ∧ ((exTable.world exDB () exCalls).run exSched).threads.map Thread.res =
      [some none, some none, some (some .alreadyExist)] ∧
    ((exTable.world exDB () exCalls).run exSched).log = [.inr [.set [9] [9]], .inl 1, .inl 2, .inl 0] := by
  refine ⟨exCalls_disjoint, ?_, ?_, ?_, by decide, by decide⟩
  · intro c hc
    simp only [exCalls, List.mem_cons, List.not_mem_nil, or_false] at hc
    rcases hc with rfl | rfl | rfl <;> exact stdEnv_ok _
  · intro c hc
    simp only [exCalls, List.mem_cons, List.not_mem_nil, or_false] at hc
    rcases hc with rfl | rfl | rfl
    · exact ⟨Or.inl (by decide), by intro trs h; simp at h⟩
    · exact ⟨Or.inl (by decide), fun trs _ => Or.inr (stdEnv_stable _)⟩
    · exact ⟨Or.inl (by decide), by intro trs h; simp at h⟩
  · intro fl h; simp [exTable] at h

/-- two Inserts of the same key -/
def exSameKey : List (Env Rec × WCall Rec) := [(stdEnv exTable, .insert [(9, 5)]), (stdEnv exTable, .insert [(9, 6)])]

/-- both look before either commits -/
def exSameKeySched : List (Nat ⊕ List WOp) := [.inl 0, .inl 0, .inl 1, .inl 1, .inl 0, .inl 1]

/-- C52 is false: two Inserts of the same key that was not stored can both succeed; the row of one of them is lost, and
its index entry stays, pointing to the other row. -/
theorem C52_refuted :
    ((exTable.world exDB () exSameKey).run exSameKeySched).threads.map Thread.res = [some none, some none] ∧
    ((exTable.world exDB () exSameKey).run exSameKeySched).db.get (exTable.key (9, 5)) = some [9, 6] ∧
    ((exTable.world exDB () exSameKey).run exSameKeySched).db.get (exTable.indexKey exIndex (9, 5)) = some [] ∧
    ((exTable.world exDB () exSameKey).run exSameKeySched).db.get (exTable.indexKey exIndex (9, 6)) = some [] := by
  decide

/-- C52 and C14 together are false: after these two Inserts no row content agrees with the index. -/
theorem C52_refuted_index : Holds exTable exDB (Rows.putAll (fun _ => none) exTable.pk [(1, 5), (2, 6)]) ∧ (∀ c ∈ exSameKey, GoodRun exTable c.1 exDB c.2) ∧
    ¬ ∃ m, Holds exTable ((exTable.world exDB () exSameKey).run exSameKeySched).db m := by
  refine ⟨exDB_holds, ?_, ?_⟩
  · intro c hc
    simp only [exSameKey, List.mem_cons, List.not_mem_nil, or_false] at hc
    rcases hc with rfl | rfl <;> exact ⟨Or.inl (by decide), by intro trs h; simp at h⟩
  rintro ⟨m, h⟩
  obtain ⟨_, h2, h3, _⟩ := C52_refuted
  obtain ⟨_, pk, x, hm, _, hk⟩ := (h.index exIndex (by simp [exTable]) _ _ (inSpace_indexKey exTable exIndex (9, 5))).1 h3
  have hpk := exTable_wf.indexKey_pk (by simp [exTable]) hk
  have hx := h.row_pk _ _ hm
  rw [← hpk] at hx
  subst hx
  obtain ⟨b, hb, hg⟩ := h.present _ _ hm
  have h2' : ((exTable.world exDB () exSameKey).run exSameKeySched).db.get (dataKey exTable.id (exTable.pk (9, 5))) = some [9, 6] := h2
  rw [h2'] at hg
  simp only [exTable, Option.some.injEq] at hb hg
  rw [← hg] at hb
  simp only [List.cons.injEq, and_true] at hb
  obtain ⟨a, g⟩ := x
  simp only at hb
  obtain ⟨rfl, rfl⟩ := hb
  revert hk
  decide

/-- C52 (what holds): an Insert with a key that is stored when it begins does not succeed, whatever other calls do at the
same time, as long as none of them deletes that key. Missing: a key stored by a call that began before but commits after
the Insert has looked (`C52_refuted`). -/
theorem C52_partial {t : Table T F} (wf : t.WF) (fs : t.FilterSound) {db : KV} {f : F} (hc : CovKV t f db)
    {cs : List (Env T × WCall T)} (hok : ∀ c ∈ cs, c.1.OK t) {x : T} (hs : (db.get (t.key x)).isSome)
    (hdel : ∀ env trs, (env, WCall.delete trs) ∈ cs → ∀ y ∈ trs, t.pk y ≠ t.pk x) {i : Nat} {env : Env T} {trs : List T}
    (hi : cs[i]? = some (env, .insert trs)) (hx : x ∈ trs) (sched : List (Nat ⊕ List WOp)) (ho : OthersOutside t sched) :
    ∀ th, ((t.world db f cs).run sched).threads[i]? = some th → th.res ≠ some none := by
  have hdel' : ∀ c ∈ cs, c.2.dels = true → dataKey t.id (t.pk x) ∉ c.2.keys t := by
    rintro ⟨e, c⟩ hcm hd
    cases c with
    | delete trs =>
      intro hk
      obtain ⟨y, hy, hye⟩ := List.mem_map.1 hk
      exact hdel e trs hcm y hy (dataKey_inj hye).2
    | _ => simp [WCall.dels] at hd
  have h0 : Keeps t (dataKey t.id (t.pk x)) cs (t.world db f cs) := by
    refine ⟨hs, fun fl hfl => hc fl hfl _ hs, ?_, by simp [Table.world]⟩
    intro j th c hj hcj
    simp only [Table.world, List.getElem?_map, hcj, Option.map_some, Option.some.injEq] at hj
    subst hj
    exact ⟨acts_good wf fs (hok c (List.mem_of_getElem? hcj)) c.2, by intro e he; simp [Table.spawn, Table.loc0] at he, keyedOps_nil _ _⟩
  have ok := hok _ (List.mem_of_getElem? hi)
  have hgen : ∀ (sched : List (Nat ⊕ List WOp)) (w : World T F), OthersOutside t sched → Keeps t (dataKey t.id (t.pk x)) cs w →
      (∃ th, w.threads[i]? = some th ∧ ((th.res = none ∧ Pending t env (dataKey t.id (t.pk x)) th.acts th.loc) ∨
        ∃ e, th.res = some (some e))) →
      ∀ th, (w.run sched).threads[i]? = some th → th.res ≠ some none := by
    intro sched
    induction sched with
    | nil =>
      rintro w _ _ ⟨th, h1, h2⟩ th' h3
      have h3' : w.threads[i]? = some th' := h3
      rw [h1] at h3'
      simp only [Option.some.injEq] at h3'
      subst h3'
      rcases h2 with ⟨h2, _⟩ | ⟨e, h2⟩ <;> rw [h2] <;> simp
    | cons y sched ih =>
      rintro w ho hk ⟨th, h1, h2⟩
      exact ih (w.step y) (fun ops hm => ho ops (by simp [hm])) (hk.step hdel' y (fun ops e => ho ops (by simp [e])))
        (pending_step hk ok h1 h2 y)
  refine hgen sched _ ho h0 ⟨t.spawn (env, .insert trs), by simp [Table.world, hi], Or.inl ⟨rfl, ?_⟩⟩
  exact pending_start (List.mem_map.2 ⟨x, hx, rfl⟩)

/-- the third call of `exCalls` inserts a stored key -/
example : (exDB.get (exTable.key (2, 9))).isSome ∧ exCalls[2]? = some (stdEnv exTable, .insert [(2, 9)]) ∧
    (∀ env trs, (env, WCall.delete trs) ∈ exCalls → ∀ y ∈ trs, exTable.pk y ≠ exTable.pk (2, 9)) ∧
    OthersOutside exTable exSched := by
  refine ⟨by decide, rfl, ?_, ?_⟩
  · intro env trs h; simp [exCalls] at h
  · intro ops hm o ho k hk
    simp only [exSched, List.mem_cons, List.not_mem_nil, or_false, reduceCtorEq, false_or, Sum.inr.injEq] at hm
    subst hm
    simp only [List.mem_singleton] at ho
    subst ho
    simp only [WOp.touches] at hk
    subst hk
    refine ⟨?_, ?_⟩
    · rintro ⟨r, h⟩; simp [exTable] at h
    · intro idx hidx
      rintro ⟨r, h⟩; simp [exTable] at h

end Bond
