import Verif.ReIndexLive
import Verif.HistoryLemmas
import Verif.Props.ReIndex
/-
Property C76: ReIndex while other calls write the same table.
-/
namespace Bond
open Spec
variable {T F : Type}

/-! ## helper lemmas -/

theorem scan_congr {a b : KV} {lo hi : Bytes} (h : ∀ k, blt k hi = true → a.get k = b.get k) : a.scan lo hi = b.scan lo hi := by
  apply sortedKV_ext (KV.scan_sorted _ _ _) (KV.scan_sorted _ _ _)
  rintro ⟨k, v⟩
  rw [KV.mem_scan, KV.mem_scan]
  constructor
  · rintro ⟨hg, h1, h2⟩; exact ⟨(h k h2) ▸ hg, h1, h2⟩
  · rintro ⟨hg, h1, h2⟩; exact ⟨(h k h2).symm ▸ hg, h1, h2⟩

/-- A call sees only what is stored below the end of the rows: two databases that agree there give the same commits, the same
result and the same filter. -/
theorem run_sees_rows (t : Table T F) (env : Env T) {a b : KV} (f : F) (c : WCall T)
    (h : ∀ k, blt k t.dataKeySpaceEnd = true → a.get k = b.get k) :
    (t.run env a f none c).err = (t.run env b f none c).err ∧ (t.run env a f none c).filt = (t.run env b f none c).filt ∧
    (t.run env a f none c).commits = (t.run env b f none c).commits := by
  have hb : t.body env a none (t.start f) c = t.body env b none (t.start f) c := by
    have hi : t.insertChunk env a none = t.insertChunk env b none := by
      funext trs s; simp only [Table.insertChunk, readView, scan_congr h]
    have hu : t.updateChunk env a none = t.updateChunk env b none := by
      funext trs s; simp only [Table.updateChunk, readView, scan_congr h]
    have hp : ∀ oc, t.upsertChunk env a none oc = t.upsertChunk env b none oc := by
      intro oc; funext trs s; simp only [Table.upsertChunk, readView, scan_congr h]
    cases c <;> simp only [Table.body, hi, hu, hp]
  rw [Table.run_eq, Table.run_eq]
  by_cases hm : c.mismatch = true
  · rw [if_pos hm, if_pos hm]; exact ⟨rfl, rfl, rfl⟩
  · rw [if_neg hm, if_neg hm, hb]
    generalize t.body env b none (t.start f) c = r
    unfold finish
    cases hr : r.2 with
    | some e => exact ⟨rfl, rfl, rfl⟩
    | none =>
      simp only
      by_cases ho : r.1.ops = []
      · rw [if_pos ho, if_pos ho]; exact ⟨rfl, rfl, rfl⟩
      · rw [if_neg ho, if_neg ho]
        by_cases hc : env.commitOk = true
        · rw [if_pos hc, if_pos hc]; exact ⟨rfl, rfl, rfl⟩
        · rw [if_neg hc, if_neg hc]; exact ⟨rfl, rfl, rfl⟩

theorem run_db (t : Table T F) (env : Env T) (db : KV) (f : F) (c : WCall T) :
    (t.run env db f none c).db = db.apply (t.run env db f none c).commits.flatten := by
  have hf : ∀ (cs : List (List WOp)) (V : KV), cs.foldl KV.apply V = V.apply cs.flatten := by
    intro cs
    induction cs with
    | nil => intro V; rfl
    | cons c cs ih => intro V; rw [List.foldl_cons, ih, List.flatten_cons, KV.apply_append]
  have h := C13 t env db f c
  cases he : (t.run env db f none c).err with
  | none => rw [h.2.1 he, hf]
  | some e =>
    have := h.1 (by rw [he]; simp)
    rw [this.2, this.1]; rfl

/-- writes that touch a key leave a value that does not depend on what was stored before -/
theorem get_apply_touched (ops : List WOp) {k : Bytes} (h : ∃ o ∈ ops, o.touches k) (a b : KV) :
    (a.apply ops).get k = (b.apply ops).get k := by
  induction ops generalizing a b with
  | nil => simp at h
  | cons o ops ih =>
    rw [KV.apply_cons, KV.apply_cons]
    by_cases ho : o.touches k
    · apply get_apply_congr
      cases o with
      | set k' v => simp only [WOp.touches] at ho; subst ho; simp [KV.apply1, KV.get_set]
      | del k' => simp only [WOp.touches] at ho; subst ho; simp [KV.apply1, KV.get_del]
      | delRange lo hi =>
        simp only [WOp.touches] at ho
        simp only [KV.apply1]
        rw [KV.get_delRange, KV.get_delRange, if_pos ho, if_pos ho]
    · obtain ⟨o', ho', ht⟩ := h
      rcases List.mem_cons.1 ho' with rfl | ho'
      · exact absurd ht ho
      · exact ih ⟨o', ho', ht⟩ _ _

/-! ## C76: specification -/

/-- is ReIndex between the opening of its iterator and its return -/
def RePhase.inRows : RePhase T → Prop
  | .rows _ _ _ => True
  | _ => False

/-- a write call rather than a piece of ReIndex -/
def LiveEv.isCall : LiveEv T → Bool
  | .step _ => false
  | .call _ _ => true

/-- the rows after calls with the given results: a call that failed has no effect -/
def Spec.rowsAfter (pk : T → Bytes) (m : Rows T) (res : List (WCall T × Option Err)) : Rows T :=
  res.foldl (fun m r => if r.2 = none then effect pk m r.1 else m) m

/-- the call removes no entry of the indexes `idxs`: a row that has one keeps it (it may be changed otherwise) -/
def KeepsEntries (t : Table T F) (idxs : List (Index T)) (m : Rows T) (c : WCall T) : Prop :=
  ∀ idx ∈ idxs, ∀ pk x, m pk = some x → idx.filter x = true →
    ∃ y, effect t.pk m c pk = some y ∧ idx.filter y = true ∧ idx.key y = idx.key x ∧ idx.ord y = idx.ord x

/-- the calls that succeed are within the documented use -/
def CallsOK (size : Nat) (t : Table T F) (idxs : List (Index T)) : List (LiveEv T) → LiveSt T F → Prop
  | [], _ => True
  | .step ok :: es, s => CallsOK size t idxs es (t.live1 size idxs s (.step ok))
  | .call env c :: es, s =>
    env.OK t ∧ ((t.run env s.db s.filt none c).err = none → GoodRun t env s.db c) ∧
    CallsOK size t idxs es (t.live1 size idxs s (.call env c))

/-- the calls that succeed while ReIndex goes through the rows remove no entry of the indexes it rebuilds -/
def CallsKeep (size : Nat) (t : Table T F) (idxs : List (Index T)) (m : Rows T) : List (LiveEv T) → LiveSt T F → Prop
  | [], _ => True
  | .step ok :: es, s => CallsKeep size t idxs m es (t.live1 size idxs s (.step ok))
  | .call env c :: es, s =>
    ((t.run env s.db s.filt none c).err = none → s.phase.inRows → KeepsEntries t idxs (rowsAfter t.pk m s.res) c) ∧
    CallsKeep size t idxs m es (t.live1 size idxs s (.call env c))

/-! ## the simulation -/

/-- a key of one of the indexes that are rebuilt -/
def Listed (t : Table T F) (idxs : List (Index T)) (k : Bytes) : Prop := ∃ idx ∈ idxs, InSpace t.id idx.id k

/-- writes of ReIndex still to come after its snapshot -/
def pendingOps (t : Table T F) (idxs : List (Index T)) (left : List (Bytes × Bytes)) (ops : List WOp) : List WOp :=
  ops ++ left.flatMap (rowOps t idxs)

/-- how the database (first) and the one of the sequential run (second) are related while ReIndex is running; `P`: the calls remove
no entry of the indexes -/
def SimPhase (P : Prop) (t : Table T F) (idxs : List (Index T)) (db ideal : KV) : RePhase T → Prop
  | .del left => (∀ idx ∈ left, idx ∈ idxs) ∧
    ∀ idx ∈ idxs, idx.id ∉ left.map Index.id → ∀ k, InSpace t.id idx.id k → db.get k = none ∨ db.get k = ideal.get k
  | .rows left _ ops =>
    (P → ∀ k v, Listed t idxs k → db.get k = some v → ideal.get k = some v) ∧
    (∀ k v, Listed t idxs k → ideal.get k = some v → db.get k = some v ∨ .set k [] ∈ pendingOps t idxs left ops) ∧
    (∀ o ∈ pendingOps t idxs left ops, ∃ k, o = .set k [] ∧ Listed t idxs k ∧ ble t.dataKeySpaceEnd k = true ∧ (P → ideal.get k = some [])) ∧
    (∀ e ∈ left, (t.deser t.nil e.2).isSome)
  | .fin none => (P → ∀ k v, Listed t idxs k → db.get k = some v → ideal.get k = some v) ∧
    (∀ k v, Listed t idxs k → ideal.get k = some v → db.get k = some v)
  | .fin (some _) => True

/-- the invariant -/
structure Sim (P : Prop) (t : Table T F) (idxs : List (Index T)) (m : Rows T) (s q : LiveSt T F) : Prop where
  filt : s.filt = q.filt
  res : s.res = q.res
  fin : q.phase = .fin none
  holds : Holds t q.db (rowsAfter t.pk m q.res)
  cov : FilterCovers t q.filt (rowsAfter t.pk m q.res)
  out : ∀ k, ¬ Listed t idxs k → s.db.get k = q.db.get k
  high : ∀ k v, Listed t idxs k → s.db.get k = some v → ble t.dataKeySpaceEnd k = true
  phase : SimPhase P t idxs s.db q.db s.phase

theorem indexKey_high {t : Table T F} {idx : Index T} (h : idx.id ≠ 0) (x : T) : ble t.dataKeySpaceEnd (t.indexKey idx x) = true := by
  unfold Table.indexKey Table.dataKeySpaceEnd
  rw [encodeIndexKey_eq]
  simp only [List.append_assoc]
  generalize hb : idx.key x ++ (beBytes 4 (idx.ord x).length ++ (idx.ord x ++ t.pk x)) = r
  have hl := beBytes_length 4 (idx.key x).length
  generalize beBytes 4 (idx.key x).length = q at hl ⊢
  match q, hl with
  | [a, b, c, d], _ =>
    simp only [List.cons_append, List.nil_append]
    have h1 : (1 : UInt8) ≤ idx.id := by
      rw [UInt8.le_iff_toNat_le]
      have : idx.id.toNat ≠ 0 := fun e => h (UInt8.toNat_inj.1 (by simpa using e))
      simp; omega
    have h2 : ¬ idx.id < 1 := by rw [UInt8.lt_iff_toNat_lt]; rw [UInt8.le_iff_toNat_le] at h1; omega
    have h0 : ∀ u : UInt8, ¬ u < 0 := by intro u; rw [UInt8.lt_iff_toNat_lt]; simp
    have hr : blt r [] = false := by cases r <;> rfl
    simp [ble, blt, h2, h0, hr]

theorem Sim.ideal_high {t : Table T F} (wf : t.WF) {idxs : List (Index T)} (hsub : ∀ idx ∈ idxs, idx ∈ t.indexes) {db : KV} {m : Rows T}
    (h : Holds t db m) {k v : Bytes} (hl : Listed t idxs k) (hg : db.get k = some v) : ble t.dataKeySpaceEnd k = true ∧ v = [] := by
  obtain ⟨idx, hi, hs⟩ := hl
  obtain ⟨hv, _, x, _, _, rfl⟩ := (h.index idx (hsub idx hi) k v hs).1 hg
  exact ⟨indexKey_high (wf.nz idx (hsub idx hi)) x, hv⟩

theorem Sim.low {P : Prop} {t : Table T F} (wf : t.WF) {idxs : List (Index T)} (hsub : ∀ idx ∈ idxs, idx ∈ t.indexes) {m : Rows T}
    {s q : LiveSt T F} (h : Sim P t idxs m s q) (k : Bytes) (hk : blt k t.dataKeySpaceEnd = true) : s.db.get k = q.db.get k := by
  by_cases hl : Listed t idxs k
  · have hne : ∀ (V : KV), (∀ v, V.get k = some v → ble t.dataKeySpaceEnd k = true) → V.get k = none := by
      intro V hV
      cases hg : V.get k with
      | none => rfl
      | some v =>
        have := hV v hg
        simp [ble, hk] at this
    rw [hne s.db (fun v hv => h.high k v hl hv), hne q.db (fun v hv => (Sim.ideal_high wf hsub h.holds hl hv).1)]
  · exact h.out k hl

theorem Sim.storedRow {P : Prop} {t : Table T F} (wf : t.WF) {idxs : List (Index T)} (hsub : ∀ idx ∈ idxs, idx ∈ t.indexes) {m : Rows T}
    {s q : LiveSt T F} (h : Sim P t idxs m s q) (pk : Bytes) : storedRow t s.db pk = storedRow t q.db pk := by
  unfold Bond.storedRow
  rw [h.low wf hsub _ (dataKey_lt_end t pk)]

theorem Sim.good {P : Prop} {t : Table T F} (wf : t.WF) {idxs : List (Index T)} (hsub : ∀ idx ∈ idxs, idx ∈ t.indexes) {m : Rows T}
    {s q : LiveSt T F} (h : Sim P t idxs m s q) {env : Env T} {c : WCall T} (hg : GoodRun t env s.db c) : GoodRun t env q.db c := by
  refine ⟨?_, hg.2⟩
  have := hg.1
  cases c <;> simpa only [GoodCall, h.storedRow wf hsub] using this

/-- a write call keeps the relation -/
theorem Sim.call {P : Prop} {t : Table T F} (wf : t.WF) (rt : t.RoundTrip) (fs : t.FilterSound) {idxs : List (Index T)}
    (hsub : ∀ idx ∈ idxs, idx ∈ t.indexes) {m : Rows T} {s q : LiveSt T F} (h : Sim P t idxs m s q) (size : Nat) {env : Env T} (ok : env.OK t)
    {c : WCall T} (hg : (t.run env s.db s.filt none c).err = none → GoodRun t env s.db c)
    (hkp : P → (t.run env s.db s.filt none c).err = none → s.phase.inRows → KeepsEntries t idxs (rowsAfter t.pk m s.res) c) :
    Sim P t idxs m (t.live1 size idxs s (.call env c)) (t.live1 size idxs q (.call env c)) := by
  obtain ⟨e1, e2, e3⟩ := run_sees_rows t env s.filt c (h.low wf hsub)
  have hsd := run_db t env s.db s.filt c
  have hqd := run_db t env q.db q.filt c
  rw [h.filt] at e1 e2 e3 hsd hg hkp
  rw [e3] at hsd
  rw [e1] at hg hkp
  rw [h.res] at hkp
  -- what the sequential run does
  have hq : Holds t (t.run env q.db q.filt none c).db (rowsAfter t.pk m (q.res ++ [(c, (t.run env q.db q.filt none c).err)])) ∧
      FilterCovers t (t.run env q.db q.filt none c).filt (rowsAfter t.pk m (q.res ++ [(c, (t.run env q.db q.filt none c).err)])) := by
    unfold rowsAfter
    rw [List.foldl_append]
    simp only [List.foldl_cons, List.foldl_nil]
    by_cases he : (t.run env q.db q.filt none c).err = none
    · rw [if_pos he]
      have := run_effect wf rt fs ok (ob := none) (by intro b hb; simp at hb) h.holds h.cov (h.good wf hsub (hg he)) he
      rw [run_view_nobatch] at this
      exact ⟨this.1, this.2.2⟩
    · rw [if_neg he, ((C13 t env q.db q.filt c).1 he).1]
      exact ⟨h.holds, run_filt_covers fs ok q.db none c h.cov⟩
  have hset : ∀ k, (∃ o ∈ (t.run env q.db q.filt none c).commits.flatten, o.touches k) →
      (t.run env s.db q.filt none c).db.get k = (t.run env q.db q.filt none c).db.get k := by
    intro k hk
    rw [hsd, hqd]; exact get_apply_touched _ hk _ _
  have hun1 : ∀ k, (¬ ∃ o ∈ (t.run env q.db q.filt none c).commits.flatten, o.touches k) →
      (t.run env s.db q.filt none c).db.get k = s.db.get k := by
    intro k hk
    rw [hsd]; exact get_apply_of_not_touch _ _ _ (fun o ho ht => hk ⟨o, ho, ht⟩)
  have hun2 : ∀ k, (¬ ∃ o ∈ (t.run env q.db q.filt none c).commits.flatten, o.touches k) →
      (t.run env q.db q.filt none c).db.get k = q.db.get k := by
    intro k hk
    rw [hqd]; exact get_apply_of_not_touch _ _ _ (fun o ho ht => hk ⟨o, ho, ht⟩)
  have hkeep : P → s.phase.inRows → ∀ k, Listed t idxs k → q.db.get k = some [] → (t.run env q.db q.filt none c).db.get k = some [] := by
    rintro hP hr k ⟨idx, hi, hs⟩ hk
    by_cases he : (t.run env q.db q.filt none c).err = none
    · obtain ⟨_, pk, x, hx, hf, rfl⟩ := (h.holds.index idx (hsub idx hi) k [] hs).1 hk
      obtain ⟨y, hy, hfy, h1, h2⟩ := hkp hP he hr idx hi pk x hx hf
      refine (hq.1.index idx (hsub idx hi) _ [] hs).2 ⟨rfl, pk, y, ?_, hfy, ?_⟩
      · unfold rowsAfter
        rw [List.foldl_append]
        simp only [List.foldl_cons, List.foldl_nil, if_pos he]
        exact hy
      · have hpx := h.holds.row_pk pk x hx
        have hpy : t.pk y = pk := by
          apply hq.1.row_pk
          unfold rowsAfter
          rw [List.foldl_append]
          simp only [List.foldl_cons, List.foldl_nil, if_pos he]
          exact hy
        unfold Table.indexKey
        rw [h1, h2, hpx, hpy]
    · rw [((C13 t env q.db q.filt c).1 he).1]; exact hk
  refine ⟨?_, ?_, h.fin, hq.1, hq.2, ?_, ?_, ?_⟩
  · show (t.run env s.db s.filt none c).filt = _
    rw [h.filt]; exact e2
  · show s.res ++ [(c, (t.run env s.db s.filt none c).err)] = _
    rw [h.filt, h.res, e1]; rfl
  · intro k hk
    show (t.run env s.db s.filt none c).db.get k = (t.run env q.db q.filt none c).db.get k
    rw [h.filt]
    by_cases ht : ∃ o ∈ (t.run env q.db q.filt none c).commits.flatten, o.touches k
    · exact hset k ht
    · rw [hun1 k ht, hun2 k ht]; exact h.out k hk
  · intro k v hl hk
    change (t.run env s.db s.filt none c).db.get k = some v at hk
    rw [h.filt] at hk
    by_cases ht : ∃ o ∈ (t.run env q.db q.filt none c).commits.flatten, o.touches k
    · rw [hset k ht] at hk; exact (Sim.ideal_high wf hsub hq.1 hl hk).1
    · rw [hun1 k ht] at hk; exact h.high k v hl hk
  · show SimPhase P t idxs (t.run env s.db s.filt none c).db (t.run env q.db q.filt none c).db s.phase
    rw [h.filt]
    have hp := h.phase
    cases hs : s.phase with
    | del left =>
      rw [hs] at hp
      refine ⟨hp.1, fun idx hi hn k hk => ?_⟩
      by_cases ht : ∃ o ∈ (t.run env q.db q.filt none c).commits.flatten, o.touches k
      · exact Or.inr (hset k ht)
      · rw [hun1 k ht, hun2 k ht]; exact hp.2 idx hi hn k hk
    | rows left counter ops =>
      rw [hs] at hp hkeep
      obtain ⟨h1, h2, h3, h4⟩ := hp
      refine ⟨fun hP k v hl hk => ?_, fun k v hl hk => ?_, fun o ho => ?_, h4⟩
      · by_cases ht : ∃ o ∈ (t.run env q.db q.filt none c).commits.flatten, o.touches k
        · rw [← hset k ht]; exact hk
        · rw [hun1 k ht] at hk; rw [hun2 k ht]; exact h1 hP k v hl hk
      · by_cases ht : ∃ o ∈ (t.run env q.db q.filt none c).commits.flatten, o.touches k
        · rw [hset k ht]; exact Or.inl hk
        · rw [hun2 k ht] at hk; rw [hun1 k ht]; exact h2 k v hl hk
      · obtain ⟨k, rfl, hl, hh, hk⟩ := h3 o ho
        exact ⟨k, rfl, hl, hh, fun hP => hkeep hP trivial k hl (hk hP)⟩
    | fin e =>
      rw [hs] at hp
      cases e with
      | some e => trivial
      | none =>
        refine ⟨fun hP k v hl => ?_, fun k v hl => ?_⟩
        · by_cases ht : ∃ o ∈ (t.run env q.db q.filt none c).commits.flatten, o.touches k
          · rw [hset k ht]; exact id
          · rw [hun1 k ht, hun2 k ht]; exact hp.1 hP k v hl
        · by_cases ht : ∃ o ∈ (t.run env q.db q.filt none c).commits.flatten, o.touches k
          · rw [hset k ht]; exact id
          · rw [hun1 k ht, hun2 k ht]; exact hp.2 k v hl

theorem reCommit_some {ok : Bool} {db db' : KV} {ops : List WOp} (h : reCommit ok db ops = some db') : db' = db.apply ops := by
  unfold reCommit at h
  by_cases ho : ops = []
  · rw [if_pos ho] at h; subst ho; simpa [KV.apply_nil] using h.symm
  · rw [if_neg ho] at h
    cases ok with
    | true => simpa using h.symm
    | false => simp at h

/-- committing the first part of the writes to come -/
theorem commit_sim {P : Prop} {t : Table T F} {idxs : List (Index T)} {db ideal : KV} {a b : List WOp}
    (h0 : ∀ k v, Listed t idxs k → ideal.get k = some v → v = [])
    (h1 : P → ∀ k v, Listed t idxs k → db.get k = some v → ideal.get k = some v)
    (h2 : ∀ k v, Listed t idxs k → ideal.get k = some v → db.get k = some v ∨ .set k [] ∈ a ++ b)
    (h3 : ∀ o ∈ a ++ b, ∃ k, o = .set k [] ∧ Listed t idxs k ∧ ble t.dataKeySpaceEnd k = true ∧ (P → ideal.get k = some [])) :
    (P → ∀ k v, Listed t idxs k → (db.apply a).get k = some v → ideal.get k = some v) ∧
    (∀ k v, Listed t idxs k → ideal.get k = some v → (db.apply a).get k = some v ∨ .set k [] ∈ b) ∧
    (∀ o ∈ b, ∃ k, o = .set k [] ∧ Listed t idxs k ∧ ble t.dataKeySpaceEnd k = true ∧ (P → ideal.get k = some [])) ∧
    (∀ k, ¬ Listed t idxs k → (db.apply a).get k = db.get k) ∧
    (∀ k v, (db.apply a).get k = some v → db.get k = some v ∨ ble t.dataKeySpaceEnd k = true) := by
  have hsets : ∀ o ∈ a, ∃ k, o = .set k [] := fun o ho => by
    obtain ⟨k, hk, _⟩ := h3 o (by simp [ho]); exact ⟨k, hk⟩
  have hin : ∀ k, WOp.set k [] ∈ a → Listed t idxs k ∧ ble t.dataKeySpaceEnd k = true ∧ (P → ideal.get k = some []) := by
    intro k hk
    obtain ⟨k', e, hl, hg⟩ := h3 _ (List.mem_append_left b hk)
    simp only [WOp.set.injEq, and_true] at e
    subst e; exact ⟨hl, hg⟩
  refine ⟨?_, ?_, fun o ho => h3 o (by simp [ho]), ?_, ?_⟩
  · intro hP k v hl hk
    rcases (get_apply_sets a hsets db k v).1 hk with ⟨rfl, hm⟩ | ⟨_, hg⟩
    · exact (hin k hm).2.2 hP
    · exact h1 hP k v hl hg
  · intro k v hl hk
    by_cases hm : WOp.set k [] ∈ a
    · exact Or.inl ((get_apply_sets a hsets db k v).2 (Or.inl ⟨h0 k v hl hk, hm⟩))
    · rcases h2 k v hl hk with h | h
      · exact Or.inl ((get_apply_sets a hsets db k v).2 (Or.inr ⟨hm, h⟩))
      · rcases List.mem_append.1 h with h | h
        · exact absurd h hm
        · exact Or.inr h
  · intro k hl
    apply get_apply_of_not_touch
    intro o ho ht
    obtain ⟨k', rfl⟩ := hsets o ho
    simp only [WOp.touches] at ht
    subst ht
    exact hl (hin _ ho).1
  · intro k v hk
    rcases (get_apply_sets a hsets db k v).1 hk with ⟨rfl, hm⟩ | ⟨_, hg⟩
    · exact Or.inr (hin k hm).2.1
    · exact Or.inl hg

theorem not_listed_data {t : Table T F} (wf : t.WF) {idxs : List (Index T)} (hsub : ∀ idx ∈ idxs, idx ∈ t.indexes) {k : Bytes}
    (hk : InSpace t.id 0 k) : ¬ Listed t idxs k := by
  rintro ⟨idx, hi, hs⟩
  exact wf.nz idx (hsub idx hi) (C09_disjoint hk hs).2.symm

/-- a piece of ReIndex keeps the relation -/
theorem Sim.step {P : Prop} {t : Table T F} (wf : t.WF) (rt : t.RoundTripFresh) {idxs : List (Index T)}
    (hsub : ∀ idx ∈ idxs, idx ∈ t.indexes) (h255 : ∀ idx ∈ idxs, idx.id ≠ 0xFF) {m : Rows T} {s q : LiveSt T F} (h : Sim P t idxs m s q)
    (size : Nat) (ok : Bool) : Sim P t idxs m (t.live1 size idxs s (.step ok)) q := by
  have key : ∀ db' ph', t.reStep size idxs ok s.db s.phase = (db', ph') →
      (∀ k, ¬ Listed t idxs k → db'.get k = s.db.get k) →
      (∀ k v, Listed t idxs k → db'.get k = some v → s.db.get k = some v ∨ ble t.dataKeySpaceEnd k = true) →
      SimPhase P t idxs db' q.db ph' → Sim P t idxs m (t.live1 size idxs s (.step ok)) q := by
    intro db' ph' e ho hv hp
    refine ⟨h.filt, h.res, h.fin, h.holds, h.cov, ?_, ?_, ?_⟩
    · intro k hk
      show (t.reStep size idxs ok s.db s.phase).1.get k = _
      rw [e]; exact (ho k hk).trans (h.out k hk)
    · intro k v hl hk
      change (t.reStep size idxs ok s.db s.phase).1.get k = some v at hk
      rw [e] at hk
      rcases hv k v hl hk with hk | hk
      · exact h.high k v hl hk
      · exact hk
    · show SimPhase P t idxs (t.reStep size idxs ok s.db s.phase).1 q.db (t.reStep size idxs ok s.db s.phase).2
      rw [e]; exact hp
  have hp := h.phase
  cases hs : s.phase with
  | fin e =>
    rw [hs] at hp
    exact key s.db (.fin e) (by rw [hs]; rfl) (fun _ _ => rfl) (fun _ _ _ hk => Or.inl hk) hp
  | del left =>
    rw [hs] at hp
    cases left with
    | cons idx left =>
      cases ok with
      | false => exact key s.db (.fin (some .commit)) (by rw [hs]; rfl) (fun _ _ => rfl) (fun _ _ _ hk => Or.inl hk) trivial
      | true =>
        have hi := hp.1 idx (by simp)
        refine key (s.db.apply1 (dropOp t idx)) (.del left) (by rw [hs]; rfl) ?_ ?_ ?_
        · intro k hk
          exact get_apply1_of_not_touch _ _ _ (fun ht => hk ⟨idx, hi, dropOp_touches_sub t idx ht⟩)
        · intro k v _ hk
          simp only [dropOp, KV.apply1, KV.get_delRange] at hk
          split at hk
          · simp at hk
          · exact Or.inl hk
        · refine ⟨fun i hi => hp.1 i (by simp [hi]), fun i hi' hn k hk => ?_⟩
          by_cases hid : i.id = idx.id
          · left
            have : (dropOp t idx).touches k := (dropOp_touches t (h255 idx hi) k).2 (hid ▸ hk)
            simp only [dropOp, WOp.touches] at this
            simp only [dropOp, KV.apply1, KV.get_delRange]
            rw [if_pos this]
          · have hun : (s.db.apply1 (dropOp t idx)).get k = s.db.get k :=
              get_apply1_of_not_touch _ _ _ (fun ht => hid (C09_disjoint hk (dropOp_touches_sub t idx ht)).2)
            rw [hun]
            refine hp.2 i hi' ?_ k hk
            simp only [List.map_cons, List.mem_cons, not_or]
            exact ⟨hid, hn⟩
    | nil =>
      -- the snapshot
      have hH : Holds { t with indexes := [] } s.db (rowsAfter t.pk m q.res) := by
        have hd : ∀ k, InSpace t.id 0 k → s.db.get k = q.db.get k := fun k hk => h.out k (not_listed_data wf hsub hk)
        refine ⟨h.holds.row_pk, ?_, ?_, ?_, by simp⟩
        · intro pk hm; exact (hd _ (inSpace_dataKey t.id pk)).trans (h.holds.absent pk hm)
        · intro pk x hm
          obtain ⟨b, hb, hg⟩ := h.holds.present pk x hm
          exact ⟨b, hb, (hd _ (inSpace_dataKey t.id pk)).trans hg⟩
        · intro k v hg hk
          exact h.holds.only_data k v ((hd k hk) ▸ hg) hk
      refine key s.db _ (by rw [hs]; rfl) (fun _ _ => rfl) (fun _ _ _ hk => Or.inl hk) ?_
      refine ⟨?_, ?_, ?_, ?_⟩
      · rintro - k v ⟨idx, hi, hk⟩ hg
        rcases hp.2 idx hi (by simp) k hk with h0 | h0
        · rw [h0] at hg; simp at hg
        · rw [← h0]; exact hg
      · rintro k v ⟨idx, hi, hk⟩ hg
        obtain ⟨rfl, pk, x, hx, hf, rfl⟩ := (h.holds.index idx (hsub idx hi) k v hk).1 hg
        right
        obtain ⟨b, hb, _⟩ := h.holds.present pk x hx
        unfold pendingOps
        rw [List.nil_append, List.mem_flatMap]
        refine ⟨(dataKey t.id pk, b), (mem_scan_rows hH _).2 ⟨pk, x, hx, hb, rfl⟩, ?_⟩
        unfold rowOps
        simp only [rt x b hb]
        rw [List.mem_flatMap]
        exact ⟨idx, hi, by simp [onInsert, hf, indexKeyValue]⟩
      · intro o ho
        unfold pendingOps at ho
        rw [List.nil_append, List.mem_flatMap] at ho
        obtain ⟨e, he, ho⟩ := ho
        obtain ⟨pk, x, hx, hb, _⟩ := (mem_scan_rows hH e).1 he
        obtain ⟨idx, hi, x', hx', hf, rfl⟩ := rowOps_touches ho
        rw [rt x e.2 hb] at hx'
        simp only [Option.some.injEq] at hx'
        subst hx'
        exact ⟨_, rfl, ⟨idx, hi, inSpace_indexKey t idx x⟩, indexKey_high (wf.nz idx (hsub idx hi)) x,
          fun _ => (h.holds.index idx (hsub idx hi) _ [] (inSpace_indexKey t idx x)).2 ⟨rfl, pk, x, hx, hf, rfl⟩⟩
      · intro e he
        obtain ⟨pk, x, hx, hb, _⟩ := (mem_scan_rows hH e).1 he
        rw [rt x e.2 hb]; rfl
  | rows left counter ops =>
    rw [hs] at hp
    obtain ⟨h1, h2, h3, h4⟩ := hp
    have h0 : ∀ k v, Listed t idxs k → q.db.get k = some v → v = [] := fun k v hl hk => (Sim.ideal_high wf hsub h.holds hl hk).2
    cases left with
    | nil =>
      have hpe : pendingOps t idxs [] ops = ops ++ [] := by simp [pendingOps]
      rw [hpe] at h2 h3
      cases hc : reCommit ok s.db ops with
      | none =>
        exact key s.db (.fin (some .commit)) (by rw [hs]; simp only [Table.reStep, hc]) (fun _ _ => rfl) (fun _ _ _ hk => Or.inl hk) trivial
      | some db' =>
        have := reCommit_some hc; subst this
        obtain ⟨a1, a2, _, a4, a5⟩ := commit_sim h0 h1 h2 h3
        refine key (s.db.apply ops) (.fin none) (by rw [hs]; simp only [Table.reStep, hc]) a4 (fun k v _ hk => a5 k v hk) ?_
        refine ⟨a1, fun k v hl hk => ?_⟩
        rcases a2 k v hl hk with h | h
        · exact h
        · simp at h
    | cons e left =>
      obtain ⟨ek, ev⟩ := e
      have hd := h4 (ek, ev) (by simp)
      rw [Option.isSome_iff_exists] at hd
      obtain ⟨x, hx⟩ := hd
      simp only at hx
      have hrow : rowOps t idxs (ek, ev) = idxs.flatMap (fun idx => onInsert t idx x) := by simp only [rowOps, hx]
      have hpe : pendingOps t idxs ((ek, ev) :: left) ops =
          (ops ++ idxs.flatMap (fun idx => onInsert t idx x)) ++ left.flatMap (rowOps t idxs) := by
        simp [pendingOps, hrow]
      have h4' : ∀ e ∈ left, (t.deser t.nil e.2).isSome := fun e he => h4 e (by simp [he])
      rw [hpe] at h2 h3
      by_cases hcnt : counter + 1 ≥ size
      · cases hc : reCommit ok s.db (ops ++ idxs.flatMap (fun idx => onInsert t idx x)) with
        | none =>
          exact key s.db (.fin (some .commit)) (by rw [hs]; simp only [Table.reStep, hx, if_pos hcnt, hc]) (fun _ _ => rfl)
            (fun _ _ _ hk => Or.inl hk) trivial
        | some db' =>
          have := reCommit_some hc; subst this
          obtain ⟨a1, a2, a3, a4, a5⟩ := commit_sim h0 h1 h2 h3
          exact key _ (.rows left 0 []) (by rw [hs]; simp only [Table.reStep, hx, if_pos hcnt, hc]) a4 (fun k v _ hk => a5 k v hk)
            ⟨a1, a2, a3, h4'⟩
      · exact key s.db (.rows left (counter + 1) (ops ++ idxs.flatMap (fun idx => onInsert t idx x)))
          (by rw [hs]; simp only [Table.reStep, hx, if_neg hcnt]) (fun _ _ => rfl) (fun _ _ _ hk => Or.inl hk) ⟨h1, h2, h3, h4'⟩

theorem Sim.run {P : Prop} {t : Table T F} (wf : t.WF) (rt : t.RoundTrip) (fs : t.FilterSound) {idxs : List (Index T)}
    (hsub : ∀ idx ∈ idxs, idx ∈ t.indexes) (h255 : ∀ idx ∈ idxs, idx.id ≠ 0xFF) {m : Rows T} (size : Nat) (evs : List (LiveEv T)) :
    ∀ {s q : LiveSt T F}, Sim P t idxs m s q → CallsOK size t idxs evs s → (P → CallsKeep size t idxs m evs s) →
      Sim P t idxs m (t.live size idxs evs s) (t.live size idxs (evs.filter LiveEv.isCall) q) := by
  induction evs with
  | nil => intro s q h _ _; exact h
  | cons e evs ih =>
    intro s q h hok hk
    cases e with
    | step ok => exact ih (h.step wf (fun x b hb => rt x b hb _) hsub h255 size ok) hok hk
    | call env c => exact ih (h.call wf rt fs hsub size hok.1 hok.2.1 (fun hP => (hk hP).1)) hok.2.2 (fun hP => (hk hP).2)

/-- the run in which ReIndex is over before the first call -/
def reIndexedFirst (size : Nat) (t : Table T F) (db : KV) (f : F) (idxs : List (Index T)) (evs : List (LiveEv T)) : LiveSt T F :=
  t.live size idxs (evs.filter LiveEv.isCall) ⟨(t.reIndexBs size (fun _ => true) db idxs).db db, f, .fin none, []⟩

theorem Sim.start {P : Prop} {t : Table T F} (wf : t.WF) (rt : t.RoundTripFresh) {idxs : List (Index T)}
    (hsub : ∀ idx ∈ idxs, idx ∈ t.indexes) (h255 : ∀ idx ∈ idxs, idx.id ≠ 0xFF) (size : Nat) {db : KV} {f : F} {m : Rows T}
    (hH : Holds (t.without idxs) db m) (hF : FilterCovers t f m)
    (hhigh : ∀ k v, Listed t idxs k → db.get k = some v → ble t.dataKeySpaceEnd k = true) :
    Sim P t idxs m (liveStart db f idxs) ⟨(t.reIndexBs size (fun _ => true) db idxs).db db, f, .fin none, []⟩ := by
  refine ⟨rfl, rfl, rfl, C36_partial size wf rt _ hsub h255 hH (C36_success size wf rt hsub hH), hF, ?_, hhigh, ?_⟩
  · intro k hk
    have := C36_outside size t (fun _ => true) db idxs (t.reIndexBs size (fun _ => true) db idxs).commits.length (k := k)
      (fun idx hi hs => hk ⟨idx, hi, hs⟩)
    rw [List.take_length] at this
    exact this.symm
  · refine ⟨fun _ h => h, fun idx hi hn => ?_⟩
    exact absurd (List.mem_map_of_mem hi) hn

theorem stepping_loop (t : Table T F) (size : Nat) (idxs : List (Index T)) (db0 : KV) (f : F) (es : List (Bytes × Bytes)) :
    ∀ counter ops commits, ∃ n, t.live size idxs (List.replicate n (.step true)) ⟨db0.apply commits.flatten, f, .rows es counter ops, []⟩ =
      ⟨(t.reIndexLoop (fun _ => true) size idxs es counter ops commits).db db0, f,
        .fin (t.reIndexLoop (fun _ => true) size idxs es counter ops commits).err, []⟩ := by
  have hc : ∀ commits ops, reCommit true (db0.apply commits.flatten) ops = some ((commitStep (fun _ => true) commits ops).db db0) ∧
      (commitStep (fun _ => true) commits ops).err = none := by
    intro commits ops
    unfold reCommit commitStep ROut.db
    by_cases ho : ops = []
    · rw [if_pos ho, if_pos ho]; exact ⟨rfl, rfl⟩
    · rw [if_neg ho, if_neg ho]
      simp [KV.apply_append]
  induction es with
  | nil =>
    intro counter ops commits
    refine ⟨1, ?_⟩
    simp only [Table.live, List.replicate, List.foldl, Table.live1, Table.reStep, (hc commits ops).1, Table.reIndexLoop, (hc commits ops).2]
  | cons e es ih =>
    intro counter ops commits
    obtain ⟨k, v⟩ := e
    cases hx : t.deser t.nil v with
    | none =>
      refine ⟨1, ?_⟩
      simp only [Table.live, List.replicate, List.foldl, Table.live1, Table.reStep, Table.reIndexLoop, hx, ROut.db]
    | some x =>
      by_cases hs : counter + 1 ≥ size
      · obtain ⟨h1, h2⟩ := hc commits (ops ++ idxs.flatMap (fun idx => onInsert t idx x))
        cases hcs : commitStep (fun _ => true) commits (ops ++ idxs.flatMap (fun idx => onInsert t idx x)) with
        | mk cs er =>
          rw [hcs] at h1 h2
          simp only at h2
          subst h2
          obtain ⟨n, hn⟩ := ih 0 [] cs
          refine ⟨n + 1, ?_⟩
          rw [List.replicate_succ]
          show t.live size idxs _ (t.live1 size idxs _ _) = _
          simp only [Table.live1, Table.reStep, Table.reIndexLoop, hx, if_pos hs, h1, hcs]
          exact hn
      · obtain ⟨n, hn⟩ := ih (counter + 1) (ops ++ idxs.flatMap (fun idx => onInsert t idx x)) commits
        refine ⟨n + 1, ?_⟩
        rw [List.replicate_succ]
        show t.live size idxs _ (t.live1 size idxs _ _) = _
        simp only [Table.live1, Table.reStep, Table.reIndexLoop, hx, if_neg hs]
        exact hn

theorem stepping_del (t : Table T F) (size : Nat) (idxs : List (Index T)) (db0 : KV) (f : F) (left : List (Index T)) :
    ∀ commits, t.live size idxs (List.replicate left.length (.step true)) ⟨db0.apply commits.flatten, f, .del left, []⟩ =
      ⟨(t.reIndexDelete (fun _ => true) left commits).db db0, f, .del [], []⟩ := by
  induction left with
  | nil => intro commits; rfl
  | cons idx left ih =>
    intro commits
    rw [List.length_cons, List.replicate_succ]
    show t.live size idxs _ (t.live1 size idxs _ _) = _
    have := ih (commits ++ [[.delRange [t.id, idx.id] [t.id, idx.id + 1]]])
    simp only [Table.live1, Table.reStep, Table.reIndexDelete, if_true]
    rw [← this]
    simp [KV.apply_append, KV.apply_cons, KV.apply_nil]

theorem live_append (t : Table T F) (size : Nat) (idxs : List (Index T)) (a b : List (LiveEv T)) (s : LiveSt T F) :
    t.live size idxs (a ++ b) s = t.live size idxs b (t.live size idxs a s) := List.foldl_append

/-! ## C76 -/

/-- Nobody else writes: the pieces of ReIndex one after the other are ReIndex as modelled for C36. -/
theorem C76_alone (size : Nat) (t : Table T F) (db : KV) (f : F) (idxs : List (Index T)) :
    ∃ n, t.live size idxs (List.replicate n (.step true)) (liveStart db f idxs) =
      ⟨(t.reIndexBs size (fun _ => true) db idxs).db db, f, .fin (t.reIndexBs size (fun _ => true) db idxs).err, []⟩ := by
  have h1 := stepping_del t size idxs db f idxs []
  cases hd : t.reIndexDelete (fun _ => true) idxs [] with
  | mk cs er =>
    have ht := reIndexDelete_total t idxs []
    rw [hd] at ht h1
    simp only at ht
    subst ht
    obtain ⟨n, hn⟩ := stepping_loop t size idxs db f
      ((db.apply cs.flatten).scan (keyPrefix t.id primaryIndexID []) (keySuccessor (keyPrefix t.id primaryIndexID []))) 0 [] cs
    refine ⟨idxs.length + (1 + n), ?_⟩
    rw [← List.replicate_append_replicate, live_append, ← List.replicate_append_replicate, live_append]
    have e : liveStart db f idxs = ⟨db.apply ([] : List (List WOp)).flatten, f, .del idxs, []⟩ := rfl
    rw [e, h1]
    have e2 : t.live size idxs (List.replicate 1 (.step true)) ⟨ROut.db ⟨cs, none⟩ db, f, .del [], []⟩ =
        ⟨db.apply cs.flatten, f, .rows ((db.apply cs.flatten).scan (keyPrefix t.id primaryIndexID [])
          (keySuccessor (keyPrefix t.id primaryIndexID []))) 0 [], []⟩ := rfl
    rw [e2, hn]
    unfold Table.reIndexBs
    rw [hd]

/-- C76 (what holds): ReIndex runs while calls write the table, in any interleaving. If the calls that succeed are within the
documented use, and those that take effect while ReIndex goes through the rows remove no entry of the indexes being rebuilt,
then, when ReIndex has returned without error, everything is as if ReIndex had been finished before the first call: the
database, the results of the calls, the filter; the rows are those produced by the calls, and every index agrees with them.
Nothing is assumed about what the indexes contained before, except that keys shorter than any key bond writes are not there.
Missing: calls that remove or change entries while ReIndex goes through the rows (`C76_refuted_stale`), and calls that began
before the index was added (`C76_refuted_missing`). -/
theorem C76_partial {t : Table T F} (wf : t.WF) (rt : t.RoundTrip) (fs : t.FilterSound) {idxs : List (Index T)}
    (hsub : ∀ idx ∈ idxs, idx ∈ t.indexes) (h255 : ∀ idx ∈ idxs, idx.id ≠ 0xFF) (size : Nat) {db : KV} {f : F} {m : Rows T}
    (hH : Holds (t.without idxs) db m) (hF : FilterCovers t f m)
    (hhigh : ∀ k v, Listed t idxs k → db.get k = some v → ble t.dataKeySpaceEnd k = true) (evs : List (LiveEv T))
    (hok : CallsOK size t idxs evs (liveStart db f idxs)) (hkeep : CallsKeep size t idxs m evs (liveStart db f idxs))
    (hfin : (t.live size idxs evs (liveStart db f idxs)).phase = .fin none) :
    t.live size idxs evs (liveStart db f idxs) = reIndexedFirst size t db f idxs evs ∧
    Holds t (t.live size idxs evs (liveStart db f idxs)).db (rowsAfter t.pk m (t.live size idxs evs (liveStart db f idxs)).res) := by
  have h := Sim.run (P := True) wf rt fs hsub h255 size evs
    (Sim.start wf (fun x b hb => rt x b hb _) hsub h255 size hH hF hhigh) hok (fun _ => hkeep)
  have hdb : (t.live size idxs evs (liveStart db f idxs)).db = (reIndexedFirst size t db f idxs evs).db := by
    apply KV.ext
    intro k
    by_cases hl : Listed t idxs k
    · have hp := h.phase
      rw [hfin] at hp
      cases hg : (t.live size idxs evs (liveStart db f idxs)).db.get k with
      | some v => exact (hp.1 trivial k v hl hg).symm
      | none =>
        cases hg' : (reIndexedFirst size t db f idxs evs).db.get k with
        | none => rfl
        | some v => rw [hp.2 k v hl hg'] at hg; simp at hg
    · exact h.out k hl
  have hst : t.live size idxs evs (liveStart db f idxs) = reIndexedFirst size t db f idxs evs := by
    have h1 := h.filt
    have h2 := h.res
    have h3 := h.fin
    unfold reIndexedFirst at hdb ⊢
    generalize t.live size idxs evs (liveStart db f idxs) = s at *
    generalize t.live size idxs (evs.filter LiveEv.isCall) _ = q at *
    cases s; cases q
    simp only at hdb h1 h2 h3 hfin
    rw [hdb, h1, h2, h3, hfin]
  refine ⟨hst, ?_⟩
  rw [hst]
  exact h.holds

/-- C76 (whatever the calls do, within the documented use, at any moment, also if ReIndex fails): the rows are those produced by
the calls that succeeded, and the other indexes agree with them. -/
theorem C76_rows {t : Table T F} (wf : t.WF) (rt : t.RoundTrip) (fs : t.FilterSound) {idxs : List (Index T)}
    (hsub : ∀ idx ∈ idxs, idx ∈ t.indexes) (h255 : ∀ idx ∈ idxs, idx.id ≠ 0xFF) (size : Nat) {db : KV} {f : F} {m : Rows T}
    (hH : Holds (t.without idxs) db m) (hF : FilterCovers t f m)
    (hhigh : ∀ k v, Listed t idxs k → db.get k = some v → ble t.dataKeySpaceEnd k = true) (evs : List (LiveEv T))
    (hok : CallsOK size t idxs evs (liveStart db f idxs)) :
    Holds (t.without idxs) (t.live size idxs evs (liveStart db f idxs)).db
      (rowsAfter t.pk m (t.live size idxs evs (liveStart db f idxs)).res) := by
  have h := Sim.run (P := False) wf rt fs hsub h255 size evs
    (Sim.start wf (fun x b hb => rt x b hb _) hsub h255 size hH hF hhigh) hok False.elim
  rw [h.res]
  have hq := h.holds
  refine ⟨hq.row_pk, ?_, ?_, ?_, ?_⟩
  · intro pk hm
    exact (h.out _ (not_listed_data wf hsub (inSpace_dataKey t.id pk))).trans (hq.absent pk hm)
  · intro pk x hm
    obtain ⟨b, hb, hg⟩ := hq.present pk x hm
    exact ⟨b, hb, (h.out _ (not_listed_data wf hsub (inSpace_dataKey t.id pk))).trans hg⟩
  · intro k v hg hs
    exact hq.only_data k v ((h.out k (not_listed_data wf hsub hs)) ▸ hg) hs
  · intro idx hi k v hs
    simp only [Table.without, List.mem_filter, Bool.not_eq_true', List.contains_eq_mem, decide_eq_false_iff_not] at hi
    have hl : ¬ Listed t idxs k := by
      rintro ⟨idx', hi', hs'⟩
      have hid : idx.id = idx'.id := (C09_disjoint hs hs').2
      exact hi.2 (by rw [hid]; exact List.mem_map_of_mem hi')
    rw [h.out k hl]
    exact hq.index idx hi.1 k v hs

/-- C76 (whatever the calls do, within the documented use): when ReIndex has returned without error, no entry of the rebuilt
indexes is missing. Entries of rows that were changed or deleted meanwhile may be there too (`C76_refuted_stale`). -/
theorem C76_complete {t : Table T F} (wf : t.WF) (rt : t.RoundTrip) (fs : t.FilterSound) {idxs : List (Index T)}
    (hsub : ∀ idx ∈ idxs, idx ∈ t.indexes) (h255 : ∀ idx ∈ idxs, idx.id ≠ 0xFF) (size : Nat) {db : KV} {f : F} {m : Rows T}
    (hH : Holds (t.without idxs) db m) (hF : FilterCovers t f m)
    (hhigh : ∀ k v, Listed t idxs k → db.get k = some v → ble t.dataKeySpaceEnd k = true) (evs : List (LiveEv T))
    (hok : CallsOK size t idxs evs (liveStart db f idxs))
    (hfin : (t.live size idxs evs (liveStart db f idxs)).phase = .fin none) :
    ∀ idx ∈ idxs, ∀ pk x, rowsAfter t.pk m (t.live size idxs evs (liveStart db f idxs)).res pk = some x → idx.filter x = true →
      (t.live size idxs evs (liveStart db f idxs)).db.get (t.indexKey idx x) = some [] := by
  intro idx hi pk x hx hf
  have h := Sim.run (P := False) wf rt fs hsub h255 size evs
    (Sim.start wf (fun x b hb => rt x b hb _) hsub h255 size hH hF hhigh) hok False.elim
  rw [h.res] at hx
  have hp := h.phase
  rw [hfin] at hp
  have hs := inSpace_indexKey t idx x
  exact hp.2 _ _ ⟨idx, hi, hs⟩ ((h.holds.index idx (hsub idx hi) _ [] hs).2 ⟨rfl, pk, x, hx, hf, rfl⟩)

/-- the calls are Inserts that do not repeat keys beyond 5000 records -/
def OnlyInserts (t : Table T F) (evs : List (LiveEv T)) : Prop :=
  ∀ env c, .call env c ∈ evs → env.OK t ∧ ∃ trs, c = .insert trs ∧ ((trs.map t.pk).Nodup ∨ trs.length ≤ 5000)

theorem Sim.insert_keeps {P : Prop} {t : Table T F} (wf : t.WF) (fs : t.FilterSound) {idxs : List (Index T)}
    (hsub : ∀ idx ∈ idxs, idx ∈ t.indexes) {m : Rows T} {s q : LiveSt T F} (h : Sim P t idxs m s q) {env : Env T} (ok : env.OK t)
    {trs : List T} (hn : (trs.map t.pk).Nodup ∨ trs.length ≤ 5000) (he : (t.run env s.db s.filt none (.insert trs)).err = none) :
    KeepsEntries t idxs (rowsAfter t.pk m s.res) (.insert trs) := by
  rw [(run_sees_rows t env s.filt (.insert trs) (h.low wf hsub)).1, h.filt] at he
  have hv := insert_view wf ok fs (by decide : 0 < persistentBatchSize) (ob := none) h.holds h.cov (callReads_none hn) he
  rw [← h.res] at hv
  intro idx _ pk x hx hf
  refine ⟨x, ?_, hf, rfl, rfl⟩
  show Rows.putAll _ _ _ pk = some x
  rw [putAll_other, hx]
  intro y hy e
  have := hv.2.2.2.2 y hy
  rw [e, hx] at this
  simp at this

/-- C76 (Inserts): Inserts running at the same time as ReIndex need no further condition. -/
theorem C76_inserts {t : Table T F} (wf : t.WF) (rt : t.RoundTrip) (fs : t.FilterSound) {idxs : List (Index T)}
    (hsub : ∀ idx ∈ idxs, idx ∈ t.indexes) (h255 : ∀ idx ∈ idxs, idx.id ≠ 0xFF) (size : Nat) {db : KV} {f : F} {m : Rows T}
    (hH : Holds (t.without idxs) db m) (hF : FilterCovers t f m)
    (hhigh : ∀ k v, Listed t idxs k → db.get k = some v → ble t.dataKeySpaceEnd k = true) (evs : List (LiveEv T))
    (hins : OnlyInserts t evs) (hfin : (t.live size idxs evs (liveStart db f idxs)).phase = .fin none) :
    Holds t (t.live size idxs evs (liveStart db f idxs)).db (rowsAfter t.pk m (t.live size idxs evs (liveStart db f idxs)).res) := by
  have key : ∀ (evs : List (LiveEv T)), OnlyInserts t evs → ∀ {s q : LiveSt T F}, Sim True t idxs m s q →
      CallsOK size t idxs evs s ∧ CallsKeep size t idxs m evs s := by
    intro evs
    induction evs with
    | nil => intro _ s q _; exact ⟨trivial, trivial⟩
    | cons e evs ih =>
      intro hi s q h
      have hi' : OnlyInserts t evs := fun env c hc => hi env c (by simp [hc])
      cases e with
      | step ok => exact ih hi' (h.step wf (fun x b hb => rt x b hb _) hsub h255 size ok)
      | call env c =>
        obtain ⟨ok, trs, rfl, hn⟩ := hi env c (by simp)
        have hg : (t.run env s.db s.filt none (.insert trs)).err = none → GoodRun t env s.db (.insert trs) :=
          fun _ => ⟨hn, by intro _ h; simp at h⟩
        have hk : (t.run env s.db s.filt none (.insert trs)).err = none → s.phase.inRows →
            KeepsEntries t idxs (rowsAfter t.pk m s.res) (.insert trs) := fun he _ => h.insert_keeps wf fs hsub ok hn he
        obtain ⟨a, b⟩ := ih hi' (h.call wf rt fs hsub size ok hg (fun _ => hk))
        exact ⟨⟨ok, hg, a⟩, hk, b⟩
  obtain ⟨a, b⟩ := key evs hins (Sim.start wf (fun x b hb => rt x b hb _) hsub h255 size hH hF hhigh)
  exact (C76_partial wf rt fs hsub h255 size hH hF hhigh evs a b hfin).2

/-- the rows of `exDB` -/
def exLiveRows : Rows Rec := Rows.putAll (fun _ => none) exTable.pk [(1, 5), (2, 6)]

/-- ReIndex with two Inserts in between, one of which fails; both take effect after the snapshot -/
def exLive : List (LiveEv Rec) :=
  [.step true, .step true, .call (stdEnv exTable) (.insert [(3, 6)]), .step true, .call (stdEnv exTable) (.insert [(2, 9)]),
    .step true, .step true]

/-- the hypotheses are met, also with garbage in the index -/
example : Holds (exTable.without [exIndex]) (exDB.set (exTable.indexKey exIndex (8, 8)) []) exLiveRows ∧
    OnlyInserts exTable exLive ∧
    (∀ k v, Listed exTable [exIndex] k → (exDB.set (exTable.indexKey exIndex (8, 8)) []).get k = some v → ble exTable.dataKeySpaceEnd k = true) ∧
    (exTable.live reindexBatchSize [exIndex] exLive
      (liveStart (exDB.set (exTable.indexKey exIndex (8, 8)) []) () [exIndex])).res.map Prod.snd = [none, some .alreadyExist] ∧
    (exTable.live reindexBatchSize [exIndex] exLive
      (liveStart (exDB.set (exTable.indexKey exIndex (8, 8)) []) () [exIndex])).phase = .fin none ∧
    (exTable.live reindexBatchSize [exIndex] exLive
      (liveStart (exDB.set (exTable.indexKey exIndex (8, 8)) []) () [exIndex])).db.get (exTable.indexKey exIndex (3, 6)) = some [] := by
  have hd : ∀ k, InSpace exTable.id 0 k → (exDB.set (exTable.indexKey exIndex (8, 8)) []).get k = exDB.get k := by
    intro k hk
    rw [KV.get_set, if_neg]
    rintro rfl
    have := (C09_disjoint hk (inSpace_indexKey exTable exIndex (8, 8))).2
    revert this; decide
  refine ⟨⟨exDB_holds.row_pk, ?_, ?_, ?_, ?_⟩, ?_, ?_, by decide, rfl, by decide⟩
  · intro pk hm; exact (hd _ (inSpace_dataKey _ pk)).trans (exDB_holds.absent pk hm)
  · intro pk x hm
    obtain ⟨b, hb, hg⟩ := exDB_holds.present pk x hm
    exact ⟨b, hb, (hd _ (inSpace_dataKey _ pk)).trans hg⟩
  · intro k v hg hs
    exact exDB_holds.only_data k v ((hd k hs) ▸ hg) hs
  · intro idx hi; simp [Table.without, exTable] at hi
  · intro env c hc
    simp only [exLive, List.mem_cons, reduceCtorEq, LiveEv.call.injEq, List.not_mem_nil, or_false, false_or] at hc
    rcases hc with ⟨rfl, rfl⟩ | ⟨rfl, rfl⟩ <;> exact ⟨stdEnv_ok _, _, rfl, Or.inl (by decide)⟩
  · rintro k v ⟨idx, hi, hs⟩ hk
    simp only [List.mem_cons, List.not_mem_nil, or_false] at hi
    subst hi
    rw [KV.get_set] at hk
    split at hk
    · rename_i e; subst e; exact indexKey_high (by decide) _
    · obtain ⟨_, _, x, _, _, rfl⟩ := (exDB_holds.index exIndex (by simp [exTable]) k v hs).1 hk
      exact indexKey_high (by decide) _

/-- the hypotheses of `C76_partial` are met by an Update that changes an index value and a Delete, after the old entries are
dropped and before the snapshot, and an Update after it that keeps the index value -/
example :
    let evs : List (LiveEv Rec) := [.step true, .call (stdEnv exTable) (.update [(1, 7)]), .call (stdEnv exTable) (.delete [(2, 6)]),
      .step true, .call (stdEnv exTable) (.update [(1, 7)]), .step true, .step true]
    CallsOK reindexBatchSize exTable [exIndex] evs (liveStart exDB () [exIndex]) ∧
    CallsKeep reindexBatchSize exTable [exIndex] exLiveRows evs (liveStart exDB () [exIndex]) ∧
    (exTable.live reindexBatchSize [exIndex] evs (liveStart exDB () [exIndex])).phase = .fin none ∧
    (exTable.live reindexBatchSize [exIndex] evs (liveStart exDB () [exIndex])).res.map Prod.snd = [none, none, none] := by
  refine ⟨⟨stdEnv_ok _, fun _ => ⟨Or.inl (by decide), fun _ _ => Or.inr (stdEnv_stable _)⟩, stdEnv_ok _, fun _ => ⟨?_, ?_⟩,
    stdEnv_ok _, fun _ => ⟨Or.inl (by decide), fun _ _ => Or.inr (stdEnv_stable _)⟩, trivial⟩,
    ⟨fun _ h => h.elim, fun _ h => h.elim, fun _ _ => ?_, trivial⟩, rfl, by decide⟩
  · intro x hx old ho idx hi hf
    simp only [List.mem_cons, List.not_mem_nil, or_false] at hx
    subst hx
    have : storedRow exTable (exTable.live reindexBatchSize [exIndex] [.step true, .call (stdEnv exTable) (.update [(1, 7)])]
      (liveStart exDB () [exIndex])).db (exTable.pk (2, 6)) = some (2, 6) := by decide
    have e : some old = some ((2, 6) : Rec) := ho.symm.trans this
    simp only [Option.some.injEq] at e
    subst e
    exact ⟨hf, rfl⟩
  · intro _ h; simp at h
  · intro idx hi pk x hx hf
    simp only [List.mem_cons, List.not_mem_nil, or_false] at hi
    subst hi
    by_cases h1 : pk = [1]
    · subst h1
      have : x = ((1, 7) : Rec) := Option.some.inj (hx.symm.trans (by decide))
      subst this
      exact ⟨(1, 7), rfl, rfl, rfl, rfl⟩
    · exact ⟨x, by
        show Rows.putAll _ _ _ pk = some x
        rw [putAll_other _ _ _ _ (by intro y hy e; simp only [List.mem_cons, List.not_mem_nil, or_false] at hy; subst hy; exact h1 e.symm)]
        exact hx, hf, rfl, rfl⟩

/-- no row content agrees with an index entry that is not the one of the stored row -/
theorem exTable_stale {db : KV} {a g g' : UInt8} (h1 : db.get (exTable.key (a, g)) = some [a, g'])
    (h2 : db.get (exTable.indexKey exIndex (a, g)) = some []) (hne : g ≠ g') : ¬ ∃ m, Holds exTable db m := by
  rintro ⟨m, h⟩
  obtain ⟨_, pk, x, hm, _, hk⟩ := (h.index exIndex (by simp [exTable]) _ _ (inSpace_indexKey exTable exIndex (a, g))).1 h2
  have hpk := exTable_wf.indexKey_pk (by simp [exTable]) hk
  have hx := h.row_pk _ _ hm
  rw [← hpk] at hx
  subst hx
  obtain ⟨b, hb, hg⟩ := h.present _ _ hm
  have h1' : db.get (dataKey exTable.id (exTable.pk (a, g))) = some [a, g'] := h1
  rw [h1'] at hg
  simp only [exTable, Option.some.injEq] at hb hg
  rw [← hg] at hb
  simp only [List.cons.injEq, and_true] at hb
  obtain ⟨a', g''⟩ := x
  simp only at hb
  obtain ⟨rfl, rfl⟩ := hb
  simp only [Table.indexKey, encodeIndexKey_eq, exIndex, exTable] at hk
  simp at hk
  exact hne hk

/-- an Update that changes an index value takes effect between the snapshot and the commit -/
def exLiveUpdate : List (LiveEv Rec) :=
  [.step true, .step true, .call (stdEnv exTable) (.update [(1, 7)]), .step true, .step true, .step true]

/-- C76 is false for Updates: all calls succeed, every one is within the documented use, the table was consistent; afterwards
the index has an entry with the old value, and no row content agrees with it. -/
theorem C76_refuted_stale :
    Holds exTable exDB exLiveRows ∧ CallsOK reindexBatchSize exTable [exIndex] exLiveUpdate (liveStart exDB () [exIndex]) ∧
    (exTable.live reindexBatchSize [exIndex] exLiveUpdate (liveStart exDB () [exIndex])).phase = .fin none ∧
    (exTable.live reindexBatchSize [exIndex] exLiveUpdate (liveStart exDB () [exIndex])).res.map Prod.snd = [none] ∧
    ¬ ∃ m, Holds exTable (exTable.live reindexBatchSize [exIndex] exLiveUpdate (liveStart exDB () [exIndex])).db m := by
  refine ⟨exDB_holds, ⟨stdEnv_ok _, fun _ => ⟨Or.inl (by decide), fun _ _ => Or.inr (stdEnv_stable _)⟩, trivial⟩, rfl, by decide, ?_⟩
  exact exTable_stale (a := 1) (g := 5) (g' := 7) (by decide) (by decide) (by decide)

/-- an Insert that copied the list of indexes (table.go:339-342) before AddIndex registered the new one, and takes effect after
ReIndex has opened its iterator -/
def exLiveOld : List (LiveEv Rec) :=
  [.step true, .step true, .call (stdEnv (exTable.without [exIndex])) (.insert [(3, 6)]), .step true, .step true, .step true]

/-- C76 is false for calls that were running when the index was added: everything succeeds, the row of the call is stored and
has no entry in the new index. The choices of the call are legal for the table without the index. -/
theorem C76_refuted_missing :
    Holds (exTable.without [exIndex]) exDB exLiveRows ∧ (stdEnv (exTable.without [exIndex])).OK (exTable.without [exIndex]) ∧
    (exTable.live reindexBatchSize [exIndex] exLiveOld (liveStart exDB () [exIndex])).phase = .fin none ∧
    (exTable.live reindexBatchSize [exIndex] exLiveOld (liveStart exDB () [exIndex])).res.map Prod.snd = [none] ∧
    ¬ ∃ m, Holds exTable (exTable.live reindexBatchSize [exIndex] exLiveOld (liveStart exDB () [exIndex])).db m := by
  refine ⟨⟨exDB_holds.row_pk, exDB_holds.absent, exDB_holds.present, exDB_holds.only_data, ?_⟩, stdEnv_ok _, rfl, by decide, ?_⟩
  · intro idx hi; simp [Table.without, exTable] at hi
  · rintro ⟨m, h⟩
    have h1 : (exTable.live reindexBatchSize [exIndex] exLiveOld (liveStart exDB () [exIndex])).db.get (dataKey exTable.id [3]) = some [3, 6] := by
      decide
    have h2 : (exTable.live reindexBatchSize [exIndex] exLiveOld (liveStart exDB () [exIndex])).db.get (exTable.indexKey exIndex (3, 6)) = none := by
      decide
    cases hm : m [3] with
    | none => rw [h.absent _ hm] at h1; simp at h1
    | some x =>
      obtain ⟨b, hb, hg⟩ := h.present _ _ hm
      rw [h1] at hg
      simp only [Option.some.injEq] at hg
      subst hg
      have hx : x = (3, 6) := by
        obtain ⟨a, g⟩ := x
        simp only [exTable, Option.some.injEq, List.cons.injEq, and_true] at hb
        simp [hb]
      subst hx
      have := (h.index exIndex (by simp [exTable]) _ [] (inSpace_indexKey exTable exIndex (3, 6))).2 ⟨rfl, [3], (3, 6), hm, rfl, rfl⟩
      rw [h2] at this
      simp at this

end Bond
