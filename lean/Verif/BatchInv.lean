import Verif.BatchLocal
/-
Invariant of interleaved batches: every open batch holds what it would hold if it were filled now.
-/
namespace Bond
open Spec
variable {T F : Type}

/-- a condition on a call and what it sees that depends only on the rows with the keys of the call, and that implies that
UnsafeUpdate is given stored rows only -/
structure LocalCond (t : Table T F) (Q : Env T → KV → WCall T → Prop) : Prop where
  congr : ∀ env V W c, (∀ k ∈ c.keys t, V.get k = W.get k) → Q env V c → Q env W c
  stored : ∀ env V c, Q env V c → StoredOld t V c

/-- every call is allowed while the batch is filled -/
def FillOK (t : Table T F) (rw : Bool) (Q : Env T → KV → WCall T → Prop) (db : KV) :
    Filling F → List ((Env T × WCall T) ⊕ List WOp) → Prop
  | _, [] => True
  | s, .inl (env, c) :: l => (env.OK t ∧ Q env (db.apply s.ops) c) ∧ FillOK t rw Q db (fill1 t rw db s (.inl (env, c))) l
  | s, .inr ops :: l => OutsideOps t ops ∧ FillOK t rw Q db (fill1 t rw db s (.inr ops)) l

theorem fillOK_snoc {t : Table T F} {rw : Bool} {Q : Env T → KV → WCall T → Prop} {db : KV} {x : (Env T × WCall T) ⊕ List WOp}
    (l : List ((Env T × WCall T) ⊕ List WOp)) : ∀ {s : Filling F}, FillOK t rw Q db s l →
    FillOK t rw Q db (l.foldl (fill1 t rw db) s) [x] → FillOK t rw Q db s (l ++ [x]) := by
  induction l with
  | nil => intro s _ h; exact h
  | cons y l ih =>
    intro s h hx
    rcases y with ⟨env, c⟩ | ops
    · exact ⟨h.1, ih h.2 hx⟩
    · exact ⟨h.1, ih h.2 hx⟩

theorem covOps_outside {t : Table T F} {f : F} {ops : List WOp} (h : OutsideOps t ops) : CovOps t f ops :=
  fun _ _ pk _ hm => absurd (inSpace_dataKey t.id pk) (h _ hm (dataKey t.id pk) rfl).1

theorem keyedOps_outside {t : Table T F} {Q : Bytes → WOp → Prop} {ops : List WOp} (h : OutsideOps t ops) : KeyedOps t Q ops :=
  fun o ho pk ht => absurd (inSpace_dataKey t.id pk) (h o ho _ ht).1

theorem get_outside {t : Table T F} {ops : List WOp} (h : OutsideOps t ops) (db : KV) {k : Bytes} (hk : ¬ Outside t k) :
    (db.apply ops).get k = db.get k := get_apply_of_not_touch _ _ _ (fun o ho ht => hk (h o ho k ht))

theorem keys_noFilter (t : Table T F) (c : WCall T) : c.keys t.noFilter = c.keys t := by cases c <;> rfl

/-- the same call on the same batch, over two databases with the same rows at its keys, and with two filters that cover them -/
theorem run_same2 {t : Table T F} (wf : t.WF) (fs : t.FilterSound) {env : Env T} (ok : env.OK t) {db1 db2 : KV} {f1 f2 : F}
    {rw : Bool} {pre : List WOp} {c : WCall T} (h : ∀ k ∈ c.keys t, db1.get k = db2.get k) (c1 : CovKV t f1 db1)
    (o1 : CovOps t f1 pre) (u1 : StoredOld t (db1.apply pre) c) (c2 : CovKV t f2 db2) (o2 : CovOps t f2 pre)
    (u2 : StoredOld t (db2.apply pre) c) :
    (t.run env db1 f1 (some ⟨rw, pre⟩) c).batch = (t.run env db2 f2 (some ⟨rw, pre⟩) c).batch ∧
    (t.run env db1 f1 (some ⟨rw, pre⟩) c).err = (t.run env db2 f2 (some ⟨rw, pre⟩) c).err := by
  obtain ⟨_, _, _, _, h1⟩ := run_onBatch wf fs ok (rw := rw) c1 o1 u1
  obtain ⟨_, _, _, _, h2⟩ := run_onBatch wf fs ok (rw := rw) c2 o2 u2
  have ok0 : env.OK t.noFilter := ⟨ok.order, ok.sort_perm, ok.sort_sorted⟩
  obtain ⟨a, _, b⟩ := run_local (t := t.noFilter) ok0 (c := c) (by rw [keys_noFilter]; exact h) ⟨rw, pre⟩ f1
  exact ⟨(h1 f1).2.1.trans (a.trans (h2 f1).2.1.symm), (h1 f1).2.2.1.trans (b.trans (h2 f1).2.2.1.symm)⟩

theorem fill_same {t : Table T F} (wf : t.WF) (fs : t.FilterSound) {Q : Env T → KV → WCall T → Prop} (hQ : LocalCond t Q)
    {db1 db2 : KV} {rw : Bool} (l : List ((Env T × WCall T) ⊕ List WOp)) : ∀ {s1 s2 : Filling F},
    (∀ k ∈ askedKeys t l, db1.get k = db2.get k) → FillOK t rw Q db1 s1 l → s1.ops = s2.ops → s1.res = s2.res →
    CovKV t s1.filt db1 → CovOps t s1.filt s1.ops → CovKV t s2.filt db2 → CovOps t s2.filt s2.ops →
    (l.foldl (fill1 t rw db1) s1).ops = (l.foldl (fill1 t rw db2) s2).ops ∧
    (l.foldl (fill1 t rw db1) s1).res = (l.foldl (fill1 t rw db2) s2).res ∧ FillOK t rw Q db2 s2 l ∧
    FiltLe t s2.filt (l.foldl (fill1 t rw db2) s2).filt ∧
    CovOps t (l.foldl (fill1 t rw db2) s2).filt (l.foldl (fill1 t rw db2) s2).ops := by
  induction l with
  | nil => intro s1 s2 _ _ e1 e2 _ _ _ h; exact ⟨e1, e2, trivial, filtLe_refl t _, h⟩
  | cons x l ih =>
    intro s1 s2 hk hok e1 e2 c1 o1 c2 o2
    rcases x with ⟨env, c⟩ | ops
    · obtain ⟨⟨ok, hq⟩, hok⟩ := hok
      have hkc : ∀ k ∈ c.keys t, db1.get k = db2.get k := fun k h => hk k (List.mem_append_left _ h)
      have hq2 : Q env (db2.apply s2.ops) c := by
        refine hQ.congr env _ _ c (fun k h => ?_) hq
        rw [e1]; exact get_apply_congr (hkc k h) _
      obtain ⟨a1, a2, a3, a4, _⟩ := run_onBatch wf fs ok (rw := rw) c1 o1 (hQ.stored _ _ _ hq)
      obtain ⟨b1, b2, b3, b4, _⟩ := run_onBatch wf fs ok (rw := rw) c2 o2 (hQ.stored _ _ _ hq2)
      have o1' := o1
      have hq1 := hQ.stored _ _ _ hq
      rw [e1] at o1' hq1
      obtain ⟨d1, d2⟩ := run_same2 wf fs ok (rw := rw) (pre := s2.ops) hkc c1 o1' hq1 c2 o2 (hQ.stored _ _ _ hq2)
      rw [← e1] at d1 d2
      have h' := ih (s1 := fill1 t rw db1 s1 (.inl (env, c))) (s2 := fill1 t rw db2 s2 (.inl (env, c)))
        (fun k h => hk k (List.mem_append_right _ h)) hok (by simp only [fill1, WOut.batchOps]; rw [← e1, d1])
        (by simp only [fill1]; rw [e2, ← e1, d2]) (c1.mono a4) a3 (c2.mono b4) b3
      exact ⟨h'.1, h'.2.1, ⟨⟨ok, hq2⟩, h'.2.2.1⟩, FiltLe.trans b4 h'.2.2.2.1, h'.2.2.2.2⟩
    · obtain ⟨ho, hok⟩ := hok
      have h' := ih (s1 := fill1 t rw db1 s1 (.inr ops)) (s2 := fill1 t rw db2 s2 (.inr ops))
        (fun k h => hk k (List.mem_append_right _ h)) hok (by simp only [fill1]; rw [e1]) e2 c1 (o1.append (covOps_outside ho)) c2
        (o2.append (covOps_outside ho))
      exact ⟨h'.1, h'.2.1, ⟨ho, h'.2.2.1⟩, h'.2.2.2.1, h'.2.2.2.2⟩

/-- filling a batch writes only rows with the keys of its calls -/
theorem fill_keyed {t : Table T F} (wf : t.WF) (fs : t.FilterSound) {Q : Env T → KV → WCall T → Prop} (hQ : LocalCond t Q)
    {db : KV} {rw : Bool} {K : Bytes → Prop} (l : List ((Env T × WCall T) ⊕ List WOp)) : ∀ {s : Filling F},
    (∀ k ∈ askedKeys t l, K k) → FillOK t rw Q db s l → CovKV t s.filt db → CovOps t s.filt s.ops →
    KeyedOps t (fun k _ => K k) s.ops → KeyedOps t (fun k _ => K k) (l.foldl (fill1 t rw db) s).ops := by
  induction l with
  | nil => intro s _ _ _ _ h; exact h
  | cons x l ih =>
    intro s hk hok hc ho h
    rcases x with ⟨env, c⟩ | ops
    · obtain ⟨⟨ok, hq⟩, hok⟩ := hok
      obtain ⟨⟨l', a1, a1'⟩, a2, a3, a4, _⟩ := run_onBatch wf fs ok (rw := rw) hc ho (hQ.stored _ _ _ hq)
      refine ih (s := fill1 t rw db s (.inl (env, c))) (fun k h => hk k (List.mem_append_right _ h)) hok (hc.mono a4) a3 ?_
      simp only [fill1]
      rw [a1]
      exact h.append (fun o ho pk ht => hk _ (List.mem_append_left _ (a1' o ho pk ht)))
    · obtain ⟨ho', hok⟩ := hok
      exact ih (s := fill1 t rw db s (.inr ops)) (fun k h => hk k (List.mem_append_right _ h)) hok hc
        (ho.append (covOps_outside ho')) (h.append (keyedOps_outside ho'))

/-- what is in an open batch is what filling it now would give -/
structure Slot (t : Table T F) (rw : Bool) (Q : Env T → KV → WCall T → Prop) (db : KV) (f : F)
    (asked : List ((Env T × WCall T) ⊕ List WOp)) (b : OpenBatch T) : Prop where
  ops : (fill t rw db f asked).ops = b.ops
  res : (fill t rw db f asked).res = b.res
  ok : FillOK t rw Q db ⟨[], f, []⟩ asked

theorem covOps_nil (t : Table T F) (f : F) : CovOps t f [] := by intro fl _ pk v hm; simp at hm

theorem Slot.frame {t : Table T F} (wf : t.WF) (fs : t.FilterSound) {Q : Env T → KV → WCall T → Prop} (hQ : LocalCond t Q)
    {rw : Bool} {db db' : KV} {f f' : F} {asked : List ((Env T × WCall T) ⊕ List WOp)} {b : OpenBatch T}
    (h : Slot t rw Q db f asked b) (hc : CovKV t f db) (hc' : CovKV t f' db') (hk : ∀ k ∈ askedKeys t asked, db.get k = db'.get k) :
    Slot t rw Q db' f' asked b := by
  obtain ⟨a, b, c, _⟩ := fill_same wf fs hQ (db1 := db) (db2 := db') (rw := rw) asked (s1 := ⟨[], f, []⟩) (s2 := ⟨[], f', []⟩) hk h.ok rfl rfl hc
    (covOps_nil t f) hc' (covOps_nil t f')
  exact ⟨a.symm.trans h.ops, b.symm.trans h.res, c⟩

theorem Slot.new (t : Table T F) (rw : Bool) (Q : Env T → KV → WCall T → Prop) (db : KV) (f : F) :
    Slot t rw Q db f [] OpenBatch.new := ⟨rfl, rfl, trivial⟩

/-- the interleaved run and the run with everything done at the commits -/
structure BInv (t : Table T F) (rw : Nat → Bool) (Q : Env T → KV → WCall T → Prop) (w : BatchWorld T F) (s : AtCommit T F) : Prop where
  db : w.db = s.db
  log : w.log = s.log
  asked : ∀ j, (w.bats j).done = s.asked j
  covW : CovKV t w.filt w.db
  covS : CovKV t s.filt s.db
  covB : ∀ j, CovOps t w.filt (w.bats j).ops
  slot : ∀ j, Slot t (rw j) Q s.db s.filt (s.asked j) (w.bats j)
  apart : ∀ i j, i ≠ j → ∀ k ∈ askedKeys t (s.asked i), k ∉ askedKeys t (s.asked j)

theorem askedKeys_snoc (t : Table T F) (l : List ((Env T × WCall T) ⊕ List WOp)) (x : (Env T × WCall T) ⊕ List WOp) :
    askedKeys t (l ++ [x]) = askedKeys t l ++ askedKeys t [x] := by simp [askedKeys]

theorem askedKeys_data {t : Table T F} {l : List ((Env T × WCall T) ⊕ List WOp)} {k : Bytes} (h : k ∈ askedKeys t l) :
    ∃ pk, k = dataKey t.id pk := by
  obtain ⟨x, _, hx⟩ := List.mem_flatMap.1 h
  rcases x with ⟨env, c⟩ | ops
  · exact keys_data hx
  · simp at hx

theorem setBat_same {α : Type} (a : Nat → α) (j : Nat) (x : α) : setBat a j x j = x := by simp [setBat]
theorem setBat_other {α : Type} (a : Nat → α) {i j : Nat} (x : α) (h : i ≠ j) : setBat a j x i = a i := by simp [setBat, h]

theorem BInv.start {t : Table T F} {rw : Nat → Bool} {Q : Env T → KV → WCall T → Prop} {db : KV} {f : F} (hc : CovKV t f db) :
    BInv t rw Q (BatchWorld.start db f) ⟨db, f, fun _ => [], []⟩ :=
  ⟨rfl, rfl, fun _ => rfl, hc, hc, fun _ => covOps_nil t f, fun _ => Slot.new _ _ _ _ _, by intro i j _ k hk; simp [askedKeys] at hk⟩

theorem BInv.fills {t : Table T F} (wf : t.WF) (fs : t.FilterSound) {rw : Nat → Bool} {Q : Env T → KV → WCall T → Prop}
    (hQ : LocalCond t Q) {w : BatchWorld T F} {s : AtCommit T F} (h : BInv t rw Q w s) (j : Nat) :
    FiltLe t s.filt (fill t (rw j) s.db s.filt (s.asked j)).filt ∧
    CovOps t (fill t (rw j) s.db s.filt (s.asked j)).filt (w.bats j).ops ∧
    KeyedOps t (fun k _ => k ∈ askedKeys t (s.asked j)) (w.bats j).ops := by
  obtain ⟨_, _, _, a, b⟩ := fill_same wf fs hQ (db1 := s.db) (db2 := s.db) (rw := rw j) (s.asked j) (s1 := ⟨[], s.filt, []⟩) (s2 := ⟨[], s.filt, []⟩)
    (fun _ _ => rfl) (h.slot j).ok rfl rfl h.covS (covOps_nil t _) h.covS (covOps_nil t _)
  have c := fill_keyed wf fs hQ (K := fun k => k ∈ askedKeys t (s.asked j)) (s.asked j) (fun _ h => h) (h.slot j).ok h.covS (covOps_nil t _)
    (keyedOps_nil t _)
  rw [show ((s.asked j).foldl (fill1 t (rw j) s.db) ⟨[], s.filt, []⟩).ops = (w.bats j).ops from (h.slot j).ops] at b c
  exact ⟨a, b, c⟩

theorem BInv.step {t : Table T F} (wf : t.WF) (fs : t.FilterSound) {rw : Nat → Bool} {Q : Env T → KV → WCall T → Prop}
    (hQ : LocalCond t Q) {w : BatchWorld T F} {s : AtCommit T F} (h : BInv t rw Q w s) {x : BatchStep T} (hx : Allowed t Q w x) :
    BInv t rw Q (t.batchStep rw w x) (atCommit1 t rw s x) := by
  cases x with
  | call j env c =>
    obtain ⟨ok, hq, hd⟩ := hx
    obtain ⟨g1, g2, _⟩ := h.fills wf fs hQ j
    obtain ⟨a1, a2, a3, a4, _⟩ := run_onBatch wf fs ok (rw := rw j) h.covW (h.covB j) (hQ.stored _ _ _ hq)
    have hq' : Q env (s.db.apply (w.bats j).ops) c := h.db ▸ hq
    obtain ⟨e1, e2⟩ := run_same2 wf fs ok (rw := rw j) (c := c) (fun k _ => by rw [h.db]) h.covW (h.covB j) (hQ.stored _ _ _ hq)
      (h.covS.mono g1) g2 (hQ.stored _ _ _ hq')
    have hfill : fill t (rw j) s.db s.filt (s.asked j ++ [.inl (env, c)]) =
        fill1 t (rw j) s.db (fill t (rw j) s.db s.filt (s.asked j)) (.inl (env, c)) := by
      simp only [fill, List.foldl_append, List.foldl_cons, List.foldl_nil]
    refine ⟨h.db, h.log, ?_, h.covW.mono a4, h.covS, ?_, ?_, ?_⟩
    · intro i
      simp only [Table.batchStep, atCommit1]
      by_cases e : i = j
      · subst e; rw [setBat_same, setBat_same, h.asked]
      · rw [setBat_other _ _ e, setBat_other _ _ e]; exact h.asked i
    · intro i
      simp only [Table.batchStep]
      by_cases e : i = j
      · subst e; rw [setBat_same]; exact a3
      · rw [setBat_other _ _ e]; exact (h.covB i).mono a4
    · intro i
      simp only [Table.batchStep, atCommit1]
      by_cases e : i = j
      · subst e
        rw [setBat_same, setBat_same]
        refine ⟨?_, ?_, fillOK_snoc _ (h.slot i).ok ⟨⟨ok, ?_⟩, trivial⟩⟩
        · rw [hfill]
          simp only [fill1, (h.slot i).ops]
          unfold WOut.batchOps
          rw [e1]
        · rw [hfill]
          simp only [fill1, (h.slot i).ops, (h.slot i).res]
          rw [e2]
        · rw [show ((s.asked i).foldl (fill1 t (rw i) s.db) ⟨[], s.filt, []⟩).ops = (w.bats i).ops from (h.slot i).ops]
          exact hq'
      · rw [setBat_other _ _ e, setBat_other _ _ e]; exact h.slot i
    · intro i i' hne k hk
      simp only [atCommit1] at hk ⊢
      by_cases e : i = j
      · subst e
        rw [setBat_same, askedKeys_snoc] at hk
        rw [setBat_other _ _ (Ne.symm hne)]
        rcases List.mem_append.1 hk with hk | hk
        · exact h.apart i i' hne k hk
        · have hk : k ∈ c.keys t := by simpa [askedKeys] using hk
          have := hd i' (Ne.symm hne) k hk
          rw [h.asked] at this; exact this
      · rw [setBat_other _ _ e] at hk
        by_cases e' : i' = j
        · subst e'
          rw [setBat_same, askedKeys_snoc]
          intro hk'
          rcases List.mem_append.1 hk' with hk' | hk'
          · exact h.apart i i' hne k hk hk'
          · have hk' : k ∈ c.keys t := by simpa [askedKeys] using hk'
            have := hd i hne k hk'
            rw [h.asked] at this; exact this hk
        · rw [setBat_other _ _ e']; exact h.apart i i' hne k hk
  | put j ops =>
    have hfill : fill t (rw j) s.db s.filt (s.asked j ++ [.inr ops]) =
        fill1 t (rw j) s.db (fill t (rw j) s.db s.filt (s.asked j)) (.inr ops) := by
      simp only [fill, List.foldl_append, List.foldl_cons, List.foldl_nil]
    have hkeys : ∀ i, askedKeys t (setBat s.asked j (s.asked j ++ [.inr ops]) i) = askedKeys t (s.asked i) := by
      intro i
      by_cases e : i = j
      · subst e; rw [setBat_same, askedKeys_snoc]; simp [askedKeys]
      · rw [setBat_other _ _ e]
    refine ⟨h.db, h.log, ?_, h.covW, h.covS, ?_, ?_, ?_⟩
    · intro i
      simp only [Table.batchStep, atCommit1]
      by_cases e : i = j
      · subst e; rw [setBat_same, setBat_same, h.asked]
      · rw [setBat_other _ _ e, setBat_other _ _ e]; exact h.asked i
    · intro i
      simp only [Table.batchStep]
      by_cases e : i = j
      · subst e; rw [setBat_same]; exact (h.covB i).append (covOps_outside hx)
      · rw [setBat_other _ _ e]; exact h.covB i
    · intro i
      simp only [Table.batchStep, atCommit1]
      by_cases e : i = j
      · subst e
        rw [setBat_same, setBat_same]
        refine ⟨?_, ?_, fillOK_snoc _ (h.slot i).ok ⟨hx, trivial⟩⟩
        · rw [hfill]; simp only [fill1, (h.slot i).ops]
        · rw [hfill]; simp only [fill1, (h.slot i).res]
      · rw [setBat_other _ _ e, setBat_other _ _ e]; exact h.slot i
    · intro i i' hne k hk
      simp only [atCommit1] at hk ⊢
      rw [hkeys] at hk ⊢
      exact h.apart i i' hne k hk
  | direct env c =>
    obtain ⟨ok, hq, hd⟩ := hx
    have hq' : Q env s.db c := h.db ▸ hq
    obtain ⟨a1, a2, a3, a4⟩ := run_direct wf fs ok h.covW (hQ.stored _ _ _ hq)
    obtain ⟨b1, b2, b3, b4⟩ := run_direct wf fs ok h.covS (hQ.stored _ _ _ hq')
    have hsame : SameOut (t.run env w.db w.filt none c) (t.run env s.db s.filt none c) := by
      refine (a4 w.filt).trans ?_
      rw [h.db]
      exact (b4 w.filt).symm
    refine ⟨hsame.1, ?_, h.asked, a1, b1, fun j => (h.covB j).mono a2, fun j => ?_, h.apart⟩
    · simp only [Table.batchStep, atCommit1]; rw [h.log, hsame.2.2.1]
    · refine (h.slot j).frame wf fs hQ h.covS b1 (fun k hk => ?_)
      obtain ⟨pk, rfl⟩ := askedKeys_data hk
      refine (b3 pk (fun hc => ?_)).symm
      have := hd j _ hc
      rw [h.asked] at this
      exact this hk
  | others ops =>
    have hg : ∀ (db : KV) (k : Bytes), (∃ pk, k = dataKey t.id pk) → (db.apply ops).get k = db.get k := by
      rintro db k ⟨pk, rfl⟩
      exact get_outside hx db (fun ho => ho.1 (inSpace_dataKey t.id pk))
    have hcov : ∀ {f : F} {db : KV}, CovKV t f db → CovKV t f (db.apply ops) := by
      intro f db hc fl hfl pk hs
      rw [hg db _ ⟨pk, rfl⟩] at hs
      exact hc fl hfl pk hs
    refine ⟨?_, h.log, h.asked, hcov h.covW, hcov h.covS, h.covB, fun j => ?_, h.apart⟩
    · simp only [Table.batchStep, atCommit1]; rw [h.db]
    · exact (h.slot j).frame wf fs hQ h.covS (hcov h.covS) (fun k hk => (hg s.db k (askedKeys_data hk)).symm)
  | commit j okc =>
    obtain ⟨g1, g2, g3⟩ := h.fills wf fs hQ j
    have hops := (h.slot j).ops
    have hres := (h.slot j).res
    have hget : ∀ i, i ≠ j → ∀ k ∈ askedKeys t (s.asked i), s.db.get k = (Batch.commit okc s.db ⟨rw j, (w.bats j).ops⟩).1.get k := by
      intro i hi k hk
      obtain ⟨pk, rfl⟩ := askedKeys_data hk
      unfold Batch.commit
      split
      · rfl
      · split
        · exact (get_apply_of_not_touch _ _ _ (fun o ho ht => h.apart i j hi _ hk (g3 o ho pk ht))).symm
        · rfl
    have hcov : ∀ {f : F} {db : KV}, CovKV t f db → CovOps t f (w.bats j).ops →
        CovKV t f (Batch.commit okc db ⟨rw j, (w.bats j).ops⟩).1 := by
      intro f db hc ho
      unfold Batch.commit
      split
      · exact hc
      · split
        · exact covKV_apply _ hc ho
        · exact hc
    have hcovS := hcov (h.covS.mono g1) g2
    refine ⟨?_, ?_, ?_, hcov h.covW (h.covB j), ?_, ?_, ?_, ?_⟩
    · simp only [Table.batchStep, atCommit1]; rw [hops, h.db]
    · simp only [Table.batchStep, atCommit1]; rw [hops, hres, h.db, h.log]
    · intro i
      simp only [Table.batchStep, atCommit1]
      by_cases e : i = j
      · subst e; rw [setBat_same, setBat_same]; rfl
      · rw [setBat_other _ _ e, setBat_other _ _ e]; exact h.asked i
    · simp only [atCommit1]; rw [hops]; exact hcovS
    · intro i
      simp only [Table.batchStep]
      by_cases e : i = j
      · subst e; rw [setBat_same]; exact covOps_nil t _
      · rw [setBat_other _ _ e]; exact h.covB i
    · intro i
      simp only [Table.batchStep, atCommit1]
      by_cases e : i = j
      · subst e; rw [setBat_same, setBat_same]; exact Slot.new _ _ _ _ _
      · rw [setBat_other _ _ e, setBat_other _ _ e, hops]
        exact (h.slot i).frame wf fs hQ h.covS hcovS (hget i e)
    · intro i i' hne k hk
      simp only [atCommit1] at hk ⊢
      by_cases e : i = j
      · subst e; rw [setBat_same] at hk; simp [askedKeys] at hk
      · rw [setBat_other _ _ e] at hk
        by_cases e' : i' = j
        · subst e'; rw [setBat_same]; simp [askedKeys]
        · rw [setBat_other _ _ e']; exact h.apart i i' hne k hk
  | drop j =>
    refine ⟨h.db, h.log, ?_, h.covW, h.covS, ?_, ?_, ?_⟩
    · intro i
      simp only [Table.batchStep, atCommit1]
      by_cases e : i = j
      · subst e; rw [setBat_same, setBat_same]; rfl
      · rw [setBat_other _ _ e, setBat_other _ _ e]; exact h.asked i
    · intro i
      simp only [Table.batchStep]
      by_cases e : i = j
      · subst e; rw [setBat_same]; exact covOps_nil t _
      · rw [setBat_other _ _ e]; exact h.covB i
    · intro i
      simp only [Table.batchStep, atCommit1]
      by_cases e : i = j
      · subst e; rw [setBat_same, setBat_same]; exact Slot.new _ _ _ _ _
      · rw [setBat_other _ _ e, setBat_other _ _ e]; exact h.slot i
    · intro i i' hne k hk
      simp only [atCommit1] at hk ⊢
      by_cases e : i = j
      · subst e; rw [setBat_same] at hk; simp [askedKeys] at hk
      · rw [setBat_other _ _ e] at hk
        by_cases e' : i' = j
        · subst e'; rw [setBat_same]; simp [askedKeys]
        · rw [setBat_other _ _ e']; exact h.apart i i' hne k hk

theorem BInv.run {t : Table T F} (wf : t.WF) (fs : t.FilterSound) {rw : Nat → Bool} {Q : Env T → KV → WCall T → Prop}
    (hQ : LocalCond t Q) (l : List (BatchStep T)) : ∀ {w : BatchWorld T F} {s : AtCommit T F}, BInv t rw Q w s →
    Isolated t rw Q w l → BInv t rw Q (t.batchRun rw w l) (l.foldl (atCommit1 t rw) s) := by
  induction l with
  | nil => intro w s h _; exact h
  | cons x l ih => intro w s h hi; exact ih (h.step wf fs hQ hi.1) hi.2

end Bond
