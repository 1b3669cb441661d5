import Verif.Spec.TransactionReads
import Verif.Props.Transactions
/-
C104: what a transaction reads fits the order in which the transactions are carried out.
-/
namespace Bond
open Spec
variable {T F : Type}

/-- what is known about the past of the tasks that have not ended -/
structure TxPast (t : Table T F) (ks : List (Task T)) (db0 : KV) (f0 : F) (w : TxWorld T F) : Prop where
  base : ∀ (i : Nat) (th : TxThread T F), w.threads[i]? = some th → th.ended = false → ∀ pk,
    (∀ j k, j ≠ i → ks[j]? = some k → dataKey t.id pk ∉ taskKeys t k) → w.db.get (dataKey t.id pk) = db0.get (dataKey t.id pk)
  past : ∀ (i : Nat) (th : TxThread T F) (k : Task T), w.threads[i]? = some th → ks[i]? = some k → th.ended = false →
    ∃ as, t.taskActs k = as ++ th.acts ∧
      SameTx t (taskKeys t k) w.filt (execTx as db0 f0 t.txSt0).2 th.st (execTx as db0 f0 t.txSt0).1

theorem TxPast.start (t : Table T F) (ks : List (Task T)) (db0 : KV) (f0 : F) : TxPast t ks db0 f0 (t.txWorld db0 f0 ks) := by
  refine ⟨fun _ _ _ _ _ _ => rfl, ?_⟩
  intro i th k hth hk _
  simp only [Table.txWorld, List.getElem?_map, hk, Option.map_some, Option.some.injEq] at hth
  subst hth
  exact ⟨[], rfl, sameTx0 t _ f0 f0⟩

theorem TxPast.step {t : Table T F} (wf : t.WF) (fs : t.FilterSound) {ks : List (Task T)} (hs : Separate t ks) {db0 : KV} {f0 : F}
    (hc : CovKV t f0 db0) {w : TxWorld T F} {s : BatchWorld T F} (h : TxInv t ks db0 f0 w s) (p : TxPast t ks db0 f0 w)
    (x : Nat ⊕ List WOp) (ho : ∀ ops, x = .inr ops → OutsideOps t ops) : TxPast t ks db0 f0 (w.step t x) := by
  rcases x with i | ops
  · cases hth : w.threads[i]? with
    | none =>
      have : w.step t (.inl i) = w := by simp only [TxWorld.step, hth]
      rw [this]; exact p
    | some th =>
      have hi : i < w.threads.length := (List.getElem?_eq_some_iff.1 hth).1
      cases he : th.ended with
      | true =>
        have : w.step t (.inl i) = w := by simp only [TxWorld.step, hth, he, if_true]
        rw [this]; exact p
      | false =>
        obtain ⟨k, hk⟩ : ∃ k, ks[i]? = some k := ⟨_, List.getElem?_eq_getElem (h.len ▸ hi)⟩
        have hr := h.run i th k hth hk he
        cases ha : th.acts with
        | nil =>
          have hstep : w.step t (.inl i) = { w with db := (t.taskEnd i w.db w.filt th.st th.task).1, threads := w.threads.set i { th with ended := true }, log := w.log ++ [.inl i], outs := w.outs ++ (t.taskEnd i w.db w.filt th.st th.task).2 } := by
            simp only [TxWorld.step, hth, he, ha, Bool.false_eq_true, if_false]
          rw [hstep]
          refine ⟨?_, ?_⟩
          · intro j thj hj hej pk hpk
            simp only at hj ⊢
            by_cases hij : i = j
            · subst hij
              rw [List.getElem?_set_self hi, Option.some.injEq] at hj
              subst hj
              simp at hej
            · rw [List.getElem?_set_ne hij] at hj
              rw [taskEnd_get i w.db w.filt hr.self.keyedPre hr.self.keyedOps _ ⟨pk, rfl⟩ (hpk i k hij hk)]
              exact p.base j thj hj hej pk hpk
          · intro j thj kj hj hkj hej
            simp only at hj ⊢
            by_cases hij : i = j
            · subst hij
              rw [List.getElem?_set_self hi, Option.some.injEq] at hj
              subst hj
              simp at hej
            · rw [List.getElem?_set_ne hij] at hj
              exact p.past j thj kj hj hkj hej
        | cons a as =>
          have hstep : w.step t (.inl i) = { w with filt := (a w.db w.filt th.st).2, threads := w.threads.set i { th with acts := as, st := (a w.db w.filt th.st).1 } } := by
            simp only [TxWorld.step, hth, he, ha, Bool.false_eq_true, if_false]
          have ga := hr.good a (by rw [ha]; simp)
          have hle := ga.filt w.db w.filt th.st
          rw [hstep]
          refine ⟨?_, ?_⟩
          · intro j thj hj hej pk hpk
            simp only at hj ⊢
            by_cases hij : i = j
            · subst hij
              exact p.base i th hth he pk hpk
            · rw [List.getElem?_set_ne hij] at hj
              exact p.base j thj hj hej pk hpk
          · intro j thj kj hj hkj hej
            simp only at hj ⊢
            by_cases hij : i = j
            · subst hij
              rw [List.getElem?_set_self hi, Option.some.injEq] at hj
              subst hj
              rw [hk, Option.some.injEq] at hkj
              subst hkj
              obtain ⟨ds, hd, hsame⟩ := p.past i th k hth hk he
              have hm := List.mem_of_getElem? hk
              have hgood := taskActs_good wf fs (hs.env k hm) (hs.upd.imp id (fun h => h k hm)) (hs.puts k hm)
              have hc' : CovKV t (execTx ds db0 f0 t.txSt0).2 db0 :=
                hc.mono (execTx_filt (fun b hb => hgood b (by rw [hd]; simp [hb])) db0 f0 t.txSt0)
              refine ⟨ds ++ [a], by rw [hd, ha]; simp, ?_⟩
              rw [execTx_append]
              exact ga.same _ _ _ _ _ _ hr.base h.covW hc' hsame
            · rw [List.getElem?_set_ne hij] at hj
              obtain ⟨ds, hd, hsame⟩ := p.past j thj kj hj hkj hej
              exact ⟨ds, hd, hsame.mono hle (filtLe_refl _ _)⟩
  · refine ⟨?_, p.past⟩
    intro i th hth he pk hpk
    simp only [TxWorld.step] at hth ⊢
    rw [get_outside (ho ops rfl) _ (fun hout => hout.1 (inSpace_dataKey t.id pk))]
    exact p.base i th hth he pk hpk

theorem TxInv.step_any {t : Table T F} (wf : t.WF) (fs : t.FilterSound) {ks : List (Task T)} (hs : Separate t ks) {db0 : KV} {f0 : F}
    (hc : CovKV t f0 db0) {w : TxWorld T F} {s : BatchWorld T F} (h : TxInv t ks db0 f0 w s)
    (x : Nat ⊕ List WOp) (ho : ∀ ops, x = .inr ops → OutsideOps t ops) : ∃ s', TxInv t ks db0 f0 (w.step t x) s' :=
  TxInv.run_all wf fs hs hc [x] (fun ops h => ho ops (List.mem_singleton.1 h).symm) h

theorem TxPast.run {t : Table T F} (wf : t.WF) (fs : t.FilterSound) {ks : List (Task T)} (hs : Separate t ks) {db0 : KV} {f0 : F}
    (hc : CovKV t f0 db0) (sched : List (Nat ⊕ List WOp)) (ho : ∀ ops, .inr ops ∈ sched → OutsideOps t ops) :
    ∀ {w : TxWorld T F} {s : BatchWorld T F}, TxInv t ks db0 f0 w s → TxPast t ks db0 f0 w →
      TxPast t ks db0 f0 (w.run t sched) ∧ ∃ s', TxInv t ks db0 f0 (w.run t sched) s' := by
  induction sched with
  | nil => intro w s h p; exact ⟨p, s, h⟩
  | cons x sched ih =>
    intro w s h p
    have hx : ∀ ops, x = .inr ops → OutsideOps t ops := fun ops e => ho ops (by rw [e]; simp)
    obtain ⟨s', h'⟩ := h.step_any wf fs hs hc x hx
    exact ih (fun ops h => ho ops (List.mem_cons.2 (Or.inr h))) h' (p.step wf fs hs hc h x hx)

/-- point reads depend on the row only -/
theorem pointReads_same {t : Table T F} {f1 f2 : F} {db1 db2 : KV} {rw : Bool} {ops : List WOp} {x : T}
    (hg : db1.get (t.key x) = db2.get (t.key x)) (c1 : CovKV t f1 (db1.apply ops)) (c2 : CovKV t f2 (db2.apply ops)) :
    t.getPoint f1 db1 (some ⟨rw, ops⟩) x = t.getPoint f2 db2 (some ⟨rw, ops⟩) x ∧
    t.exist f1 db1 (some ⟨rw, ops⟩) x = t.exist f2 db2 (some ⟨rw, ops⟩) x := by
  have hv : (db1.apply ops).get (t.key x) = (db2.apply ops).get (t.key x) := get_apply_congr hg ops
  have key : ∀ {f : F} {V : KV}, CovKV t f V → t.mayContain f (t.key x) = false → V.get (t.key x) = none := by
    intro f V hc hm
    cases hx : V.get (t.key x) with
    | none => rfl
    | some v =>
      unfold Table.mayContain at hm
      split at hm
      · rename_i fl hfl
        have := hc fl hfl (t.pk x) (by rw [show dataKey t.id (t.pk x) = t.key x from rfl, hx]; rfl)
        rw [show dataKey t.id (t.pk x) = t.key x from rfl, hm] at this
        cases this
      · cases hm
  unfold Table.getPoint Table.getOne Table.exist readable
  cases rw
  · constructor <;> (repeat' split) <;> simp_all
  · simp only [if_true]
    cases h1 : t.mayContain f1 (t.key x) <;> cases h2 : t.mayContain f2 (t.key x) <;> simp only [Bool.not_false, Bool.not_true, if_true, Bool.false_eq_true, if_false]
    · exact ⟨trivial, trivial⟩
    · rw [← hv, key c1 h1]; exact ⟨rfl, rfl⟩
    · rw [hv, key c2 h2]; exact ⟨rfl, rfl⟩
    · rw [hv]; exact ⟨rfl, rfl⟩


/-- the items of the task that are done are the first `n` -/
theorem between_acts {t : Table T F} {rw : Bool} {l : List ((Env T × WCall T) ⊕ List WOp)} {n : Nat} {as : List (TxAct T F)}
    (h : l.flatMap (t.itemActs rw) = as ++ (l.drop n).flatMap (t.itemActs rw)) : as = (l.take n).flatMap (t.itemActs rw) := by
  have : l.flatMap (t.itemActs rw) = (l.take n).flatMap (t.itemActs rw) ++ (l.drop n).flatMap (t.itemActs rw) := by
    rw [← List.flatMap_append, List.take_append_drop]
  rw [h] at this
  exact List.append_cancel_right this

/-- C104 (rows that no other task has): for all tasks, schedules and moments, what a goroutine reads through its batch between two calls is
what it reads at the same place when the tasks are carried out one after the other in the order in which they end. `w2` is any later moment at
which the task has not ended, in particular the last, when `w2.log` has exactly the tasks that come before it. -/
theorem C104_partial {t : Table T F} (wf : t.WF) (fs : t.FilterSound) {ks : List (Task T)} (hs : Separate t ks) {db : KV} {f : F}
    (hc : CovKV t f db) (sched1 sched2 : List (Nat ⊕ List WOp)) (ho : ∀ ops, .inr ops ∈ sched1 ++ sched2 → OutsideOps t ops)
    {i n : Nat} {th : TxThread T F} {rw : Bool} {l : List ((Env T × WCall T) ⊕ List WOp)} {fin : Option Bool}
    (hth : ((t.txWorld db f ks).run t sched1).threads[i]? = some th) (hb : Between t th rw l fin n)
    (hopen : Open ((t.txWorld db f ks).run t (sched1 ++ sched2)) i) (x : T) (hp : Private t ks i x) :
    let w1 := (t.txWorld db f ks).run t sched1
    let w2 := (t.txWorld db f ks).run t (sched1 ++ sched2)
    let s := alone t ks db f w2.log i l n
    w1.get t i x = t.getPoint s.filt s.db (some ⟨rw, (s.bats i).ops⟩) x ∧ w1.exist t i x = t.exist s.filt s.db (some ⟨rw, (s.bats i).ops⟩) x := by
  intro w1 w2 s
  have ho1 : ∀ ops, .inr ops ∈ sched1 → OutsideOps t ops := fun ops h => ho ops (List.mem_append.2 (Or.inl h))
  obtain ⟨p1, s1, h1⟩ := TxPast.run wf fs hs hc sched1 ho1 (TxInv.start wf fs hs hc) (TxPast.start t ks db f)
  obtain ⟨p2, s2, h2⟩ := TxPast.run wf fs hs hc (sched1 ++ sched2) ho (TxInv.start wf fs hs hc) (TxPast.start t ks db f)
  obtain ⟨hb1, hb2, hb3⟩ := hb
  obtain ⟨th2, hth2, he2⟩ := hopen
  have hi : i < w1.threads.length := (List.getElem?_eq_some_iff.1 hth).1
  obtain ⟨k, hk⟩ : ∃ k, ks[i]? = some k := ⟨_, List.getElem?_eq_getElem (h1.len ▸ hi)⟩
  have hr := h1.run i th k hth hk hb3
  have hr2 := h2.run i th2 k hth2 hk he2
  have hkk : k = .batch rw l fin := hr.task.symm.trans hb1
  obtain ⟨as, ha, hsame⟩ := p1.past i th k hth hk hb3
  have hm := List.mem_of_getElem? hk
  have hgood := taskActs_good wf fs (hs.env k hm) (hs.upd.imp id (fun h => h k hm)) (hs.puts k hm)
  have has : as = (l.take n).flatMap (t.itemActs rw) := by
    rw [hkk, hb2] at ha
    exact between_acts ha
  have hgood' : ∀ a ∈ as, GoodTx t (taskKeys t k) a := fun a h => hgood a (by rw [ha]; simp [h])
  have hrw : taskRw ks i = rw := by simp [taskRw, hk, hkk]
  -- the items alone, on the database of the later moment
  have hsame2 := execTx_same hgood' (db1 := db) (db2 := s2.db) (fun x hx => by rw [← h2.db]; exact (hr2.base x hx).symm) hc h2.covS
    (sameTx0 t (taskKeys t k) f s2.filt)
  have hs' : s = t.batchRun (taskRw ks) s2 ((l.take n).map (itemStep i)) := by
    show t.batchRun _ _ (_ ++ _) = _
    rw [batchRun_append, ← h2.seq]
  obtain ⟨d, hd⟩ := execTx_items t (taskRw ks) i (l.take n) s2
  rw [h2.bats i, show (OpenBatch.new (T := T)).ops = [] from rfl, show (OpenBatch.new (T := T)).res = [] from rfl, hrw, ← has,
    show (⟨[], t.loc0, none, []⟩ : TxSt T) = t.txSt0 from rfl, ← hs'] at hd
  have hpre : (s.bats i).ops = th.st.pre := by
    rw [hd]
    simp only [setBat_same]
    exact (hsame.pre.trans hsame2.pre).symm
  have hsdb : s.db = s2.db := by rw [hd]
  have hsf : s.filt = (execTx as s2.db s2.filt t.txSt0).2 := by rw [hd]
  have hpriv : ∀ j k', j ≠ i → ks[j]? = some k' → dataKey t.id (t.pk x) ∉ taskKeys t k' := hp
  have hg : w1.db.get (t.key x) = s.db.get (t.key x) := by
    rw [hsdb, ← h2.db]
    exact (p1.base i th hth hb3 (t.pk x) hpriv).trans (p2.base i th2 hth2 he2 (t.pk x) hpriv).symm
  have hob : w1.threads[i]?.bind TxThread.batch = some ⟨rw, th.st.pre⟩ := by
    rw [hth, Option.bind_some, TxThread.batch, hb1]
  show t.getPoint w1.filt w1.db (w1.threads[i]?.bind TxThread.batch) x = _ ∧ t.exist w1.filt w1.db (w1.threads[i]?.bind TxThread.batch) x = _
  rw [hob, hpre]
  refine pointReads_same hg (covKV_apply _ h1.covW hr.self.covPre1) ?_
  rw [hsdb, hsf]
  refine covKV_apply _ (h2.covS.mono (execTx_filt hgood' _ _ _)) ?_
  rw [hsame.pre, hsame2.pre]
  have := hsame2.covPre2
  rw [hsame2.pre] at this
  exact this

/-- the hypotheses of `C104_partial` hold, with the tasks of C94: the first has changed row 1 and reads it again, before its end the others
have ended -/
example : ∃ th, ((exTable.txWorld exDB () exTasks).run exTable (exTxSched.take 8)).threads[0]? = some th ∧
    Between exTable th true [.inl (stdEnv exTable, .update [(1, 7)]), .inl (stdEnv exTable, .insert [(3, 3)]), .inr [.set [9] [9]],
      .inl (stdEnv exTable, .update [(3, 5)])] (some true) 1 ∧
    Open ((exTable.txWorld exDB () exTasks).run exTable (exTxSched.take 8 ++ (exTxSched.drop 8).take 15)) 0 ∧
    Private exTable exTasks 0 (1, 0) ∧
    ((exTable.txWorld exDB () exTasks).run exTable (exTxSched.take 8)).get exTable 0 (1, 0) = .ok (1, 7) ∧
    ((exTable.txWorld exDB () exTasks).run exTable (exTxSched.take 8 ++ (exTxSched.drop 8).take 15)).log =
      [.inr [.set [8] [8]], .inl 2, .inl 1] := by
  refine ⟨_, rfl, ⟨rfl, rfl, rfl⟩, ⟨_, rfl, rfl⟩, ?_, by decide, by decide⟩
  intro j k hj hk
  match j, hj, hk with
  | 1, _, hk => simp only [exTasks, List.getElem?_cons_succ, List.getElem?_cons_zero, Option.some.injEq] at hk; subst hk; decide
  | 2, _, hk => simp only [exTasks, List.getElem?_cons_succ, List.getElem?_cons_zero, Option.some.injEq] at hk; subst hk; decide
  | j + 3, _, hk => simp [exTasks] at hk

/-- C104 (without batch): for all tasks, schedules and moments, Get and Exist without a batch answer as after carrying out one by one the tasks
that have ended, whatever the others are in the middle of. -/
theorem C104_direct {t : Table T F} (wf : t.WF) (fs : t.FilterSound) {ks : List (Task T)} (hs : Separate t ks) {db : KV} {f : F}
    (hc : CovKV t f db) (sched : List (Nat ⊕ List WOp)) (ho : ∀ ops, .inr ops ∈ sched → OutsideOps t ops) (x : T) :
    let w := (t.txWorld db f ks).run t sched
    let s := t.batchRun (taskRw ks) (BatchWorld.start db f) (oneByOne ks w.log)
    t.getPoint w.filt w.db none x = t.getPoint s.filt s.db none x ∧ t.exist w.filt w.db none x = t.exist s.filt s.db none x := by
  obtain ⟨s, h⟩ := TxInv.run_all wf fs hs hc sched ho (TxInv.start wf fs hs hc)
  intro w s'
  have hs' : s' = s := h.seq.symm
  have hv : ∀ (f : F) (db : KV), t.getPoint f db none x = t.getPoint f db (some ⟨true, []⟩) x ∧ t.exist f db none x = t.exist f db (some ⟨true, []⟩) x :=
    fun _ _ => ⟨rfl, rfl⟩
  rw [hs', (hv w.filt w.db).1, (hv w.filt w.db).2, (hv s.filt s.db).1, (hv s.filt s.db).2]
  exact pointReads_same (by rw [h.db]) h.covW h.covS

/-- a transaction that reads while it is open, and one that changes two rows; the first puts a write outside the table into its batch -/
def exReaders : List (Task Rec) :=
  [.batch true [.inr [.set [9] [9]]] (some true),
   .batch true [.inl (stdEnv exTable, .update [(1, 7), (2, 8)])] (some true)]

/-- the second transaction from its start to its commit -/
def exReadSched : List (Nat ⊕ List WOp) := List.replicate 6 (.inl 1)

/-- C104 is false for rows that others change: a transaction reads row 1 before another is committed, and row 2 after it. It gets the old
row 1 and the new row 2: half of what the other has changed. Done one after the other, in either order, it gets both old or both new. -/
theorem C104_refuted :
    let w0 := exTable.txWorld exDB () exReaders
    let w1 := w0.run exTable exReadSched
    (w0.threads[0]?.map (fun th => th.acts.length)) = some 1 ∧ (w1.threads[0]?.map (fun th => th.ended)) = some false ∧
    w1.outs = [.commit 1 [none] none] ∧
    w0.get exTable 0 (1, 0) = .ok (1, 5) ∧ w1.get exTable 0 (2, 0) = .ok (2, 8) ∧
    exTable.getPoint () (alone exTable exReaders exDB () [] 0 [] 0).db none (2, 0) = .ok (2, 6) ∧
    exTable.getPoint () (alone exTable exReaders exDB () [.inl 1] 0 [] 0).db none (1, 0) = .ok (1, 7) := by
  decide

/-- the same read twice gives different answers -/
theorem C104_refuted_again :
    let w0 := exTable.txWorld exDB () exReaders
    let w1 := w0.run exTable exReadSched
    w0.get exTable 0 (1, 0) = .ok (1, 5) ∧ w1.get exTable 0 (1, 0) = .ok (1, 7) := by
  decide

end Bond
