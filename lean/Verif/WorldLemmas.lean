import Verif.ConcurrentLemmas
import Verif.Spec.InOrder
/-
Invariant of interleaved calls with different keys: every call in progress will do what it would do alone.
-/
namespace Bond
open Spec
variable {T F : Type}

theorem keys_data {t : Table T F} {c : WCall T} {k : Bytes} (h : k ∈ c.keys t) : ∃ pk, k = dataKey t.id pk := by
  cases c <;> simp only [WCall.keys] at h <;> obtain ⟨x, _, rfl⟩ := List.mem_map.1 h <;> exact ⟨_, rfl⟩

theorem finish_ops (env : Env T) (db : KV) (s1 s2 : WSt T F) (x : Option Err) (h : s1.ops = s2.ops) :
    (finish env db none (s1, x)).db = (finish env db none (s2, x)).db ∧
    (finish env db none (s1, x)).err = (finish env db none (s2, x)).err := by
  cases x with
  | some e => exact ⟨rfl, rfl⟩
  | none =>
    simp only [finish, h]
    split
    · exact ⟨rfl, rfl⟩
    · split <;> exact ⟨rfl, rfl⟩

theorem finish_get (env : Env T) (db : KV) (s : WSt T F) (x : Option Err) (k : Bytes) (h : ∀ o ∈ s.ops, ¬ o.touches k) :
    (finish env db none (s, x)).db.get k = db.get k := by
  cases x with
  | some e => rfl
  | none =>
    simp only [finish]
    split
    · rfl
    · split
      · exact get_apply_of_not_touch _ _ _ h
      · rfl

/-- a call in progress, seen from the world `(db, f)` and from the sequential run `(sdb, sf)` -/
structure Running (t : Table T F) (db0 : KV) (f0 : F) (c : Env T × WCall T) (th : Thread T F) (db : KV) (f : F) (sdb : KV) (sf : F) :
    Prop where
  good : ∀ a ∈ th.acts, GoodAct t (c.2.keys t) c.2.dels a
  world : SameFor t (c.2.keys t) db0 f0 db f
  seq : SameFor t (c.2.keys t) db0 f0 sdb sf
  loc : SameLoc t (c.2.keys t) f f th.loc th.loc
  items : ∀ e ∈ th.loc.items, e.1 ∈ c.2.keys t
  keyed : KeyedOps t (fun k _ => k ∈ c.2.keys t) th.loc.ops
  err : (execActs th.acts db f th.loc).2 = (execActs (t.acts c.1 c.2) db0 f0 t.loc0).2
  ops : (execActs th.acts db f th.loc).1.1.ops = (execActs (t.acts c.1 c.2) db0 f0 t.loc0).1.1.ops

theorem SameFor.frame {t : Table T F} {keys : List Bytes} {db1 db2 db3 : KV} {f1 f2 f3 : F} (h : SameFor t keys db1 f1 db2 f2)
    (hg : ∀ k ∈ keys, db3.get k = db2.get k) (hf : FiltLe t f2 f3) : SameFor t keys db1 f1 db3 f3 := by
  intro k hk
  obtain ⟨a, b⟩ := h k hk
  exact ⟨a.trans (hg k hk).symm, fun x => ⟨(b x).1, (b x).2.mono hf⟩⟩

/-- what others do to other keys does not matter to a call -/
theorem Running.frame {t : Table T F} {db0 : KV} {f0 : F} {c : Env T × WCall T} {th : Thread T F} {db db' sdb sdb' : KV} {f f' sf sf' : F}
    (h : Running t db0 f0 c th db f sdb sf) (hg : ∀ k ∈ c.2.keys t, db'.get k = db.get k) (hf : FiltLe t f f')
    (hg' : ∀ k ∈ c.2.keys t, sdb'.get k = sdb.get k) (hf' : FiltLe t sf sf') : Running t db0 f0 c th db' f' sdb' sf' := by
  have hs : SameFor t (c.2.keys t) db f db' f' := by
    intro k hk
    refine ⟨(hg k hk).symm, fun x => ?_⟩
    obtain ⟨a, b⟩ := h.world k hk
    rw [← a] at x
    exact ⟨(b x).2, (b x).2.mono hf⟩
  have hl : SameLoc t (c.2.keys t) f f' th.loc th.loc :=
    ⟨rfl, rfl, rfl, rfl, rfl, rfl, fun e he => ⟨rfl, fun x => ⟨((h.loc.seek e he).2 x).1, ((h.loc.seek e he).2 x).1.mono hf⟩⟩⟩
  obtain ⟨e1, e2⟩ := exec_same h.good hs hl
  exact ⟨h.good, h.world.frame hg hf, h.seq.frame hg' hf',
    ⟨rfl, rfl, rfl, rfl, rfl, rfl, fun e he => ⟨rfl, fun x => ⟨((hl.seek e he).2 x).2, ((hl.seek e he).2 x).2⟩⟩⟩,
    h.items, h.keyed, e1 ▸ h.err, e2 ▸ h.ops⟩

theorem Running.start {t : Table T F} (wf : t.WF) (fs : t.FilterSound) {db0 : KV} {f0 : F} {c : Env T × WCall T} (ok : c.1.OK t)
    (hc : CovKV t f0 db0) : Running t db0 f0 c (t.spawn c) db0 f0 db0 f0 := by
  have hs : SameFor t (c.2.keys t) db0 f0 db0 f0 := by
    intro k hk
    obtain ⟨pk, rfl⟩ := keys_data hk
    exact ⟨rfl, fun x => ⟨fun fl hfl => hc fl hfl pk x, fun fl hfl => hc fl hfl pk x⟩⟩
  exact ⟨acts_good wf fs ok c.2, hs, hs, ⟨rfl, rfl, rfl, rfl, rfl, rfl, by intro e he; simp [Table.spawn, Table.loc0] at he⟩,
    by intro e he; simp [Table.spawn, Table.loc0] at he, keyedOps_nil _ _, rfl, rfl⟩

/-- an action of the call itself that does not fail -/
theorem Running.act {t : Table T F} {db0 : KV} {f0 : F} {c : Env T × WCall T} {th : Thread T F} {db sdb : KV} {f sf : F}
    (h : Running t db0 f0 c th db f sdb sf) {a : Act T F} {as : List (Act T F)} (ha : th.acts = a :: as) {r : Loc T × F}
    (hr : a db f th.loc = (r, none)) :
    Running t db0 f0 c { th with acts := as, loc := r.1 } db r.2 sdb sf ∧ FiltLe t f r.2 := by
  have ga := h.good a (by rw [ha]; simp)
  have hs : SameFor t (c.2.keys t) db f db f := by
    intro k hk
    refine ⟨rfl, fun x => ?_⟩
    obtain ⟨a, b⟩ := h.world k hk
    rw [← a] at x
    exact ⟨(b x).2, (b x).2⟩
  have h1 := (ga.same _ _ _ _ _ _ hs h.loc).2
  have h2 := ga.filt db f th.loc
  have h3 := ga.keyed _ ⟨fun _ hk _ => hk, fun _ _ hk => hk⟩ db f th.loc h.items h.keyed
  rw [hr] at h1 h2 h3
  have he := h.err
  have ho := h.ops
  rw [ha, execActs, hr] at he ho
  exact ⟨⟨fun x hx => h.good x (by rw [ha]; simp at hx; simp [hx]), h.world.frame (fun _ _ => rfl) h2, h.seq, h1, h3.2, h3.1, he, ho⟩, h2⟩

/-- the sequential run of a call in progress, alone -/
theorem Running.alone {t : Table T F} {db0 : KV} {f0 : F} {c : Env T × WCall T} {th : Thread T F} {db sdb : KV} {f sf : F}
    (wf : t.WF) (fs : t.FilterSound) (ok : c.1.OK t) (h : Running t db0 f0 c th db f sdb sf) :
    (t.run c.1 sdb sf none c.2).db = (finish c.1 sdb none ((execActs th.acts db f th.loc).1.1.toW f, (execActs th.acts db f th.loc).2)).db ∧
    (t.run c.1 sdb sf none c.2).err = (finish c.1 sdb none ((execActs th.acts db f th.loc).1.1.toW f, (execActs th.acts db f th.loc).2)).err ∧
    FiltLe t sf (t.run c.1 sdb sf none c.2).filt := by
  have hl : SameLoc t (c.2.keys t) f0 sf t.loc0 t.loc0 := ⟨rfl, rfl, rfl, rfl, rfl, rfl, by intro e he; simp [Table.loc0] at he⟩
  have hg := acts_good wf fs ok c.2
  obtain ⟨e1, e2⟩ := exec_same hg h.seq hl
  rw [run_exec, h.err, e1]
  have := finish_ops c.1 sdb ((execActs (t.acts c.1 c.2) sdb sf t.loc0).1.1.toW (execActs (t.acts c.1 c.2) sdb sf t.loc0).1.2)
    ((execActs th.acts db f th.loc).1.1.toW f) (execActs (t.acts c.1 c.2) sdb sf t.loc0).2 (by
      simp only [Loc.toW]; rw [h.ops, e2])
  refine ⟨this.1, this.2, ?_⟩
  rw [finish_filt]
  exact exec_filt hg _ _ _

theorem exec_keyed {t : Table T F} {keys : List Bytes} {dels : Bool} {as : List (Act T F)} (hg : ∀ a ∈ as, GoodAct t keys dels a)
    {Q : Bytes → WOp → Prop} (hQ : Allows Q keys dels) (db : KV) : ∀ (f : F) (l : Loc T), (∀ e ∈ l.items, e.1 ∈ keys) →
    KeyedOps t Q l.ops → KeyedOps t Q (execActs as db f l).1.1.ops := by
  induction as with
  | nil => intro f l _ h; exact h
  | cons a as ih =>
    intro f l hi ho
    have m1 := (hg a (by simp)).keyed Q hQ db f l hi ho
    rw [execActs]
    split
    · rename_i r h; rw [h] at m1
      exact ih (fun a ha => hg a (by simp [ha])) _ _ m1.2 m1.1
    · rename_i r x h; rw [h] at m1; exact m1.1

/-- pairwise different keys -/
def DisjointKeys (t : Table T F) (cs : List (Env T × WCall T)) : Prop :=
  ∀ (i j : Nat) (c d : Env T × WCall T), i ≠ j → cs[i]? = some c → cs[j]? = some d → ∀ k ∈ c.2.keys t, k ∉ d.2.keys t

/-- the invariant -/
structure Lin (t : Table T F) (db0 : KV) (f0 : F) (cs : List (Env T × WCall T)) (w : World T F) (s : SeqSt F) : Prop where
  seq : s = inOrder t cs db0 f0 w.log
  len : w.threads.length = cs.length
  db : w.db = s.db
  run : ∀ i th c, w.threads[i]? = some th → cs[i]? = some c → th.env = c.1 ∧
    (th.res = none → (∀ r, (i, r) ∉ s.res) ∧ Running t db0 f0 c th w.db w.filt s.db s.filt) ∧
    (∀ r, th.res = some r → (i, r) ∈ s.res)
  bound : ∀ e ∈ s.res, e.1 < cs.length
  once : (s.res.map Prod.fst).Nodup

theorem inOrder_snoc (t : Table T F) (cs : List (Env T × WCall T)) (db : KV) (f : F) (l : List (Nat ⊕ List WOp)) (x : Nat ⊕ List WOp) :
    inOrder t cs db f (l ++ [x]) = seqStep t cs (inOrder t cs db f l) x := by
  unfold inOrder; rw [List.foldl_append]; rfl

/-- when call `i` returns with `err` and the database becomes `db'` -/
theorem Lin.returns {t : Table T F} (wf : t.WF) (fs : t.FilterSound) {db0 : KV} {f0 : F} {cs : List (Env T × WCall T)}
    (hok : ∀ c ∈ cs, c.1.OK t) (hd : DisjointKeys t cs) {w : World T F} {s : SeqSt F} (h : Lin t db0 f0 cs w s) {i : Nat}
    {th th' : Thread T F} (hi : w.threads[i]? = some th) (hr : th.res = none) (he : th'.env = th.env) {x : Option Err}
    (hx : th'.res = some x) {db' : KV} {f' : F} (hf : FiltLe t w.filt f')
    (hdb : db' = (finish th.env w.db none ((execActs th.acts w.db w.filt th.loc).1.1.toW w.filt, (execActs th.acts w.db w.filt th.loc).2)).db)
    (hex : x = (finish th.env w.db none ((execActs th.acts w.db w.filt th.loc).1.1.toW w.filt, (execActs th.acts w.db w.filt th.loc).2)).err) :
    Lin t db0 f0 cs { w with db := db', filt := f', log := w.log ++ [.inl i], threads := w.threads.set i th' } (seqStep t cs s (.inl i)) := by
  have hlt : i < w.threads.length := by
    by_cases hlt : i < w.threads.length
    · exact hlt
    · rw [List.getElem?_eq_none (by omega)] at hi; simp at hi
  obtain ⟨c, hc⟩ : ∃ c, cs[i]? = some c := ⟨cs[i]'(by rw [← h.len]; exact hlt), List.getElem?_eq_getElem _⟩
  have ok := hok c (List.mem_of_getElem? hc)
  obtain ⟨henv, hrun, _⟩ := h.run i th c hi hc
  obtain ⟨hnot, hrun⟩ := hrun hr
  obtain ⟨a1, a2, a3⟩ := hrun.alone wf fs ok
  rw [henv, h.db] at hdb hex
  rw [h.db] at a1 a2 
  have hs : seqStep t cs s (.inl i) = SeqSt.mk (t.run c.1 s.db s.filt none c.2).db (t.run c.1 s.db s.filt none c.2).filt
      (s.res ++ [(i, (t.run c.1 s.db s.filt none c.2).err)]) := by simp only [seqStep, hc]
  have hkeyed : KeyedOps t (fun k _ => k ∈ c.2.keys t) (execActs th.acts s.db w.filt th.loc).1.1.ops :=
    exec_keyed hrun.good ⟨fun _ hk _ => hk, fun _ _ hk => hk⟩ _ _ _ hrun.items hrun.keyed
  have hget : ∀ k, (∃ pk, k = dataKey t.id pk) → k ∉ c.2.keys t → (t.run c.1 s.db s.filt none c.2).db.get k = s.db.get k := by
    rintro k ⟨pk, rfl⟩ hk
    rw [a1]
    apply finish_get
    intro o ho ht
    exact hk (hkeyed o ho pk ht)
  rw [hs]
  refine ⟨?_, by simp [h.len], ?_, ?_, ?_, ?_⟩
  · rw [inOrder_snoc, ← h.seq, hs]
  · simp only [hdb, a1]
  · intro j thj d hj hdj
    simp only at hj ⊢
    rw [List.getElem?_set] at hj
    split at hj
    · rename_i hij
      subst hij
      try rw [if_pos hlt] at hj
      simp only [Option.some.injEq] at hj
      subst hj
      rw [hc] at hdj
      simp only [Option.some.injEq] at hdj
      subst hdj
      refine ⟨he.trans henv, fun hn => by rw [hx] at hn; simp at hn, ?_⟩
      intro r hr'
      rw [hx] at hr'
      simp only [Option.some.injEq] at hr'
      subst hr'
      rw [hex, a2]
      simp
    · rename_i hij
      obtain ⟨b1, b2, b3⟩ := h.run j thj d hj hdj
      refine ⟨b1, ?_, fun r hr' => by simp [b3 r hr']⟩
      intro hn
      obtain ⟨n1, n2⟩ := b2 hn
      refine ⟨?_, ?_⟩
      · intro r hm
        rcases List.mem_append.1 hm with hm | hm
        · exact n1 r hm
        · simp only [List.mem_singleton, Prod.mk.injEq] at hm
          exact hij hm.1.symm
      · have hother : ∀ k ∈ d.2.keys t, (t.run c.1 s.db s.filt none c.2).db.get k = s.db.get k :=
          fun k hk => hget k (keys_data hk) (fun hk' => hd j i d c (fun e => hij e.symm) hdj hc k hk hk')
        refine n2.frame ?_ hf hother a3
        intro k hk
        rw [hdb, ← a1, h.db]
        exact hother k hk
  · intro e he'
    rcases List.mem_append.1 he' with he' | he'
    · exact h.bound e he'
    · simp only [List.mem_singleton] at he'; subst he'
      simp only; rw [← h.len]; exact hlt
  · rw [List.map_append, List.nodup_append]
    refine ⟨h.once, by simp, ?_⟩
    intro a ha b hb e
    simp only [List.map_cons, List.map_nil, List.mem_singleton] at hb
    subst hb; subst e
    obtain ⟨p, hp, e⟩ := List.mem_map.1 ha
    exact hnot p.2 (by rw [← e]; exact hp)

/-- how the sequential run advances -/
def Advance (t : Table T F) (db0 : KV) (f0 : F) (cs : List (Env T × WCall T)) (x : Nat ⊕ List WOp) (s s' : SeqSt F) : Prop :=
  s' = s ∨ (∃ ops, x = .inr ops ∧ s' = seqStep t cs s (.inr ops)) ∨
  ∃ i c, cs[i]? = some c ∧ s' = seqStep t cs s (.inl i) ∧ SameFor t (c.2.keys t) db0 f0 s.db s.filt

theorem Lin.step {t : Table T F} (wf : t.WF) (fs : t.FilterSound) {db0 : KV} {f0 : F} {cs : List (Env T × WCall T)}
    (hok : ∀ c ∈ cs, c.1.OK t) (hd : DisjointKeys t cs) {w : World T F} {s : SeqSt F} (h : Lin t db0 f0 cs w s)
    (x : Nat ⊕ List WOp) (hx : ∀ ops, x = .inr ops → ∀ o ∈ ops, ∀ k, o.touches k → Outside t k) :
    ∃ s', Lin t db0 f0 cs (w.step x) s' ∧ Advance t db0 f0 cs x s s' := by
  cases x with
  | inr ops =>
    refine ⟨seqStep t cs s (.inr ops), ⟨?_, h.len, ?_, ?_, h.bound, h.once⟩, Or.inr (Or.inl ⟨ops, rfl, rfl⟩)⟩
    · simp only [World.step]; rw [inOrder_snoc, ← h.seq]
    · simp only [World.step, seqStep, h.db]
    · intro i th c hi hc
      obtain ⟨b1, b2, b3⟩ := h.run i th c hi hc
      refine ⟨b1, fun hn => ⟨(b2 hn).1, ?_⟩, b3⟩
      have hg : ∀ (V : KV), ∀ k ∈ c.2.keys t, (V.apply ops).get k = V.get k := by
        intro V k hk
        apply get_apply_of_not_touch
        intro o ho ht
        obtain ⟨pk, rfl⟩ := keys_data hk
        exact (hx ops rfl o ho _ ht).1 (inSpace_dataKey t.id pk)
      exact (b2 hn).2.frame (hg _) (filtLe_refl _ _) (hg _) (filtLe_refl _ _)
  | inl i =>
    simp only [World.step]
    cases hi : w.threads[i]? with
    | none => exact ⟨s, h, Or.inl rfl⟩
    | some th =>
      simp only
      cases hr : th.res with
      | some r => exact ⟨s, h, Or.inl rfl⟩
      | none =>
        simp only
        have hlt : i < w.threads.length := by
          by_cases hlt : i < w.threads.length
          · exact hlt
          · rw [List.getElem?_eq_none (by omega)] at hi; simp at hi
        obtain ⟨c, hc⟩ : ∃ c, cs[i]? = some c := ⟨cs[i]'(by rw [← h.len]; exact hlt), List.getElem?_eq_getElem _⟩
        obtain ⟨henv, hrun, _⟩ := h.run i th c hi hc
        obtain ⟨hnot, hrun⟩ := hrun hr
        cases ha : th.acts with
        | nil =>
          simp only
          exact ⟨_, h.returns wf fs hok hd hi hr (by rfl) rfl (filtLe_refl _ _) (by rw [ha]; rfl) (by rw [ha]; rfl),
            Or.inr (Or.inr ⟨i, c, hc, rfl, hrun.seq⟩)⟩
        | cons a as =>
          simp only
          generalize hact : a w.db w.filt th.loc = r
          obtain ⟨r, y⟩ := r
          cases y with
          | some e =>
            simp only
            have hf := (hrun.good a (by rw [ha]; simp)).filt w.db w.filt th.loc
            rw [hact] at hf
            refine ⟨_, h.returns wf fs hok hd hi hr (by rfl) rfl hf ?_ ?_, Or.inr (Or.inr ⟨i, c, hc, rfl, hrun.seq⟩)⟩
            · rw [ha, execActs, hact]; rfl
            · rw [ha, execActs, hact]; rfl
          | none =>
            simp only
            obtain ⟨g1, g2⟩ := hrun.act ha hact
            refine ⟨s, ⟨h.seq, by simp [h.len], h.db, ?_, h.bound, h.once⟩, Or.inl rfl⟩
            intro j thj d hj hdj
            simp only at hj ⊢
            rw [List.getElem?_set] at hj
            split at hj
            · rename_i hij
              subst hij
              try rw [if_pos hlt] at hj
              simp only [Option.some.injEq] at hj
              subst hj
              rw [hc] at hdj
              simp only [Option.some.injEq] at hdj
              subst hdj
              exact ⟨henv, fun _ => ⟨hnot, by rw [hr] at g1; exact g1⟩, fun r hr' => by simp at hr'⟩
            · obtain ⟨b1, b2, b3⟩ := h.run j thj d hj hdj
              exact ⟨b1, fun hn => ⟨(b2 hn).1, (b2 hn).2.frame (fun _ _ => rfl) g2 (fun _ _ => rfl) (filtLe_refl _ _)⟩, b3⟩

theorem Lin.start {t : Table T F} (wf : t.WF) (fs : t.FilterSound) {db0 : KV} {f0 : F} {cs : List (Env T × WCall T)}
    (hok : ∀ c ∈ cs, c.1.OK t) (hc : CovKV t f0 db0) :
    Lin t db0 f0 cs (t.world db0 f0 cs) { db := db0, filt := f0, res := [] } := by
  refine ⟨rfl, by simp [Table.world], rfl, ?_, by simp, by simp⟩
  intro i th c hi hci
  simp only [Table.world, List.getElem?_map, hci, Option.map_some, Option.some.injEq] at hi
  subst hi
  exact ⟨rfl, fun _ => ⟨by simp, Running.start wf fs (hok c (List.mem_of_getElem? hci)) hc⟩, fun r hr => by simp [Table.spawn] at hr⟩

theorem Lin.runs {t : Table T F} (wf : t.WF) (fs : t.FilterSound) {db0 : KV} {f0 : F} {cs : List (Env T × WCall T)}
    (hok : ∀ c ∈ cs, c.1.OK t) (hd : DisjointKeys t cs) (sched : List (Nat ⊕ List WOp)) :
    ∀ {w : World T F} {s : SeqSt F}, Lin t db0 f0 cs w s →
    (∀ ops, .inr ops ∈ sched → ∀ o ∈ ops, ∀ k, o.touches k → Outside t k) → ∃ s', Lin t db0 f0 cs (w.run sched) s' := by
  induction sched with
  | nil => intro w s h _; exact ⟨s, h⟩
  | cons x sched ih =>
    intro w s h hx
    obtain ⟨s', h', _⟩ := h.step wf fs hok hd x (fun ops e => hx ops (by simp [e]))
    exact ih h' (fun ops ho => hx ops (by simp [ho]))

/-- the rows after the successful calls, in the order of their results -/
def Spec.contentOf (pk : T → Bytes) (cs : List (Env T × WCall T)) (m : Rows T) (res : List (Nat × Option Err)) : Rows T :=
  res.foldl (fun m e => match e.2, cs[e.1]? with
    | none, some c => effect pk m c.2
    | _, _ => m) m

theorem goodRun_same {t : Table T F} {env : Env T} {db V : KV} {c : WCall T} (h : ∀ k ∈ c.keys t, db.get k = V.get k)
    (hg : GoodRun t env db c) : GoodRun t env V c := by
  refine ⟨?_, hg.2⟩
  have hs : ∀ x, t.key x ∈ c.keys t → storedRow t V (t.pk x) = storedRow t db (t.pk x) := by
    intro x hx
    unfold storedRow
    rw [← show t.key x = dataKey t.id (t.pk x) from rfl, h _ hx]
  have hg1 := hg.1
  cases c with
  | insert trs => exact hg1
  | update trs => exact hg1
  | upsert oc trs => exact hg1
  | delete trs =>
    intro x hx old ho
    exact hg1 x hx old (by rw [← hs x (List.mem_map.2 ⟨x, hx, rfl⟩)]; exact ho)
  | unsafeInsert trs =>
    refine ⟨hg1.1, fun x hx => ?_⟩
    rw [hs x (List.mem_map.2 ⟨x, hx, rfl⟩)]
    exact hg1.2 x hx
  | unsafeUpdate trs olds =>
    intro hl
    refine ⟨(hg1 hl).1, fun p hp => ?_⟩
    rw [hs p.1 (List.mem_map.2 ⟨p.1, (List.of_mem_zip hp).1, rfl⟩)]
    exact (hg1 hl).2 p hp

theorem Advance.holds {t : Table T F} (wf : t.WF) (rt : t.RoundTrip) (fs : t.FilterSound) {db0 : KV} {f0 : F}
    {cs : List (Env T × WCall T)} (hok : ∀ c ∈ cs, c.1.OK t) (hgood : ∀ c ∈ cs, GoodRun t c.1 db0 c.2) {m : Rows T}
    {x : Nat ⊕ List WOp} (hx : ∀ ops, x = .inr ops → ∀ o ∈ ops, ∀ k, o.touches k → Outside t k) {s s' : SeqSt F}
    (ha : Advance t db0 f0 cs x s s') (hH : Holds t s.db (contentOf t.pk cs m s.res))
    (hF : FilterCovers t s.filt (contentOf t.pk cs m s.res)) :
    Holds t s'.db (contentOf t.pk cs m s'.res) ∧ FilterCovers t s'.filt (contentOf t.pk cs m s'.res) := by
  rcases ha with rfl | ⟨ops, rfl, rfl⟩ | ⟨i, c, hc, rfl, hs⟩
  · exact ⟨hH, hF⟩
  · refine ⟨hH.congr ?_, hF⟩
    intro k hk
    exact get_apply_of_not_touch _ _ _ (fun o ho ht => hk (hx ops rfl o ho k ht))
  · have ok := hok c (List.mem_of_getElem? hc)
    have hg := goodRun_same (fun k hk => (hs k hk).1) (hgood c (List.mem_of_getElem? hc))
    simp only [seqStep, hc]
    unfold contentOf at *
    rw [List.foldl_append]
    simp only [List.foldl_cons, List.foldl_nil, hc]
    cases he : (t.run c.1 s.db s.filt none c.2).err with
    | some e =>
      simp only
      have hdb : (t.run c.1 s.db s.filt none c.2).db = s.db := ((C13 t c.1 s.db s.filt c.2).1 (by rw [he]; simp)).1
      rw [hdb]
      exact ⟨hH, run_filt_covers fs ok s.db none c.2 hF⟩
    | none =>
      simp only
      obtain ⟨a, _, b⟩ := run_effect wf rt fs ok (ob := none) (by intro b hb; simp at hb) hH hF hg he
      rw [run_view_nobatch] at a
      exact ⟨a, b⟩

theorem Lin.runs_holds {t : Table T F} (wf : t.WF) (rt : t.RoundTrip) (fs : t.FilterSound) {db0 : KV} {f0 : F}
    {cs : List (Env T × WCall T)} (hok : ∀ c ∈ cs, c.1.OK t) (hd : DisjointKeys t cs) (hgood : ∀ c ∈ cs, GoodRun t c.1 db0 c.2)
    {m : Rows T} (sched : List (Nat ⊕ List WOp)) :
    ∀ {w : World T F} {s : SeqSt F}, Lin t db0 f0 cs w s → Holds t s.db (contentOf t.pk cs m s.res) →
    FilterCovers t s.filt (contentOf t.pk cs m s.res) →
    (∀ ops, .inr ops ∈ sched → ∀ o ∈ ops, ∀ k, o.touches k → Outside t k) →
    ∃ s', Lin t db0 f0 cs (w.run sched) s' ∧ Holds t s'.db (contentOf t.pk cs m s'.res) := by
  induction sched with
  | nil => intro w s h hH _ _; exact ⟨s, h, hH⟩
  | cons x sched ih =>
    intro w s h hH hF hx
    obtain ⟨s', h', ha⟩ := h.step wf fs hok hd x (fun ops e => hx ops (by simp [e]))
    obtain ⟨a, b⟩ := ha.holds wf rt fs hok hgood (fun ops e => hx ops (by simp [e])) hH hF
    exact ih h' a b (fun ops ho => hx ops (by simp [ho]))

/-! ### Calls return -/

/-- steps a call still needs -/
def Thread.left (th : Thread T F) : Nat := match th.res with
  | some _ => 0
  | none => th.acts.length + 1

theorem step_left (w : World T F) (x : Nat ⊕ List WOp) (i : Nat) {th : Thread T F} (h : w.threads[i]? = some th) :
    ∃ th', (w.step x).threads[i]? = some th' ∧ th'.left ≤ th.left ∧ (x = .inl i → th'.left ≤ th.left - 1) := by
  cases x with
  | inr ops => exact ⟨th, h, Nat.le_refl _, by simp⟩
  | inl j =>
    simp only [World.step]
    by_cases hij : j = i
    · subst hij
      have hlt : j < w.threads.length := by
        by_cases hlt : j < w.threads.length
        · exact hlt
        · rw [List.getElem?_eq_none (by omega)] at h; simp at h
      rw [h]
      simp only
      cases hr : th.res with
      | some r => exact ⟨th, h, Nat.le_refl _, fun _ => by simp [Thread.left, hr]⟩
      | none =>
        simp only
        cases ha : th.acts with
        | nil =>
          simp only [List.getElem?_set_self hlt]
          exact ⟨_, rfl, by simp [Thread.left], fun _ => by simp [Thread.left]⟩
        | cons a as =>
          simp only
          cases hact : a w.db w.filt th.loc with
          | mk r y =>
            cases y with
            | some e =>
              simp only [List.getElem?_set_self hlt]
              exact ⟨_, rfl, by simp [Thread.left], fun _ => by simp [Thread.left]⟩
            | none =>
              simp only [List.getElem?_set_self hlt]
              exact ⟨_, rfl, by simp [Thread.left, hr, ha], fun _ => by simp [Thread.left, hr, ha]⟩
    · have hne : ∀ x : Thread T F, (w.threads.set j x)[i]? = some th := by
        intro x; rw [List.getElem?_set_ne hij]; exact h
      have hno : ¬ (Sum.inl j : Nat ⊕ List WOp) = .inl i := by simpa using hij
      split
      · exact ⟨th, h, Nat.le_refl _, fun e => absurd e hno⟩
      split
      · exact ⟨th, h, Nat.le_refl _, fun e => absurd e hno⟩
      split
      · split
        · exact ⟨th, hne _, Nat.le_refl _, fun e => absurd e hno⟩
        · exact ⟨th, hne _, Nat.le_refl _, fun e => absurd e hno⟩
      · exact ⟨th, hne _, Nat.le_refl _, fun e => absurd e hno⟩

theorem run_left (i : Nat) (sched : List (Nat ⊕ List WOp)) : ∀ (w : World T F) {th : Thread T F}, w.threads[i]? = some th →
    ∃ th', (w.run sched).threads[i]? = some th' ∧ th'.left ≤ th.left - sched.countP (fun x => x = .inl i) := by
  induction sched with
  | nil => intro w th h; exact ⟨th, h, Nat.le_refl _⟩
  | cons x sched ih =>
    intro w th h
    obtain ⟨th1, h1, h2, h3⟩ := step_left w x i h
    obtain ⟨th', h4, h5⟩ := ih (w.step x) h1
    refine ⟨th', h4, ?_⟩
    rw [List.countP_cons]
    by_cases hx : x = .inl i
    · have := h3 hx
      simp only [hx, decide_true, if_true]
      omega
    · simp only [hx, decide_false, Bool.false_eq_true, if_false]
      omega

/-! ### Insert of a stored key -/

theorem isSome_apply (ops : List WOp) (k : Bytes) : ∀ (V : KV), (V.get k).isSome → (∀ o ∈ ops, o.touches k → ∃ v, o = .set k v) →
    ((V.apply ops).get k).isSome := by
  induction ops with
  | nil => intro V h _; exact h
  | cons o ops ih =>
    intro V h ho
    rw [KV.apply_cons]
    refine ih _ ?_ (fun o' ho' => ho o' (by simp [ho']))
    by_cases ht : o.touches k
    · obtain ⟨v, rfl⟩ := ho o (by simp) ht
      simp [KV.apply1, KV.get_set]
    · rw [get_apply1_of_not_touch V o k ht]; exact h

/-- only sets of `k` -/
def OnlySets (k : Bytes) : Bytes → WOp → Prop := fun k' o => k' = k → ∃ v, o = .set k v

/-- `k` is stored and stays so -/
structure Keeps (t : Table T F) (k : Bytes) (cs : List (Env T × WCall T)) (w : World T F) : Prop where
  stored : (w.db.get k).isSome
  cov : Cov t w.filt k
  thread : ∀ (i : Nat) (th : Thread T F) (c : Env T × WCall T), w.threads[i]? = some th → cs[i]? = some c → (∀ a ∈ th.acts, GoodAct t (c.2.keys t) c.2.dels a) ∧
    (∀ e ∈ th.loc.items, e.1 ∈ c.2.keys t) ∧ KeyedOps t (OnlySets k) th.loc.ops
  len : w.threads.length = cs.length

theorem Keeps.step {t : Table T F} {pk : Bytes} {cs : List (Env T × WCall T)}
    (hdel : ∀ c ∈ cs, c.2.dels = true → dataKey t.id pk ∉ c.2.keys t) {w : World T F} (h : Keeps t (dataKey t.id pk) cs w)
    (x : Nat ⊕ List WOp) (hx : ∀ ops, x = .inr ops → ∀ o ∈ ops, ∀ k, o.touches k → Outside t k) :
    Keeps t (dataKey t.id pk) cs (w.step x) := by
  cases x with
  | inr ops =>
    refine ⟨?_, h.cov, h.thread, h.len⟩
    apply isSome_apply _ _ _ h.stored
    intro o ho ht
    exact absurd (inSpace_dataKey t.id pk) (hx ops rfl o ho _ ht).1
  | inl i =>
    simp only [World.step]
    cases hi : w.threads[i]? with
    | none => exact h
    | some th =>
      simp only
      cases hr : th.res with
      | some r => exact h
      | none =>
        simp only
        have hlt : i < w.threads.length := by
          by_cases hlt : i < w.threads.length
          · exact hlt
          · rw [List.getElem?_eq_none (by omega)] at hi; simp at hi
        obtain ⟨c, hc⟩ : ∃ c, cs[i]? = some c := ⟨cs[i]'(by rw [← h.len]; exact hlt), List.getElem?_eq_getElem _⟩
        obtain ⟨hgood, hitems, hkeyed⟩ := h.thread i th c hi hc
        have hQ : Allows (OnlySets (dataKey t.id pk)) (c.2.keys t) c.2.dels := by
          refine ⟨fun k _ b e => ⟨b, by rw [e]⟩, fun hd k hk e => ?_⟩
          rw [e] at hk
          exact absurd hk (hdel c (List.mem_of_getElem? hc) hd)
        have hset : ∀ (th' : Thread T F) (j : Nat) (thj : Thread T F) (d : Env T × WCall T), (w.threads.set i th')[j]? = some thj → cs[j]? = some d →
            (∀ a ∈ th'.acts, GoodAct t (c.2.keys t) c.2.dels a) → (∀ e ∈ th'.loc.items, e.1 ∈ c.2.keys t) →
            KeyedOps t (OnlySets (dataKey t.id pk)) th'.loc.ops →
            (∀ a ∈ thj.acts, GoodAct t (d.2.keys t) d.2.dels a) ∧ (∀ e ∈ thj.loc.items, e.1 ∈ d.2.keys t) ∧
            KeyedOps t (OnlySets (dataKey t.id pk)) thj.loc.ops := by
          intro th' j thj d hj hdj a1 a2 a3
          by_cases hij : i = j
          · subst hij
            rw [List.getElem?_set_self hlt] at hj
            simp only [Option.some.injEq] at hj
            subst hj
            rw [hc] at hdj
            simp only [Option.some.injEq] at hdj
            subst hdj
            exact ⟨a1, a2, a3⟩
          · rw [List.getElem?_set_ne hij] at hj
            exact h.thread j thj d hj hdj
        cases ha : th.acts with
        | nil =>
          simp only
          refine ⟨?_, h.cov, ?_, by simp [h.len]⟩
          · simp only [finish]
            split
            · exact h.stored
            · split
              · exact isSome_apply _ _ _ h.stored (fun o ho ht => hkeyed o ho pk ht rfl)
              · exact h.stored
          · intro j thj d hj hdj
            exact hset _ j thj d hj hdj (by simp) hitems hkeyed
        | cons a as =>
          simp only
          have ga := hgood a (by rw [ha]; simp)
          have h2 := ga.filt w.db w.filt th.loc
          have h3 := ga.keyed _ hQ w.db w.filt th.loc hitems hkeyed
          generalize hact : a w.db w.filt th.loc = r at h2 h3
          obtain ⟨r, y⟩ := r
          have hrest : ∀ x ∈ as, GoodAct t (c.2.keys t) c.2.dels x := fun x hx => hgood x (by rw [ha]; simp [hx])
          cases y with
          | some e => exact ⟨h.stored, h.cov.mono h2, fun j thj d hj hdj => hset _ j thj d hj hdj hrest h3.2 h3.1, by simp [h.len]⟩
          | none => exact ⟨h.stored, h.cov.mono h2, fun j thj d hj hdj => hset _ j thj d hj hdj hrest h3.2 h3.1, by simp [h.len]⟩

/-- an Insert has still to ask for `k`, and will see it -/
def Pending (t : Table T F) (env : Env T) (k : Bytes) (acts : List (Act T F)) (l : Loc T) : Prop :=
  (∃ c pre j post rest, l.items = pre ++ (k, j) :: post ∧ (seekExact l.entries k).isSome ∧
    acts = List.replicate (pre.length + 1) (insertRow t env c) ++ rest) ∨
  (∃ as c rest, acts = as ++ (openSlice t env c :: (sortKeys env (c.map t.key)).map (fun _ => insertRow t env c)) ++ rest ∧
    k ∈ c.map t.key)

theorem Pending.ne {t : Table T F} {env : Env T} {k : Bytes} {acts : List (Act T F)} {l : Loc T} (h : Pending t env k acts l) :
    acts ≠ [] := by
  rcases h with ⟨c, pre, j, post, rest, _, _, rfl⟩ | ⟨as, c, rest, rfl, _⟩
  · simp
  · simp

theorem Pending.act {t : Table T F} {env : Env T} (ok : env.OK t) {pk : Bytes} {a : Act T F} {as : List (Act T F)} {l : Loc T}
    (h : Pending t env (dataKey t.id pk) (a :: as) l) {db : KV} {f : F} (hs : (db.get (dataKey t.id pk)).isSome)
    (hc : Cov t f (dataKey t.id pk)) {r : Loc T × F} (hr : a db f l = (r, none)) : Pending t env (dataKey t.id pk) as r.1 := by
  rcases h with ⟨c, pre, j, post, rest, hi, he, ha⟩ | ⟨xs, c, rest, ha, hk⟩
  · cases pre with
    | nil =>
      exfalso
      simp only [List.length_nil, Nat.zero_add, List.replicate_one, List.singleton_append, List.cons.injEq] at ha
      obtain ⟨rfl, rfl⟩ := ha
      rw [List.nil_append] at hi
      have hex : (t.existIter f l.entries (dataKey t.id pk)).isSome = true := by
        unfold Table.existIter
        cases hf : t.filter with
        | none => exact he
        | some fl => simp only [hc fl hf, Bool.not_true, Bool.false_eq_true, if_false]; exact he
      simp only [insertRow, hi, Table.insertLoop, Loc.toW, hex, or_true, if_true] at hr
      by_cases hd : env.done l.clock = true
      · simp [hd] at hr
      · simp [hd] at hr
    | cons e pre =>
      left
      simp only [List.length_cons, List.replicate_succ, List.cons_append, List.cons.injEq] at ha
      obtain ⟨rfl, rfl⟩ := ha
      rw [List.cons_append] at hi
      simp only [insertRow, hi, Prod.mk.injEq] at hr
      obtain ⟨rfl, _⟩ := hr
      exact ⟨c, pre, j, post, rest, rfl, he, by rw [List.replicate_succ]; rfl⟩
  · cases xs with
    | nil =>
      left
      simp only [List.nil_append, List.cons_append, List.cons.injEq] at ha
      obtain ⟨rfl, rfl⟩ := ha
      simp only [openSlice, Prod.mk.injEq, and_true] at hr
      subst hr
      have hd := describes_sort t env ok c
      have hmem : dataKey t.id pk ∈ (sortKeys env (c.map t.key)).map Prod.fst := by
        rw [hd.1.keys]
        exact (hd.2.map t.key).mem_iff.2 hk
      obtain ⟨e, he, hek⟩ := List.mem_map.1 hmem
      obtain ⟨pre, post, hsplit⟩ := List.append_of_mem he
      obtain ⟨k', j⟩ := e
      simp only at hek
      subst hek
      refine ⟨c, pre, j, post, List.replicate post.length (insertRow t env c) ++ rest, hsplit, ?_, ?_⟩
      · simp only
        rw [seekExact_scan]
        · exact hs
        · exact sorted_headD (sortKeys_sorted t env ok _) _ hmem
        · exact dataKey_lt_end t pk
      · rw [hsplit]
        simp only [List.map_append, List.map_cons, List.map_const', ← List.append_assoc, List.replicate_append_replicate]
        rw [← List.replicate_succ, List.replicate_append_replicate]
        congr 2
        omega
    | cons x xs =>
      right
      simp only [List.cons_append, List.cons.injEq] at ha
      obtain ⟨_, rfl⟩ := ha
      exact ⟨xs, c, rest, by simp, hk⟩

theorem pending_start {t : Table T F} {env : Env T} {trs : List T} {k : Bytes} (hk : k ∈ trs.map t.key) :
    Pending t env k (t.acts env (.insert trs)) t.loc0 := by
  right
  rw [← batched_flatten trs (by decide : 0 < persistentBatchSize)] at hk
  obtain ⟨x, hx, e⟩ := List.mem_map.1 hk
  obtain ⟨c, hc, hxc⟩ := List.mem_flatten.1 hx
  obtain ⟨pre, post, hsplit⟩ := List.append_of_mem hc
  refine ⟨pre.flatMap (fun c => openSlice t env c :: (sortKeys env (c.map t.key)).map (fun _ => insertRow t env c)), c,
    post.flatMap (fun c => openSlice t env c :: (sortKeys env (c.map t.key)).map (fun _ => insertRow t env c)), ?_,
    List.mem_map.2 ⟨x, hxc, e⟩⟩
  simp only [Table.acts]
  rw [hsplit, List.flatMap_append, List.flatMap_cons, List.append_assoc]

/-- an Insert of a stored key does not succeed -/
theorem pending_step {t : Table T F} {pk : Bytes} {cs : List (Env T × WCall T)} {w : World T F}
    (h : Keeps t (dataKey t.id pk) cs w) {env : Env T} (ok : env.OK t) {i : Nat} {th : Thread T F} (hi : w.threads[i]? = some th)
    (hp : (th.res = none ∧ Pending t env (dataKey t.id pk) th.acts th.loc) ∨ ∃ e, th.res = some (some e)) (x : Nat ⊕ List WOp) :
    ∃ th', (w.step x).threads[i]? = some th' ∧
      ((th'.res = none ∧ Pending t env (dataKey t.id pk) th'.acts th'.loc) ∨ ∃ e, th'.res = some (some e)) := by
  cases x with
  | inr ops => exact ⟨th, hi, hp⟩
  | inl j =>
    simp only [World.step]
    by_cases hij : j = i
    · subst hij
      have hlt : j < w.threads.length := by
        by_cases hlt : j < w.threads.length
        · exact hlt
        · rw [List.getElem?_eq_none (by omega)] at hi; simp at hi
      rw [hi]
      simp only
      rcases hp with ⟨hr, hp⟩ | ⟨e, he⟩
      · simp only [hr]
        cases ha : th.acts with
        | nil => exact absurd ha hp.ne
        | cons a as =>
          simp only
          cases hact : a w.db w.filt th.loc with
          | mk r y =>
            cases y with
            | some e => exact ⟨_, List.getElem?_set_self hlt, Or.inr ⟨e, rfl⟩⟩
            | none =>
              rw [ha] at hp
              exact ⟨_, List.getElem?_set_self hlt, Or.inl ⟨rfl, hp.act ok h.stored h.cov hact⟩⟩
      · simp only [he]
        exact ⟨th, hi, Or.inr ⟨e, he⟩⟩
    · have hne : ∀ x : Thread T F, (w.threads.set j x)[i]? = some th := by
        intro x; rw [List.getElem?_set_ne hij]; exact hi
      split
      · exact ⟨th, hi, hp⟩
      split
      · exact ⟨th, hi, hp⟩
      split
      · split
        · exact ⟨th, hne _, hp⟩
        · exact ⟨th, hne _, hp⟩
      · exact ⟨th, hne _, hp⟩

end Bond
