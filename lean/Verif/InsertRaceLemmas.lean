import Verif.Props.Concurrent
/-
C52: what several Inserts at the same time leave behind, exactly.
-/
namespace Bond
open Spec
variable {T F : Type}

/-- the writes that store row `x`: the row and its index entries -/
def RowOp (t : Table T F) (x : T) (o : WOp) : Prop :=
  (∃ b, t.ser x = some b ∧ o = .set (t.key x) b) ∨ ∃ idx ∈ t.indexes, idx.filter x = true ∧ o = .set (t.indexKey idx x) []

/-- the writes are those of the rows in `D`, all of which can be serialized -/
def OpsOf (t : Table T F) (D : List T) (ops : List WOp) : Prop :=
  (∀ o, o ∈ ops ↔ ∃ x ∈ D, RowOp t x o) ∧ ∀ x ∈ D, (t.ser x).isSome

theorem OpsOf.add {t : Table T F} {D : List T} {ops : List WOp} (h : OpsOf t D ops) {x : T} {b : Bytes} (hb : t.ser x = some b) {order : List (Index T)}
    (ho : order.Perm t.indexes) : OpsOf t (D ++ [x]) (ops ++ .set (t.key x) b :: order.flatMap (fun idx => onInsert t idx x)) := by
  refine ⟨fun o => ?_, ?_⟩
  · have e : o ∈ order.flatMap (fun idx => onInsert t idx x) ↔ ∃ idx ∈ t.indexes, idx.filter x = true ∧ o = .set (t.indexKey idx x) [] := by
      rw [List.mem_flatMap]
      constructor
      · rintro ⟨idx, hi, hm⟩
        unfold onInsert at hm
        by_cases hf : idx.filter x = true
        · rw [if_pos hf] at hm; exact ⟨idx, ho.mem_iff.1 hi, hf, by simpa [indexKeyValue] using hm⟩
        · rw [if_neg hf] at hm; exact absurd hm (by simp)
      · rintro ⟨idx, hi, hf, rfl⟩
        exact ⟨idx, ho.mem_iff.2 hi, by unfold onInsert; rw [if_pos hf]; simp [indexKeyValue]⟩
    rw [List.mem_append, List.mem_cons, h.1, e]
    constructor
    · rintro (⟨y, hy, hr⟩ | rfl | hx)
      · exact ⟨y, by simp [hy], hr⟩
      · exact ⟨x, by simp, .inl ⟨b, hb, rfl⟩⟩
      · exact ⟨x, by simp, .inr hx⟩
    · rintro ⟨y, hy, hr⟩
      rcases List.mem_append.1 hy with hy | hy
      · exact .inl ⟨y, hy, hr⟩
      · simp only [List.mem_singleton] at hy; subst hy
        rcases hr with ⟨b', hb', rfl⟩ | hr
        · rw [hb] at hb'; simp only [Option.some.injEq] at hb'; subst hb'; exact .inr (.inl rfl)
        · exact .inr (.inr hr)
  · intro y hy
    rcases List.mem_append.1 hy with hy | hy
    · exact h.2 y hy
    · simp only [List.mem_singleton] at hy; subst hy; rw [hb]; rfl

/-- a running Insert: its writes are those of the rows handled so far; the others are still to come -/
def InsTh (t : Table T F) (trs : List T) (th : Thread T F) : Prop :=
  ∃ (c : List T) (chunks : List (List T)) (D : List T),
    th.acts = th.loc.items.map (fun _ => insertRow t th.env c) ++ chunks.flatMap (fun c =>
      openSlice t th.env c :: (sortKeys th.env (c.map t.key)).map (fun _ => insertRow t th.env c)) ∧
    (∀ e ∈ th.loc.items, ∃ x, c[e.2]? = some x ∧ e.1 = t.key x) ∧ OpsOf t D th.loc.ops ∧
    ∀ x, x ∈ trs ↔ x ∈ D ∨ (∃ e ∈ th.loc.items, c[e.2]? = some x) ∨ ∃ c ∈ chunks, x ∈ c

theorem InsTh.start {t : Table T F} {env : Env T} {trs : List T} : InsTh t trs (t.spawn (env, .insert trs)) := by
  refine ⟨[], batched trs persistentBatchSize, [], rfl, ?_, ⟨fun o => by simp [Table.spawn, Table.loc0], by simp⟩, fun x => ?_⟩
  · intro e he; simp [Table.spawn, Table.loc0] at he
  · rw [← List.mem_flatten, batched_flatten trs (by decide)]; simp [Table.spawn, Table.loc0]

theorem InsTh.act {t : Table T F} {trs : List T} {th : Thread T F} (ok : th.env.OK t) (h : InsTh t trs th) {a : Act T F} {acts : List (Act T F)}
    (ha : th.acts = a :: acts) {db : KV} {f : F} {r : Loc T × F} (hr : a db f th.loc = (r, none)) :
    InsTh t trs { th with acts := acts, loc := r.1 } := by
  obtain ⟨c, chunks, D, hacts, hit, hops, hx⟩ := h
  rw [ha] at hacts
  cases hi : th.loc.items with
  | cons e rest =>
    rw [hi] at hacts hit hx
    simp only [List.map_cons, List.cons_append, List.cons.injEq] at hacts
    obtain ⟨rfl, hacts⟩ := hacts
    obtain ⟨x, hcx, hkx⟩ := hit e (by simp)
    unfold insertRow at hr
    rw [hi] at hr
    simp only [Table.insertLoop, Loc.toW, hcx] at hr
    split at hr
    · simp at hr
    · split at hr
      · simp at hr
      · cases hb : t.ser x with
        | none => rw [hb] at hr; simp at hr
        | some b =>
          rw [hb] at hr
          simp only [Loc.upd, Prod.mk.injEq, and_true] at hr
          subst hr
          refine ⟨c, chunks, D ++ [x], hacts, fun e' he' => hit e' (by simp [he']), ?_, fun y => ?_⟩
          · simp only; rw [hkx]; exact hops.add hb (ok.order _)
          · rw [hx y]
            simp only [List.mem_cons, exists_eq_or_imp, List.mem_append, List.not_mem_nil, or_false]
            constructor
            · rintro (h | (h | h) | h)
              · exact .inl (.inl h)
              · rw [hcx] at h; simp only [Option.some.injEq] at h; exact .inl (.inr h.symm)
              · exact .inr (.inl h)
              · exact .inr (.inr h)
            · rintro ((h | h) | h | h)
              · exact .inl h
              · subst h; exact .inr (.inl (.inl hcx))
              · exact .inr (.inl (.inr h))
              · exact .inr (.inr h)
  | nil =>
    rw [hi] at hacts hx
    cases chunks with
    | nil => simp at hacts
    | cons c' chunks =>
      simp only [List.map_nil, List.nil_append, List.flatMap_cons, List.cons_append, List.cons.injEq] at hacts
      obtain ⟨rfl, hacts⟩ := hacts
      simp only [openSlice, Prod.mk.injEq, and_true] at hr
      subst hr
      have hmem : ∀ e ∈ sortKeys th.env (c'.map t.key), ∃ x, c'[e.2]? = some x ∧ e.1 = t.key x := by
        intro e he
        have hk := sortKeys_key t th.env c' e he
        unfold sortKeys at he
        obtain ⟨j, hj, rfl⟩ := List.mem_map.1 he
        have hj := (ok.sort_perm _).mem_iff.1 hj
        rw [List.mem_range, List.length_map] at hj
        exact ⟨c'[j], by simp [hj], hk _ (by simp [hj])⟩
      refine ⟨c', chunks, D, hacts, hmem, hops, fun y => ?_⟩
      rw [hx y]
      have e : (∃ e ∈ sortKeys th.env (c'.map t.key), c'[e.2]? = some y) ↔ y ∈ c' := by
        constructor
        · rintro ⟨e, _, h⟩; exact List.mem_of_getElem? h
        · intro hy
          obtain ⟨j, hj, rfl⟩ := List.mem_iff_getElem.1 hy
          refine ⟨((c'.map t.key).getD j [], j), ?_, by simp [hj]⟩
          exact List.mem_map.2 ⟨j, (ok.sort_perm _).mem_iff.2 (by rw [List.mem_range, List.length_map]; exact hj), rfl⟩
      simp only [List.not_mem_nil, false_and, exists_false, false_or, List.mem_cons, exists_eq_or_imp]
      rw [e]

theorem InsTh.done {t : Table T F} {trs : List T} {th : Thread T F} (h : InsTh t trs th) (ha : th.acts = []) : OpsOf t trs th.loc.ops := by
  obtain ⟨c, chunks, D, hacts, hit, hops, hx⟩ := h
  rw [ha] at hacts
  obtain ⟨h1, h2⟩ := List.append_eq_nil_iff.1 hacts.symm
  have hi : th.loc.items = [] := by simpa using h1
  have hc : chunks = [] := by
    cases chunks with
    | nil => rfl
    | cons => simp at h2
  subst hc
  rw [hi] at hx
  have hx' : ∀ x, x ∈ trs ↔ x ∈ D := fun x => by rw [hx x]; simp
  exact ⟨fun o => by rw [hops.1 o]; simp only [hx'], fun x hm => hops.2 x ((hx' x).1 hm)⟩

theorem get_apply_onlySets (ops : List WOp) (hs : ∀ o ∈ ops, ∃ k v, o = .set k v) (k : Bytes) : ∀ V : KV,
    ((V.apply ops).get k = V.get k ∧ ∀ v, WOp.set k v ∉ ops) ∨ ∃ v, WOp.set k v ∈ ops ∧ (V.apply ops).get k = some v := by
  induction ops with
  | nil => intro V; exact .inl ⟨rfl, by simp⟩
  | cons o ops ih =>
    intro V
    obtain ⟨k', v', rfl⟩ := hs o (by simp)
    have e : V.apply (.set k' v' :: ops) = (V.set k' v').apply ops := rfl
    rw [e]
    rcases ih (fun o ho => hs o (by simp [ho])) (V.set k' v') with ⟨h, hn⟩ | ⟨v, hm, h⟩
    · by_cases hk : k = k'
      · subst hk; refine .inr ⟨v', by simp, ?_⟩; rw [h, KV.get_set, if_pos rfl]
      · refine .inl ⟨by rw [h, KV.get_set, if_neg hk], fun v hv => ?_⟩
        rcases List.mem_cons.1 hv with hv | hv
        · simp only [WOp.set.injEq] at hv; exact hk hv.1
        · exact hn v hv
    · exact .inr ⟨v, by simp [hm], h⟩

/-- row `x` was given to an Insert that has succeeded -/
def Spec.Won (cs : List (Env T × WCall T)) (w : World T F) (x : T) : Prop :=
  ∃ (i : Nat) (th : Thread T F) (env : Env T) (trs : List T),
    w.threads[i]? = some th ∧ th.res = some none ∧ cs[i]? = some (env, .insert trs) ∧ x ∈ trs

/-- what Inserts at the same time leave: every row is the one there was, or one given to an Insert that succeeded; every index has the
entries it had and those of all rows given to Inserts that succeeded -/
structure Spec.Raced (t : Table T F) (db : KV) (won : T → Prop) (now : KV) : Prop where
  ser : ∀ x, won x → (t.ser x).isSome
  data : ∀ pk, (now.get (dataKey t.id pk) = db.get (dataKey t.id pk) ∧ ∀ y, won y → t.pk y ≠ pk) ∨
    ∃ y b, won y ∧ t.pk y = pk ∧ t.ser y = some b ∧ now.get (dataKey t.id pk) = some b
  index : ∀ idx ∈ t.indexes, ∀ k v, InSpace t.id idx.id k →
    (now.get k = some v ↔ db.get k = some v ∧ (∀ x, won x → idx.filter x = true → k ≠ t.indexKey idx x) ∨
      v = [] ∧ ∃ x, won x ∧ idx.filter x = true ∧ k = t.indexKey idx x)

theorem idx_eq_of_space {t : Table T F} (wf : t.WF) {idx idx' : Index T} (hi : idx ∈ t.indexes) (hi' : idx' ∈ t.indexes) {k : Bytes}
    (h : InSpace t.id idx.id k) (h' : InSpace t.id idx'.id k) : idx' = idx := by
  obtain ⟨r, rfl⟩ := h
  obtain ⟨r', e⟩ := h'
  have hid := (head2 e).2
  exact wf.id_inj hi' hi hid.symm

theorem Spec.Raced.commit {t : Table T F} (wf : t.WF) {db now : KV} {won : T → Prop} (h : Raced t db won now) {trs : List T} {ops : List WOp}
    (ho : OpsOf t trs ops) : Raced t db (fun x => won x ∨ x ∈ trs) (now.apply ops) := by
  have hsets : ∀ o ∈ ops, ∃ k v, o = .set k v := by
    intro o hm
    obtain ⟨x, _, hr⟩ := (ho.1 o).1 hm
    rcases hr with ⟨b, _, rfl⟩ | ⟨idx, _, _, rfl⟩ <;> exact ⟨_, _, rfl⟩
  refine ⟨?_, fun pk => ?_, fun idx hi k v hk => ?_⟩
  · rintro x (hx | hx)
    · exact h.ser x hx
    · exact ho.2 x hx
  · rcases get_apply_onlySets ops hsets (dataKey t.id pk) now with ⟨hg, hn⟩ | ⟨v, hm, hg⟩
    · have hnot : ∀ y ∈ trs, t.pk y ≠ pk := by
        intro y hy e
        obtain ⟨b, hb⟩ := Option.isSome_iff_exists.1 (ho.2 y hy)
        refine hn b ((ho.1 _).2 ⟨y, hy, .inl ⟨b, hb, ?_⟩⟩)
        subst e; rfl
      rcases h.data pk with ⟨h1, h2⟩ | ⟨y, b, hw, hp, hb, hs⟩
      · refine .inl ⟨by rw [hg, h1], ?_⟩
        rintro y (hy | hy)
        · exact h2 y hy
        · exact hnot y hy
      · exact .inr ⟨y, b, .inl hw, hp, hb, by rw [hg, hs]⟩
    · obtain ⟨y, hy, hr⟩ := (ho.1 _).1 hm
      rcases hr with ⟨b, hb, e⟩ | ⟨idx, hi, _, e⟩
      · simp only [WOp.set.injEq] at e
        obtain ⟨e1, rfl⟩ := e
        exact .inr ⟨y, v, .inr hy, (dataKey_inj e1).2.symm, hb, hg⟩
      · simp only [WOp.set.injEq] at e
        have h0 := inSpace_dataKey t.id pk
        rw [e.1] at h0
        obtain ⟨r, e1⟩ := h0
        obtain ⟨r', e2⟩ := inSpace_indexKey t idx y
        rw [e1] at e2
        exact absurd (head2 e2).2.symm (wf.nz idx hi)
  · have hin : ∀ v, .set k v ∈ ops → v = [] ∧ ∃ x ∈ trs, idx.filter x = true ∧ k = t.indexKey idx x := by
      intro v hm
      obtain ⟨y, hy, hr⟩ := (ho.1 _).1 hm
      rcases hr with ⟨b, hb, e⟩ | ⟨idx', hi', hf, e⟩
      · simp only [WOp.set.injEq] at e
        obtain ⟨r, e1⟩ := hk
        obtain ⟨r', e2⟩ := inSpace_dataKey t.id (t.pk y)
        have e3 : t.id :: idx.id :: r = t.id :: 0 :: r' := by rw [← e1, e.1, ← e2]; rfl
        exact absurd (head2 e3).2 (wf.nz idx hi)
      · simp only [WOp.set.injEq] at e
        have := idx_eq_of_space wf hi hi' hk (by rw [e.1]; exact inSpace_indexKey t idx' y)
        subst this
        exact ⟨e.2, y, hy, hf, e.1⟩
    rcases get_apply_onlySets ops hsets k now with ⟨hg, hn⟩ | ⟨v', hm, hg⟩
    · have hnot : ∀ x ∈ trs, idx.filter x = true → k ≠ t.indexKey idx x := by
        rintro x hx hf rfl
        exact hn [] ((ho.1 _).2 ⟨x, hx, .inr ⟨idx, hi, hf, rfl⟩⟩)
      rw [hg, h.index idx hi k v hk]
      constructor
      · rintro (⟨h1, h2⟩ | ⟨h1, x, hw, hf, he⟩)
        · exact .inl ⟨h1, fun x hx hf => hx.elim (fun hx => h2 x hx hf) (fun hx => hnot x hx hf)⟩
        · exact .inr ⟨h1, x, .inl hw, hf, he⟩
      · rintro (⟨h1, h2⟩ | ⟨h1, x, hw, hf, he⟩)
        · exact .inl ⟨h1, fun x hx hf => h2 x (.inl hx) hf⟩
        · rcases hw with hw | hw
          · exact .inr ⟨h1, x, hw, hf, he⟩
          · exact absurd he (hnot x hw hf)
    · obtain ⟨rfl, x, hx, hf, he⟩ := hin v' hm
      rw [hg]
      constructor
      · intro hv; simp only [Option.some.injEq] at hv; exact .inr ⟨hv.symm, x, .inr hx, hf, he⟩
      · rintro (⟨_, h2⟩ | ⟨h1, _⟩)
        · exact absurd he (h2 x (.inr hx) hf)
        · rw [h1]

theorem Spec.Raced.congr {t : Table T F} {db now : KV} {won won' : T → Prop} (h : Raced t db won now) (he : ∀ x, won' x ↔ won x) : Raced t db won' now := by
  have : won' = won := funext (fun x => propext (he x))
  rw [this]; exact h

theorem Spec.Raced.others {t : Table T F} {db now : KV} {won : T → Prop} (h : Raced t db won now) {ops : List WOp}
    (ho : ∀ o ∈ ops, ∀ k, o.touches k → Outside t k) : Raced t db won (now.apply ops) := by
  have hd : ∀ pk, (now.apply ops).get (dataKey t.id pk) = now.get (dataKey t.id pk) := fun pk =>
    get_apply_of_not_touch _ _ _ (fun o hm ht => (ho o hm _ ht).1 (inSpace_dataKey t.id pk))
  refine ⟨h.ser, fun pk => by rw [hd]; exact h.data pk, fun idx hi k v hk => ?_⟩
  rw [get_apply_of_not_touch _ _ _ (fun o hm ht => (ho o hm _ ht).2 idx hi hk)]
  exact h.index idx hi k v hk

/-- all calls are Inserts, and what they have left so far -/
structure RaceInv (t : Table T F) (db : KV) (cs : List (Env T × WCall T)) (w : World T F) : Prop where
  len : w.threads.length = cs.length
  threads : ∀ (i : Nat) (th : Thread T F) (env : Env T) (c : WCall T), w.threads[i]? = some th → cs[i]? = some (env, c) → th.env = env ∧
    ∃ trs, c = WCall.insert trs ∧ (th.res = none → InsTh t trs th)
  raced : Raced t db (Won cs w) w.db

theorem RaceInv.step {t : Table T F} (wf : t.WF) {db : KV} {cs : List (Env T × WCall T)} (hok : ∀ c ∈ cs, c.1.OK t) {w : World T F}
    (h : RaceInv t db cs w) (x : Nat ⊕ List WOp) (hx : ∀ ops, x = .inr ops → ∀ o ∈ ops, ∀ k, o.touches k → Outside t k) : RaceInv t db cs (w.step x) := by
  cases x with
  | inr ops => exact ⟨h.len, h.threads, h.raced.others (hx ops rfl)⟩
  | inl i =>
    simp only [World.step]
    cases hth : w.threads[i]? with
    | none => exact h
    | some th =>
      simp only
      cases hres : th.res with
      | some r => exact h
      | none =>
        simp only
        have hlt : i < w.threads.length := (List.getElem?_eq_some_iff.1 hth).1
        obtain ⟨⟨env, call⟩, hci⟩ : ∃ c, cs[i]? = some c := by
          have : i < cs.length := h.len ▸ hlt
          exact ⟨cs[i], by simp [this]⟩
        obtain ⟨henv, trs, hcall, hins⟩ := h.threads i th env call hth hci
        have hins := hins hres
        have ok : th.env.OK t := by rw [henv]; exact hok _ (List.mem_of_getElem? hci)
        -- the threads after replacing thread `i`
        have hset : ∀ (th' : Thread T F), th'.env = th.env → (th'.res = none → InsTh t trs th') →
            ∀ (j : Nat) (thj : Thread T F) (env : Env T) (c : WCall T), (w.threads.set i th')[j]? = some thj → cs[j]? = some (env, c) → thj.env = env ∧
              ∃ trs, c = WCall.insert trs ∧ (thj.res = none → InsTh t trs thj) := by
          intro th' he hi' j thj env' c' hj hcj
          rw [List.getElem?_set] at hj
          by_cases hij : i = j
          · subst hij
            rw [if_pos rfl, if_pos hlt] at hj
            simp only [Option.some.injEq] at hj; subst hj
            rw [hci] at hcj; simp only [Option.some.injEq, Prod.mk.injEq] at hcj
            exact ⟨by rw [he, henv, hcj.1], trs, by rw [← hcj.2, hcall], hi'⟩
          · rw [if_neg hij] at hj; exact h.threads j thj env' c' hj hcj
        have hwon : ∀ (w' : World T F) (th' : Thread T F), w'.threads = w.threads.set i th' → th'.res ≠ some none →
            ∀ x, Won cs w' x ↔ Won cs w x := by
          intro w' th' hw' hne x
          constructor
          · rintro ⟨j, thj, e', trs', hj, hr, hcj, hm⟩
            rw [hw', List.getElem?_set] at hj
            by_cases hij : i = j
            · rw [if_pos hij, if_pos hlt] at hj
              simp only [Option.some.injEq] at hj; subst hj; exact absurd hr hne
            · rw [if_neg hij] at hj; exact ⟨j, thj, e', trs', hj, hr, hcj, hm⟩
          · rintro ⟨j, thj, e', trs', hj, hr, hcj, hm⟩
            have hij : i ≠ j := by
              rintro rfl
              rw [hth] at hj; simp only [Option.some.injEq] at hj; subst hj; rw [hres] at hr; exact absurd hr (by simp)
            exact ⟨j, thj, e', trs', by rw [hw', List.getElem?_set, if_neg hij]; exact hj, hr, hcj, hm⟩
        cases hacts : th.acts with
        | cons a acts =>
          simp only
          cases hr : a w.db w.filt th.loc with
          | mk r e =>
            cases e with
            | none =>
              simp only
              refine ⟨by simp [h.len], hset _ rfl (fun _ => hins.act ok hacts hr), ?_⟩
              exact h.raced.congr (hwon _ _ rfl (by simp))
            | some e =>
              simp only
              exact ⟨by simp [h.len], hset _ rfl (by simp), h.raced.congr (hwon _ _ rfl (by simp))⟩
        | nil =>
          simp only
          have hops := hins.done hacts
          have hfin : (finish th.env w.db none (th.loc.toW w.filt, none)).err = none ∧
                (finish th.env w.db none (th.loc.toW w.filt, none)).db = w.db.apply th.loc.ops ∨
              (finish th.env w.db none (th.loc.toW w.filt, none)).err ≠ none ∧
                (finish th.env w.db none (th.loc.toW w.filt, none)).db = w.db := by
            simp only [finish, Loc.toW]
            by_cases h0 : th.loc.ops = []
            · left; simp [h0, KV.apply]
            · by_cases hc : th.env.commitOk = true
              · left; simp [h0, hc]
              · right; simp [h0, hc]
          rcases hfin with ⟨he, hd⟩ | ⟨he, hd⟩
          · refine ⟨by simp [h.len], hset _ rfl (by simp), ?_⟩
            simp only
            rw [hd]
            refine (h.raced.commit wf hops).congr (fun x => ?_)
            constructor
            · rintro ⟨j, thj, e', trs', hj, hr, hcj, hm⟩
              simp only at hj
              rw [List.getElem?_set] at hj
              by_cases hij : i = j
              · subst hij
                rw [hci, hcall] at hcj
                simp only [Option.some.injEq, Prod.mk.injEq, WCall.insert.injEq] at hcj
                right; rw [hcj.2]; exact hm
              · rw [if_neg hij] at hj; exact .inl ⟨j, thj, e', trs', hj, hr, hcj, hm⟩
            · rintro (⟨j, thj, e', trs', hj, hr, hcj, hm⟩ | hm)
              · have hij : i ≠ j := by
                  rintro rfl
                  rw [hth] at hj; simp only [Option.some.injEq] at hj; subst hj; rw [hres] at hr; exact absurd hr (by simp)
                exact ⟨j, thj, e', trs', by simp only; rw [List.getElem?_set, if_neg hij]; exact hj, hr, hcj, hm⟩
              · exact ⟨i, _, env, trs, by simp only; rw [List.getElem?_set, if_pos rfl, if_pos hlt], by simp only [he], by rw [hci, hcall], hm⟩
          · refine ⟨by simp [h.len], hset _ rfl (by simp), ?_⟩
            simp only
            rw [hd]
            exact h.raced.congr (hwon _ _ rfl (by simp only [ne_eq, Option.some.injEq]; exact he))

theorem RaceInv.run {t : Table T F} (wf : t.WF) {db : KV} {cs : List (Env T × WCall T)} (hok : ∀ c ∈ cs, c.1.OK t) (sched : List (Nat ⊕ List WOp)) :
    ∀ {w : World T F}, OthersOutside t sched → RaceInv t db cs w → RaceInv t db cs (w.run sched) := by
  induction sched with
  | nil => intro w _ h; exact h
  | cons x sched ih =>
    intro w ho h
    exact ih (fun ops hm => ho ops (by simp [hm])) (h.step wf hok x (fun ops e => ho ops (by simp [e])))

end Bond
