import Verif.Buffers
import Verif.MemoryLemmas
import Verif.Spec.Rows
/-
The reads on memory are the reads on bytes.
-/
namespace Bond

variable {T F σ α : Type}

/-- the slice without its spare capacity -/
def Sl.clip (s : Sl) : Sl := { s with cap := s.len }

theorem Sl.clip_read (m : Mem) (s : Sl) : m.read s.clip = m.read s := rfl

theorem Sl.Dis.zero {r s : Sl} (h : r.Dis s) : r.Dis s.zero := h

theorem Sl.Dis.clip {r s : Sl} (h : r.Dis s) (hs : s.len ≤ s.cap) : r.Dis s.clip := by
  rcases h with h | h | h
  · exact Or.inl h
  · exact Or.inr (Or.inl h)
  · right; right; simp only [Sl.clip]; omega

theorem Sl.Dis.tail {r s : Sl} (h : r.Dis s) (hs : s.len ≤ s.cap) : r.Dis s.tail := by
  rcases h with h | h | h
  · exact Or.inl h
  · right; left; simp only [Sl.tail]; omega
  · right; right; simp only [Sl.tail]; omega

theorem Sl.clip_dis_tail (s : Sl) : s.clip.Dis s.tail := by
  right; left; simp [Sl.clip, Sl.tail]

theorem Sl.OK.clip {m : Mem} {s : Sl} (h : s.OK m) : s.clip.OK m := ⟨h.1, Nat.le_refl _⟩
theorem Sl.OK.zero {m : Mem} {s : Sl} (h : s.OK m) : s.zero.OK m := ⟨h.1, Nat.zero_le _⟩
theorem Sl.OK.tail {m : Mem} {s : Sl} (h : s.OK m) : s.tail.OK m := ⟨h.1, Nat.zero_le _⟩

/-- the collecting loop on memory: the keys are those of the loop on bytes, and they are apart from the buffers of the values -/
theorem collectKeysM_spec (t : Table T F) (grow : Nat → Nat → Nat) (G : Sl → Prop) : ∀ (es : List (Bytes × Bytes)) (m : Mem) (next : Sl)
    (keys iks : List Sl), next.OK m → (∀ g, G g → g.OK m ∧ g.Dis next) →
    (∀ k ∈ keys ++ iks, k.clip.OK m ∧ k.clip.Dis next ∧ ∀ g, G g → g.Dis k.clip) →
    match t.collectKeysM grow es m next keys iks with
    | none => t.collectKeys es (keys.map m.read) (iks.map m.read) = none
    | some (rest, m', keys', iks') =>
      t.collectKeys es (keys.map m.read) (iks.map m.read) = some (rest, keys'.map m'.read, iks'.map m'.read) ∧ m.next ≤ m'.next ∧
      ∀ k ∈ keys' ++ iks', k.clip.OK m' ∧ ∀ g, G g → g.Dis k.clip := by
  intro es
  induction es with
  | nil =>
    intro m next keys iks hn hG hk
    simp only [Table.collectKeysM, Table.collectKeys]
    exact ⟨trivial, Nat.le_refl _, fun k h => ⟨(hk k h).1, (hk k h).2.2⟩⟩
  | cons e es ih =>
    intro m next keys iks hn hG hk
    obtain ⟨k, v⟩ := e
    simp only [Table.collectKeysM, Table.collectKeys]
    have w1 := append_writes grow hn.zero k
    have r1 := read_append grow m next.zero k
    rw [Mem.read_zero, List.nil_append] at r1
    generalize m.append grow next.zero k = x at w1 r1 ⊢
    have ht := toDataKeyBytesM_spec grow k (w1.ok.tail.zero)
    rw [Mem.read_zero] at ht
    have eq0 : toDataKeyBytes k = toDataKeyBytes k [] := rfl
    cases hd : toDataKeyBytesM grow k x.1 x.2.tail.zero with
    | none => rw [hd] at ht; simp only at ht; simp only [eq0, ht]
    | some r =>
      rw [hd] at ht
      obtain ⟨m2, key⟩ := r
      obtain ⟨w2, r2⟩ := ht
      simp only at w2 r2
      simp only [eq0, r2]
      -- everything held so far
      have hold : ∀ s : Sl, s.OK m → s.Dis next → m2.read s = m.read s ∧ s.OK m2 ∧ s.Dis x.2 ∧ s.Dis key := by
        intro s hs hd
        obtain ⟨a1, a2⟩ := w1.frame s hs hd
        obtain ⟨b1, b2⟩ := w2.frame s (hs.mono w1.next_le) (a2.tail w1.ok.2)
        exact ⟨b1.trans a1, (hs.mono w1.next_le).mono w2.next_le, a2, b2⟩
      have hx := w2.frame x.2.clip w1.ok.clip x.2.clip_dis_tail
      have hmap : ∀ l : List Sl, (∀ s ∈ l, s ∈ keys ++ iks) → l.map m2.read = l.map m.read := by
        intro l hl
        apply List.map_congr_left
        intro s hs
        have := hk s (hl s hs)
        exact (hold s.clip this.1 this.2.1).1
      have ek : (keys ++ [key]).map m2.read = keys.map m.read ++ [m2.read key] := by
        rw [List.map_append, hmap keys (fun s h => List.mem_append_left _ h)]; rfl
      have ei : (iks ++ [x.2]).map m2.read = iks.map m.read ++ [k] := by
        rw [List.map_append, hmap iks (fun s h => List.mem_append_right _ h), List.map_singleton]
        have : m2.read x.2 = k := by rw [← r1]; exact hx.1
        rw [this]
      have all : ∀ s ∈ (keys ++ [key]) ++ (iks ++ [x.2]), s.clip.OK m2 ∧ s.clip.Dis key.tail ∧ ∀ g, G g → g.Dis s.clip := by
        intro s hs
        have cases4 : s ∈ keys ++ iks ∨ s = key ∨ s = x.2 := by
          simp only [List.mem_append, List.mem_singleton] at hs ⊢
          rcases hs with (h | h) | h | h
          · exact Or.inl (Or.inl h)
          · exact Or.inr (Or.inl h)
          · exact Or.inl (Or.inr h)
          · exact Or.inr (Or.inr h)
        rcases cases4 with h | h | h
        · obtain ⟨a, b, c⟩ := hk s h
          obtain ⟨_, o, _, d⟩ := hold s.clip a b
          exact ⟨o, d.tail w2.ok.2, c⟩
        · subst h
          exact ⟨w2.ok.clip, s.clip_dis_tail, fun g hg => (hold g (hG g hg).1 (hG g hg).2).2.2.2.clip w2.ok.2⟩
        · subst h
          exact ⟨w1.ok.clip.mono w2.next_le, hx.2.tail w2.ok.2,
            fun g hg => (hold g (hG g hg).1 (hG g hg).2).2.2.1.clip w1.ok.2⟩
      rw [← ek, ← ei, List.length_map]
      by_cases hl : (keys ++ [key]).length < t.prefetch
      · rw [if_pos hl, if_pos hl]
        have := ih m2 key.tail (keys ++ [key]) (iks ++ [x.2]) w2.ok.tail
          (fun g hg => ⟨(hold g (hG g hg).1 (hG g hg).2).2.1, (hold g (hG g hg).1 (hG g hg).2).2.2.2.tail w2.ok.2⟩) all
        cases hc : t.collectKeysM grow es m2 key.tail (keys ++ [key]) (iks ++ [x.2]) with
        | none => rw [hc] at this; exact this
        | some q =>
          rw [hc] at this
          obtain ⟨a, b, c⟩ := this
          exact ⟨a, Nat.le_trans (Nat.le_trans w1.next_le w2.next_le) b, c⟩
      · rw [if_neg hl, if_neg hl]
        exact ⟨rfl, Nat.le_trans w1.next_le w2.next_le, fun s hs => ⟨(all s hs).1, (all s hs).2.2⟩⟩

/-- `vs'` in `m'` come from writing to the buffers `vs` in `m` -/
structure Upd (m : Mem) (vs : List Sl) (m' : Mem) (vs' : List Sl) : Prop where
  length_eq : vs'.length = vs.length
  next_le : m.next ≤ m'.next
  bufs : Bufs m' vs'
  frame : ∀ r : Sl, r.OK m → (∀ v ∈ vs, r.Dis v) → m'.read r = m.read r ∧ ∀ v ∈ vs', r.Dis v

theorem Upd.refl {m : Mem} {vs : List Sl} (h : Bufs m vs) : Upd m vs m vs := ⟨rfl, Nat.le_refl _, h, fun _ _ h => ⟨rfl, h⟩⟩

theorem Bufs.tail {m : Mem} {v : Sl} {vs : List Sl} (h : Bufs m (v :: vs)) : Bufs m vs :=
  ⟨fun s hs => h.1 s (List.mem_cons_of_mem _ hs), (List.pairwise_cons.mp h.2).2⟩

/-- the first buffer is written to, then the others -/
theorem Upd.cons {m m1 m2 : Mem} {v v1 : Sl} {vs vs' : List Sl} (hb : Bufs m (v :: vs)) (w : Writes m v m1 v1) (u : Upd m1 vs m2 vs') :
    Upd m (v :: vs) m2 (v1 :: vs') ∧ m2.read v1 = m1.read v1 := by
  have hp := List.pairwise_cons.mp hb.2
  have hv : ∀ r ∈ vs, v1.Dis r := fun r hr => ((w.frame r (hb.1 r (List.mem_cons_of_mem _ hr)) (hp.1 r hr).symm).2).symm
  obtain ⟨e, d⟩ := u.frame v1 w.ok hv
  refine ⟨⟨by simp [u.length_eq], Nat.le_trans w.next_le u.next_le, ⟨?_, List.pairwise_cons.mpr ⟨d, u.bufs.2⟩⟩, ?_⟩, e⟩
  · intro s hs
    rcases List.mem_cons.mp hs with h | h
    · rw [h]; exact w.ok.mono u.next_le
    · exact u.bufs.1 s h
  · intro r hr hd
    obtain ⟨a1, a2⟩ := w.frame r hr (hd v List.mem_cons_self)
    have hvs : ∀ x ∈ vs, r.Dis x := fun x hx => hd x (List.mem_cons_of_mem _ hx)
    obtain ⟨b1, b2⟩ := u.frame r (hr.mono w.next_le) hvs
    refine ⟨b1.trans a1, fun x hx => ?_⟩
    rcases List.mem_cons.mp hx with h | h
    · rw [h]; exact a2
    · exact b2 x h

/-- the first buffers after writing to others are as good as before -/
theorem Bufs.tail_writes {m m1 : Mem} {v v1 : Sl} {vs : List Sl} (hb : Bufs m (v :: vs)) (w : Writes m v m1 v1) : Bufs m1 vs :=
  ⟨fun s hs => (hb.1 s (List.mem_cons_of_mem _ hs)).mono w.next_le, hb.tail.2⟩

theorem getLoopM_spec (t : Table T F) (grow : Nat → Nat → Nat) (f : F) (entries : List (Bytes × Bytes)) (eone : Bool) :
    ∀ (keys : List Sl) (m : Mem) (vs : List Sl), Bufs m vs → (∀ k ∈ keys, k.clip.OK m ∧ ∀ v ∈ vs, k.clip.Dis v) →
    Upd m vs (t.getLoopM grow f entries eone m keys vs).1 (t.getLoopM grow f entries eone m keys vs).2.1 ∧
    t.getLoop f entries eone (keys.map m.read) vs.length =
      (match (t.getLoopM grow f entries eone m keys vs).2.2 with
        | some e => .error e
        | none => .ok (((t.getLoopM grow f entries eone m keys vs).2.1.take keys.length).map (t.getLoopM grow f entries eone m keys vs).1.read)) ∧
    ((t.getLoopM grow f entries eone m keys vs).2.2 = none → keys.length ≤ vs.length) := by
  intro keys
  induction keys with
  | nil =>
    intro m vs hb _
    simp only [Table.getLoopM, List.map_nil, Table.getLoop]
    exact ⟨Upd.refl hb, by simp, fun _ => Nat.zero_le _⟩
  | cons k ks ih =>
    intro m vs hb hk
    simp only [Table.getLoopM, List.map_cons, Table.getLoop]
    generalize (if t.mayContain f (m.read k) = true then seekExact entries (m.read k) else none) = found
    cases found with
    | none =>
      simp only [Option.isNone_none, Bool.true_and, Option.getD_none]
      cases eone with
      | true => simp only [↓reduceIte]; exact ⟨Upd.refl hb, trivial, by simp⟩
      | false =>
        simp only [Bool.false_eq_true, ↓reduceIte]
        cases vs with
        | nil => simp only [List.length_nil, ↓reduceIte]; exact ⟨Upd.refl hb, trivial, by simp⟩
        | cons v vs =>
          have hv := hb.1 v List.mem_cons_self
          have w : Writes m v m v.zero := ⟨Nat.le_refl _, hv.zero, fun _ _ hd => ⟨rfl, hd.zero⟩⟩
          obtain ⟨u, c, l⟩ := ih m vs hb.tail (fun s hs => ⟨(hk s (List.mem_cons_of_mem _ hs)).1,
            fun x hx => (hk s (List.mem_cons_of_mem _ hs)).2 x (List.mem_cons_of_mem _ hx)⟩)
          obtain ⟨U, e⟩ := Upd.cons hb w u
          refine ⟨U, ?_, ?_⟩
          · simp only [List.length_cons, Nat.add_sub_cancel, Nat.add_eq_zero_iff, Nat.succ_ne_zero, and_false, ↓reduceIte, c]
            cases (t.getLoopM grow f entries false m ks vs).2.2 with
            | some e => rfl
            | none => simp [Except.map, Mem.read_zero]
          · intro h; have := l h; simp only [List.length_cons]; omega
    | some x =>
      simp only [Option.isNone_some, Bool.false_and, Bool.false_eq_true, ↓reduceIte, Option.getD_some]
      cases vs with
      | nil => simp only [List.length_nil, ↓reduceIte]; exact ⟨Upd.refl hb, trivial, by simp⟩
      | cons v vs =>
        have hv := hb.1 v List.mem_cons_self
        have w0 : Writes m v m v.zero := ⟨Nat.le_refl _, hv.zero, fun _ _ hd => ⟨rfl, hd.zero⟩⟩
        have w := w0.trans (append_writes grow hv.zero x)
        have rd := read_append grow m v.zero x
        rw [Mem.read_zero, List.nil_append] at rd
        dsimp only
        generalize m.append grow v.zero x = a at w rd ⊢
        have hkk : ∀ s ∈ ks, s.clip.OK a.1 ∧ a.1.read s = m.read s ∧ ∀ y ∈ vs, s.clip.Dis y := by
          intro s hs
          obtain ⟨o, d⟩ := hk s (List.mem_cons_of_mem _ hs)
          exact ⟨o.mono w.next_le, (w.frame s.clip o (d v List.mem_cons_self)).1, fun y hy => d y (List.mem_cons_of_mem _ hy)⟩
        obtain ⟨u, c, l⟩ := ih a.1 vs (hb.tail_writes w) (fun s hs => ⟨(hkk s hs).1, (hkk s hs).2.2⟩)
        obtain ⟨U, e⟩ := Upd.cons hb w u
        have hm : ks.map a.1.read = ks.map m.read := List.map_congr_left (fun s hs => (hkk s hs).2.1)
        rw [hm] at c
        refine ⟨U, ?_, ?_⟩
        · simp only [List.length_cons, Nat.add_sub_cancel, Nat.add_eq_zero_iff, Nat.succ_ne_zero, and_false, ↓reduceIte, c]
          cases (t.getLoopM grow f entries eone a.1 ks vs).2.2 with
          | some e => rfl
          | none => simp only [Except.map, List.take_succ_cons, List.map_cons, e, rd]
        · intro h; have := l h; simp only [List.length_cons]; omega

theorem insByPosM_map (g : α → Bytes) (x : Nat × α) : ∀ l : List (Nat × α),
    (insByPosM x l).map (fun p => (p.1, g p.2)) = insByPos (x.1, g x.2) (l.map (fun p => (p.1, g p.2)))
  | [] => rfl
  | y :: l => by
    simp only [insByPosM, insByPos, List.map_cons]
    split
    · rfl
    · rw [List.map_cons, insByPosM_map g x l]

theorem insByPosM_perm (x : Nat × α) : ∀ l : List (Nat × α), (insByPosM x l).Perm (x :: l)
  | [] => List.Perm.refl _
  | y :: l => by
    simp only [insByPosM]
    split
    · exact List.Perm.refl _
    · exact ((insByPosM_perm x l).cons y).trans (List.Perm.swap x y l)

theorem reorderValuesM_map (g : α → Bytes) (values : List α) (order : List Nat) :
    (reorderValuesM values order).map g = reorderValues (values.map g) order := by
  unfold reorderValuesM reorderValues
  have h : ∀ l : List (Nat × α), (l.foldr insByPosM []).map (fun p => (p.1, g p.2)) =
      (l.map (fun p => (p.1, g p.2))).foldr insByPos [] := by
    intro l
    induction l with
    | nil => rfl
    | cons x l ih => rw [List.foldr_cons, insByPosM_map, ih]; rfl
  have hz : order.zip (values.map g) = (order.zip values).map (fun p => (p.1, g p.2)) := by
    rw [List.zip_map_right]; rfl
  rw [hz, ← h, List.map_map, List.map_map]
  rfl

theorem reorderValuesM_perm (values : List α) (order : List Nat) (hl : order.length = values.length) :
    (reorderValuesM values order).Perm values := by
  unfold reorderValuesM
  have h : ∀ l : List (Nat × α), (l.foldr insByPosM []).Perm l := by
    intro l
    induction l with
    | nil => exact List.Perm.refl _
    | cons x l ih => rw [List.foldr_cons]; exact (insByPosM_perm x _).trans (ih.cons x)
  have := (h (order.zip values)).map Prod.snd
  rwa [List.map_snd_zip (by omega)] at this

theorem sortKeysM_fst (env : Env T) (m : Mem) (keys : List Sl) :
    ((sortKeysM env m keys).map Prod.fst).map m.read = (sortKeys env (keys.map m.read)).map Prod.fst := by
  unfold sortKeysM sortKeys
  simp only [List.map_map]
  apply List.map_congr_left
  intro j _
  simp only [Function.comp]
  rw [List.getD_eq_getElem?_getD, List.getD_eq_getElem?_getD, List.getElem?_map]
  cases keys[j]? with
  | none => rfl
  | some s => rfl

theorem sortKeysM_snd (env : Env T) (m : Mem) (keys : List Sl) :
    (sortKeysM env m keys).map Prod.snd = (sortKeys env (keys.map m.read)).map Prod.snd := by
  simp [sortKeysM, sortKeys]

theorem sortKeysM_mem {t : Table T F} {env : Env T} (ok : env.OK t) (m : Mem) (keys : List Sl) {s : Sl}
    (h : s ∈ (sortKeysM env m keys).map Prod.fst) : s ∈ keys := by
  simp only [sortKeysM, List.map_map, List.mem_map, Function.comp] at h
  obtain ⟨j, hj, rfl⟩ := h
  have hj := (ok.sort_perm _).mem_iff.mp hj
  rw [List.mem_range, List.length_map] at hj
  rw [List.getD_eq_getElem?_getD, List.getElem?_eq_getElem hj]
  exact List.getElem_mem hj

theorem Bufs.perm {m : Mem} {l l' : List Sl} (h : Bufs m l) (p : l'.Perm l) : Bufs m l' :=
  ⟨fun s hs => h.1 s (p.mem_iff.mp hs), (p.pairwise_iff (fun h => Sl.Dis.symm h)).mpr h.2⟩

/-- `get` on memory is `get` on bytes -/
theorem getKeysM_spec (t : Table T F) {env : Env T} (ok : env.OK t) (grow : Nat → Nat → Nat) (f : F) (db : KV) (ob : Option Batch) (m : Mem)
    (keys vs : List Sl) (eone : Bool) (hb : Bufs m vs) (hk : ∀ k ∈ keys, k.clip.OK m ∧ ∀ v ∈ vs, k.clip.Dis v) :
    Upd m vs (t.getKeysM env grow f db ob m keys vs eone).1 (t.getKeysM env grow f db ob m keys vs eone).2.1 ∧
    t.getKeys env f db ob (keys.map m.read) vs.length eone =
      (t.getKeysM env grow f db ob m keys vs eone).2.2.map (fun l => l.map (t.getKeysM env grow f db ob m keys vs eone).1.read) := by
  unfold Table.getKeysM Table.getKeys
  by_cases h0 : keys = []
  · rw [if_pos h0, if_pos (by rw [h0]; rfl)]
    exact ⟨Upd.refl hb, rfl⟩
  · rw [if_neg h0, if_neg (by simpa using h0)]
    dsimp only
    rw [sortKeysM_fst, sortKeysM_snd]
    generalize iterEntries db ob _ t.dataKeySpaceEnd = entries
    obtain ⟨u, c, l⟩ := getLoopM_spec t grow f entries eone ((sortKeysM env m keys).map Prod.fst) m vs hb
      (fun s hs => hk s (sortKeysM_mem ok m keys hs))
    rw [sortKeysM_fst] at c
    have len : ((sortKeysM env m keys).map Prod.fst).length = keys.length := by
      simp only [sortKeysM, List.length_map]
      rw [(ok.sort_perm _).length_eq, List.length_range, List.length_map]
    rw [len] at c l
    generalize t.getLoopM grow f entries eone m ((sortKeysM env m keys).map Prod.fst) vs = r at u c l
    obtain ⟨m', vs', e⟩ := r
    simp only at u c l
    cases e with
    | some e => simp only at c ⊢; rw [c]; exact ⟨u, rfl⟩
    | none =>
      simp only at c ⊢
      rw [c]
      have hl := l rfl
      have p := reorderValuesM_perm (vs'.take keys.length) ((sortKeys env (keys.map m.read)).map Prod.snd) (by
        rw [← sortKeysM_snd, List.length_map, ← List.length_map (f := Prod.fst), len, List.length_take, u.length_eq]; omega)
      have p' : (reorderValuesM (vs'.take keys.length) ((sortKeys env (keys.map m.read)).map Prod.snd) ++ vs'.drop keys.length).Perm vs' := by
        have := p.append_right (vs'.drop keys.length)
        rwa [List.take_append_drop] at this
      refine ⟨⟨?_, u.next_le, u.bufs.perm p', fun r hr hd => ?_⟩, ?_⟩
      · rw [p'.length_eq, u.length_eq]
      · exact ⟨(u.frame r hr hd).1, fun v hv => (u.frame r hr hd).2 v (p'.mem_iff.mp hv)⟩
      · simp only [Except.map, reorderValuesM_map]

/-- the state on bytes that a state on memory stands for -/
def MSt.abs (p : MSt) : PSt :=
  { rest := p.rest, keys := p.keys.map p.mem.read, indexKeys := p.indexKeys.map p.mem.read, values := p.values.map p.mem.read, vidx := p.vidx }

/-- the buffers of a scan are apart from each other -/
structure MSt.Good (t : Table T F) (p : MSt) : Prop where
  multi : p.multi.OK p.mem
  bufs : Bufs p.mem p.vbuf
  apart : ∀ v ∈ p.vbuf, v.Dis p.multi
  len : p.vbuf.length = t.prefetch

theorem getPrefetchedValueM_spec (t : Table T F) (p : MSt) :
    t.getPrefetchedValue p.abs = (t.getPrefetchedValueM p).map (fun r => (r.1.abs, r.2)) ∧
    ∀ r, t.getPrefetchedValueM p = some r → p.Good t → r.1.Good t := by
  unfold Table.getPrefetchedValue Table.getPrefetchedValueM
  simp only [MSt.abs, List.getElem?_map]
  cases p.values[p.vidx]? with
  | none => exact ⟨rfl, by simp⟩
  | some v =>
    simp only [Option.map_some]
    cases t.deser t.nil (p.mem.read v) with
    | none => exact ⟨rfl, by intro r h g; cases h; exact g⟩
    | some x => exact ⟨rfl, by intro r h g; cases h; exact ⟨g.multi, g.bufs, g.apart, g.len⟩⟩

theorem prefetchAndGetValueM_spec (t : Table T F) {env : Env T} (ok : env.OK t) (grow : Nat → Nat → Nat) (filt : F) (db : KV)
    (ob : Option Batch) (p : MSt) (g : p.Good t) (hk : p.keys = []) (hi : p.indexKeys = []) :
    t.prefetchAndGetValue env filt db ob p.abs = (t.prefetchAndGetValueM env grow filt db ob p).map (fun r => (r.1.abs, r.2)) ∧
    ∀ r, t.prefetchAndGetValueM env grow filt db ob p = some r → r.1.Good t := by
  unfold Table.prefetchAndGetValue Table.prefetchAndGetValueM
  have hc := collectKeysM_spec t grow (fun s => s ∈ p.vbuf) p.rest p.mem p.multi p.keys p.indexKeys g.multi
    (fun s hs => ⟨g.bufs.1 s hs, g.apart s hs⟩) (by rw [hk, hi]; simp)
  simp only [MSt.abs]
  cases he : t.collectKeysM grow p.rest p.mem p.multi p.keys p.indexKeys with
  | none => rw [he] at hc; simp only at hc; rw [hc]; exact ⟨rfl, by simp⟩
  | some q =>
    obtain ⟨rest, m, keys, iks⟩ := q
    rw [he] at hc
    obtain ⟨c1, c2, c3⟩ := hc
    rw [c1]
    dsimp only
    have bufs : Bufs m p.vbuf := ⟨fun s hs => (g.bufs.1 s hs).mono c2, g.bufs.2⟩
    obtain ⟨u, e⟩ := getKeysM_spec t ok grow filt db ob m keys p.vbuf true bufs
      (fun s hs => ⟨(c3 s (List.mem_append_left _ hs)).1, fun v hv => ((c3 s (List.mem_append_left _ hs)).2 v hv).symm⟩)
    rw [g.len] at e
    rw [e]
    have rd : ∀ s ∈ keys ++ iks, (t.getKeysM env grow filt db ob m keys p.vbuf true).1.read s = m.read s := fun s hs =>
      (u.frame s.clip (c3 s hs).1 (fun v hv => ((c3 s hs).2 v hv).symm)).1
    have good : ∀ q : MSt, q.mem = (t.getKeysM env grow filt db ob m keys p.vbuf true).1 →
        q.vbuf = (t.getKeysM env grow filt db ob m keys p.vbuf true).2.1 → q.multi = p.multi → q.Good t := by
      intro q h1 h2 h3
      have hm : p.multi.OK m := g.multi.mono c2
      refine ⟨by rw [h1, h3]; exact hm.mono u.next_le, by rw [h1, h2]; exact u.bufs, ?_, by rw [h2, u.length_eq, g.len]⟩
      intro v hv
      rw [h3]
      rw [h2] at hv
      exact ((u.frame p.multi hm (fun x hx => (g.apart x hx).symm)).2 v hv).symm
    have sk : ((if keys = [] then [] else (sortKeysM env m keys).map Prod.fst) : List Sl).map (t.getKeysM env grow filt db ob m keys p.vbuf true).1.read =
        if keys.map m.read = [] then [] else (sortKeys env (keys.map m.read)).map Prod.fst := by
      by_cases h0 : keys = []
      · simp [h0]
      · rw [if_neg h0, if_neg (by simpa using h0), ← sortKeysM_fst]
        exact List.map_congr_left (fun s hs => rd s (List.mem_append_left _ (sortKeysM_mem ok m keys hs)))
    have ik : iks.map (t.getKeysM env grow filt db ob m keys p.vbuf true).1.read = iks.map m.read :=
      List.map_congr_left (fun s hs => rd s (List.mem_append_right _ hs))
    generalize hG : t.getKeysM env grow filt db ob m keys p.vbuf true = G at good sk ik
    obtain ⟨m', vb, res⟩ := G
    simp only at good sk ik ⊢
    cases res with
    | error e =>
      simp only [Except.map]
      cases e with
      | panic => exact ⟨rfl, by simp⟩
      | _ =>
        refine ⟨?_, ?_⟩
        · simp only [Option.map_some, sk, ik, List.map_nil]
        · intro r hr; simp only [Option.some.injEq] at hr; subst hr; exact good _ rfl rfl rfl
    | ok values =>
      simp only [Except.map]
      obtain ⟨a, b⟩ := getPrefetchedValueM_spec t (MSt.mk m' rest
        (if keys = [] then [] else (sortKeysM env m keys).map Prod.fst) iks values p.vidx p.multi vb)
      refine ⟨?_, fun r hr => b r hr (good _ rfl rfl rfl)⟩
      simp only [MSt.abs, sk, ik] at a
      exact a

/-- a callback that calls `lazy.Get` at most once -/
def Cb.once : Cb σ T → Prop
  | .ret _ _ _ => True
  | .get _ k => ∀ r, ∃ s c e, k r = .ret s c e

theorem runInnerM_spec (t : Table T F) (c : Cb σ T) : ∀ p : MSt,
    t.runInner p.abs c = (t.runInnerM p c).map (fun r => (r.1.abs, r.2)) ∧ ∀ r, t.runInnerM p c = some r → p.Good t → r.1.Good t := by
  induction c with
  | ret s c e => intro p; exact ⟨rfl, by intro r h g; simp only [Table.runInnerM, Option.some.injEq] at h; subst h; exact g⟩
  | get s k ih =>
    intro p
    simp only [Table.runInner, Table.runInnerM]
    obtain ⟨a, b⟩ := getPrefetchedValueM_spec t p
    rw [a]
    cases h : t.getPrefetchedValueM p with
    | none => exact ⟨rfl, by simp⟩
    | some r =>
      obtain ⟨p', x⟩ := r
      simp only [Option.map_some]
      obtain ⟨c1, c2⟩ := ih x p'
      exact ⟨c1, fun r hr g => c2 r hr (b _ h g)⟩

theorem runOuterM_spec (t : Table T F) {env : Env T} (ok : env.OK t) (grow : Nat → Nat → Nat) (filt : F) (view : σ → KV × Option Batch)
    (c : Cb σ T) (hc : c.once) (p : MSt) (g : p.Good t) (hk : p.keys = []) (hi : p.indexKeys = []) :
    t.runOuter env filt view p.abs c = (t.runOuterM env grow filt view p c).map (fun r => (r.1.abs, r.2)) ∧
    ∀ r, t.runOuterM env grow filt view p c = some r → r.1.Good t := by
  cases c with
  | ret s c e => exact ⟨rfl, by intro r h; simp only [Table.runOuterM, Option.some.injEq] at h; subst h; exact g⟩
  | get s k =>
    simp only [Table.runOuter, Table.runOuterM]
    obtain ⟨a, b⟩ := prefetchAndGetValueM_spec t ok grow filt (view s).1 (view s).2 p g hk hi
    rw [a]
    cases h : t.prefetchAndGetValueM env grow filt (view s).1 (view s).2 p with
    | none => exact ⟨rfl, by simp⟩
    | some r =>
      obtain ⟨p', x⟩ := r
      simp only [Option.map_some]
      obtain ⟨s', c', e', hr⟩ := hc x
      rw [hr]
      refine ⟨rfl, ?_⟩
      intro r h'
      simp only [Table.runOuterM, Option.some.injEq] at h'
      subst h'
      exact b _ h

/-- the outcome of the loop on bytes for one on memory -/
def LoopRes.abs : LoopRes (ScanOut σ) (MSt × σ) → LoopRes (ScanOut σ) (PSt × σ)
  | .running => .running
  | .stop o => .stop o
  | .go (p, s) => .go (p.abs, s)

theorem innerLoopM_spec (t : Table T F) (f : σ → Bytes → Cb σ T) : ∀ (fuel : Nat) (p : MSt) (s : σ), p.Good t →
    t.innerLoop f fuel p.abs s = (t.innerLoopM f fuel p s).abs ∧ ∀ p' s', t.innerLoopM f fuel p s = .go (p', s') → p'.Good t := by
  intro fuel
  induction fuel with
  | zero =>
    intro p s g
    simp only [Table.innerLoop, Table.innerLoopM]
    have e1 : p.abs.vidx = p.vidx := rfl
    have e2 : p.abs.values.length = p.values.length := by simp [MSt.abs]
    rw [e1, e2]
    split
    · exact ⟨rfl, by simp⟩
    · exact ⟨rfl, by intro p' s' h; cases h; exact g⟩
  | succ n ih =>
    intro p s g
    simp only [Table.innerLoop, Table.innerLoopM]
    have e1 : p.abs.vidx = p.vidx := rfl
    have e2 : p.abs.values.length = p.values.length := by simp [MSt.abs]
    have e3 : p.abs.indexKeys[p.vidx]? = p.indexKeys[p.vidx]?.map p.mem.read := by simp [MSt.abs]
    rw [e1, e2, e3]
    split
    · cases p.indexKeys[p.vidx]? with
      | none => exact ⟨rfl, by simp⟩
      | some k =>
        simp only [Option.map_some]
        obtain ⟨a, b⟩ := runInnerM_spec t (f s (p.mem.read k)) p
        rw [a]
        cases h : t.runInnerM p (f s (p.mem.read k)) with
        | none => exact ⟨rfl, by simp⟩
        | some r =>
          obtain ⟨p', s', c, e⟩ := r
          simp only [Option.map_some]
          split
          · exact ⟨rfl, by simp⟩
          · exact ih p' s' (b _ h g)
    · exact ⟨rfl, by intro p' s' h; cases h; exact g⟩

theorem outerLoopM_spec (t : Table T F) {env : Env T} (ok : env.OK t) (grow : Nat → Nat → Nat) (filt : F) (view : σ → KV × Option Batch)
    (f : σ → Bytes → Cb σ T) (hf : ∀ s k, (f s k).once) (inner : Nat) : ∀ (fuel clock : Nat) (p : MSt) (s : σ), p.Good t → p.keys = [] →
    p.indexKeys = [] → t.outerLoopM env grow filt view f inner fuel clock p s = t.outerLoop env filt view f inner fuel clock p.abs s := by
  intro fuel
  induction fuel with
  | zero => intro clock p s g hk hi; rfl
  | succ n ih =>
    intro clock p s g hk hi
    simp only [Table.outerLoop, Table.outerLoopM]
    have e0 : p.abs.rest = p.rest := rfl
    rw [e0]
    cases p.rest with
    | nil => rfl
    | cons e es =>
      obtain ⟨k, v⟩ := e
      dsimp only
      split
      · rfl
      · obtain ⟨a, b⟩ := runOuterM_spec t ok grow filt view (f s k) (hf s k) p g hk hi
        rw [a]
        cases h : t.runOuterM env grow filt view p (f s k) with
        | none => rfl
        | some r =>
          obtain ⟨p', s', c, e⟩ := r
          simp only [Option.map_some]
          split
          · rfl
          · obtain ⟨i1, i2⟩ := innerLoopM_spec t f inner p' s' (b _ h)
            rw [i1]
            cases h2 : t.innerLoopM f inner p' s' with
            | running => rfl
            | stop o => rfl
            | go q =>
              obtain ⟨p'', s''⟩ := q
              have g2 := i2 _ _ h2
              exact ih (clock + 1) _ s'' ⟨g2.multi.zero, g2.bufs, fun x hx => (g2.apart x hx).zero, g2.len⟩ rfl rfl

end Bond
