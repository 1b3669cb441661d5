import Verif.BufferWritesLemmas
/-
The unsafe writes and the reads of a single row on memory (table_unsafe.go, table.go:791-860): as `Verif/BufferWrites.lean`, every key and every
value is read from memory at the moment at which the code uses it.
-/
namespace Bond

variable {T F : Type}

/-- table_unsafe.go:156-187 loop of `UnsafeInsert` on memory, over the keys and the rows of a slice -/
def Table.unsafeInsertLoopM (t : Table T F) (env : Env T) (grow : Nat → Nat → Nat) (pc : Pieces T) (ib : Sl) :
    List (Sl × T) → Mem → Sl → WSt T F → (WSt T F × Option Err) × Mem × Sl
  | [], m, val, s => ((s, none), m, val)
  | (key, tr) :: rest, m, val, s =>
    if env.done s.clock then ((s, some .ctxDone), m, val)
    else
      match t.ser tr with
      | none => ((s, some .ser), m, val)
      | some data =>
        let d := m.append grow val.zero data
        let x := idxOpsM (onInsertM t grow pc tr ib.zero) (env.order s.clock) d.1
        t.unsafeInsertLoopM env grow pc ib rest x.1 d.2
          { ops := s.ops ++ .set (d.1.read key) (d.1.read d.2) :: x.2
            filt := t.filterAdd s.filt (x.1.read key), clock := s.clock + 1, oldTr := s.oldTr }

/-- table_unsafe.go:151-190 one slice of `UnsafeInsert` on memory: the keys are not sorted, so the key buffers stay where they are -/
def Table.unsafeInsertChunkM (t : Table T F) (env : Env T) (grow : Nat → Nat → Nat) (pc : Pieces T) (trs : List T) (sw : WSt T F × WMem) :
    (WSt T F × WMem) × Option Err :=
  match t.keysExternalM grow pc sw.2.mem trs sw.2.keys with
  | none => (sw, some .panic)
  | some (m, ks, left) =>
    let r := t.unsafeInsertLoopM env grow pc sw.2.ib (ks.zip trs) m sw.2.val sw.1
    ((r.1.1, { sw.2 with mem := r.2.1, keys := ks ++ left, val := r.2.2 }), r.1.2)

/-- table_unsafe.go:113-203 `UnsafeInsert` on memory, slice size as parameter -/
def Table.unsafeInsertM (bs : Nat) (t : Table T F) (env : Env T) (grow : Nat → Nat → Nat) (pc : Pieces T) (db : KV) (filt : F)
    (optBatch : Option Batch) (trs : List T) (w : WMem) : WOut F × WMem :=
  let r := forChunks (t.unsafeInsertChunkM env grow pc) (batched trs bs) ({ ops := [], filt := filt, clock := 0, oldTr := t.nil }, w)
  (finish env db optBatch (r.1.1, r.2), r.1.2)

/-- table_unsafe.go:59-92 loop of `UnsafeUpdate` on memory; `kb` is `keyBuffer`, and the serializer writes into the value buffer after the key has
been built -/
def Table.unsafeUpdateLoopM (t : Table T F) (env : Env T) (grow : Nat → Nat → Nat) (pc : Pieces T) (kb ib ib2 : Sl) :
    List (T × T) → Mem → Sl → WSt T F → (WSt T F × Option Err) × Mem × Sl
  | [], m, val, s => ((s, none), m, val)
  | (tr, oldTr) :: rest, m, val, s =>
    if env.done s.clock then ((s, some .ctxDone), m, val)
    else
      let k := t.keyM grow pc tr m kb
      match t.ser tr with
      | none => ((s, some .ser), k.1, val)
      | some data =>
        let d := k.1.append grow val.zero data
        let x := idxOpsM (onUpdateM t grow pc oldTr tr ib.zero ib2.zero) (env.order s.clock) d.1
        t.unsafeUpdateLoopM env grow pc kb ib ib2 rest x.1 d.2
          { s with ops := s.ops ++ .set (d.1.read k.2) (d.1.read d.2) :: x.2, clock := s.clock + 1 }

/-- table_unsafe.go:20-103 `UnsafeUpdate` on memory -/
def Table.unsafeUpdateM (t : Table T F) (env : Env T) (grow : Nat → Nat → Nat) (pc : Pieces T) (db : KV) (filt : F) (optBatch : Option Batch)
    (trs oldTrs : List T) (kb : Sl) (w : WMem) : WOut F × WMem :=
  if trs.length ≠ oldTrs.length then
    ({ db := db, batch := optBatch, filt := filt, err := some .sizeMismatch, commits := [] }, w)
  else
    let r := t.unsafeUpdateLoopM env grow pc kb w.ib w.ib2 (trs.zip oldTrs) w.mem w.val { ops := [], filt := filt, clock := 0, oldTr := t.nil }
    (finish env db optBatch r.1, { w with mem := r.2.1, val := r.2.2 })

/-- table.go:791-816 `Exist` on memory; `kb` is `keyBuffer` -/
def Table.existM (t : Table T F) (grow : Nat → Nat → Nat) (pc : Pieces T) (f : F) (db : KV) (ob : Option Batch) (tr : T) (m : Mem) (kb : Sl) : Bool :=
  let k := t.keyM grow pc tr m kb
  if !t.mayContain f (k.1.read k.2) then false
  else match readable db ob with
    | none => false
    | some V => (V.get (k.1.read k.2)).isSome

/-- table.go:858-886 `Get` with a point selector on memory; `kb` is `keyBuffer` -/
def Table.getOneM (t : Table T F) (grow : Nat → Nat → Nat) (pc : Pieces T) (f : F) (db : KV) (ob : Option Batch) (tr : T) (m : Mem) (kb : Sl) :
    Except Err (List T) :=
  let k := t.keyM grow pc tr m kb
  if !t.mayContain f (k.1.read k.2) then .error .notFound
  else match readable db ob with
    | none => .error .notFound
    | some V =>
      match V.get (k.1.read k.2) with
      | none => .error .notFound
      | some record =>
        match t.deser t.nil record with
        | none => .error .deser
        | some rtr => .ok [rtr]

theorem unsafeInsertLoopM_spec {t : Table T F} (env : Env T) (grow : Nat → Nat → Nat) {pc : Pieces T} (hp : pc.For t) (ib ib2 : Sl) (kb : List Sl) :
    ∀ (l : List (Sl × T)) (m : Mem) (val : Sl) (s : WSt T F),
    WBufs m ib ib2 val kb → (∀ p ∈ l, p.1 ∈ kb ∧ m.read p.1 = t.key p.2) →
    (t.unsafeInsertLoopM env grow pc ib l m val s).1 = t.unsafeInsertLoop env (l.map Prod.snd) s ∧
    WBufs (t.unsafeInsertLoopM env grow pc ib l m val s).2.1 ib ib2 (t.unsafeInsertLoopM env grow pc ib l m val s).2.2 kb := by
  intro l
  induction l with
  | nil => intro m val s h _; exact ⟨rfl, h⟩
  | cons p l ih =>
    intro m val s h hl
    obtain ⟨key, tr⟩ := p
    simp only [Table.unsafeInsertLoopM, List.map_cons, Table.unsafeInsertLoop]
    split
    · exact ⟨rfl, h⟩
    cases t.ser tr with
    | none => exact ⟨rfl, h⟩
    | some data =>
      simp only
      obtain ⟨h1, r1, k1⟩ := h.serialize grow data
      generalize m.append grow val.zero data = d at h1 r1 k1 ⊢
      obtain ⟨sc, ops⟩ := idxOpsM_spec (bufs := [ib, ib2]) (f := onInsertM t grow pc tr ib.zero) (g := fun i => onInsert t i tr)
        (fun i m hb => onInsertM_spec grow hp tr (by simp) i (hb ib (by simp))) (env.order s.clock) d.1 h1.ok.1
      generalize idxOpsM (onInsertM t grow pc tr ib.zero) (env.order s.clock) d.1 = x at sc ops ⊢
      obtain ⟨h2, k2⟩ := h1.scr sc
      obtain ⟨hkey, hrd⟩ := hl (key, tr) List.mem_cons_self
      obtain ⟨e, b⟩ := ih x.1 d.2
        { ops := s.ops ++ .set (d.1.read key) (d.1.read d.2) :: x.2
          filt := t.filterAdd s.filt (x.1.read key), clock := s.clock + 1, oldTr := s.oldTr } h2
        (fun p hp => by
          obtain ⟨a, c⟩ := hl p (List.mem_cons_of_mem _ hp)
          exact ⟨a, by rw [k2 _ a, k1 _ a, c]⟩)
      refine ⟨?_, b⟩
      rw [e, k2 _ hkey, k1 _ hkey, r1, ops, hrd]

theorem zip_snd_of_length {α β : Type} : ∀ (a : List α) (b : List β), a.length = b.length → (a.zip b).map Prod.snd = b
  | [], [], _ => rfl
  | _ :: a, _ :: b, h => by
    simp only [List.zip_cons_cons, List.map_cons]
    rw [zip_snd_of_length a b (by simpa using h)]

theorem zip_read_key {t : Table T F} {m : Mem} : ∀ (ks : List Sl) (trs : List T), ks.map m.read = trs.map t.key →
    ∀ p ∈ ks.zip trs, p.1 ∈ ks ∧ m.read p.1 = t.key p.2
  | [], _, _, p, hp => by simp at hp
  | _ :: _, [], h, _, _ => by simp at h
  | k :: ks, tr :: trs, h, p, hp => by
    simp only [List.map_cons, List.cons.injEq] at h
    rw [List.zip_cons_cons] at hp
    rcases List.mem_cons.mp hp with hp | hp
    · subst hp; exact ⟨List.mem_cons_self, h.1⟩
    · obtain ⟨a, b⟩ := zip_read_key ks trs h.2 p hp
      exact ⟨List.mem_cons_of_mem _ a, b⟩

theorem unsafeInsertM_spec {t : Table T F} (env : Env T) (bs : Nat) (grow : Nat → Nat → Nat) {pc : Pieces T} (hp : pc.For t) (db : KV)
    (filt : F) (ob : Option Batch) (trs : List T) (w : WMem) {n : Nat} (hn : min trs.length bs ≤ n) (g : w.Good n) :
    (t.unsafeInsertM bs env grow pc db filt ob trs w).1 = t.unsafeInsertBs bs env db filt ob trs ∧
    (t.unsafeInsertM bs env grow pc db filt ob trs w).2.Good n := by
  unfold Table.unsafeInsertM Table.unsafeInsertBs
  dsimp only
  obtain ⟨a, b⟩ := forChunksM_spec (P := WMem.Good n) (f := t.unsafeInsertLoop env) (fM := t.unsafeInsertChunkM env grow pc) (batched trs bs)
    (fun c hc s w hw => by
      have hb : Bufs w.mem ([w.ib, w.ib2, w.val] ++ w.keys) := hw.bufs
      obtain ⟨m, ks, left, e, u, rd⟩ := keysExternalM_spec grow hp c w.mem w.keys (Bufs.append_iff.mp hb).2.1 (Nat.le_trans (chunk_len hn hc) hw.len)
      obtain ⟨b1, _⟩ := hb.upd u
      have hlen : ks.length = c.length := by simpa using congrArg List.length rd
      obtain ⟨l1, l2⟩ := unsafeInsertLoopM_spec env grow hp w.ib w.ib2 (ks ++ left) (ks.zip c) m w.val s b1
        (fun p hp => by
          obtain ⟨x, y⟩ := zip_read_key ks c rd p hp
          exact ⟨List.mem_append_left _ x, y⟩)
      rw [zip_snd_of_length ks c hlen] at l1
      unfold Table.unsafeInsertChunkM
      simp only [e]
      refine ⟨l1, l2, ?_⟩
      show n ≤ (ks ++ left).length
      rw [u.length_eq]
      exact hw.len)
    { ops := [], filt := filt, clock := 0, oldTr := t.nil } w g
  rw [← a]
  exact ⟨rfl, b⟩

theorem unsafeUpdateLoopM_spec {t : Table T F} (env : Env T) (grow : Nat → Nat → Nat) {pc : Pieces T} (hp : pc.For t) (kb ib ib2 : Sl)
    (L : List Sl) : ∀ (l : List (T × T)) (m : Mem) (val : Sl) (s : WSt T F), WBufs m ib ib2 val (kb :: L) →
    (t.unsafeUpdateLoopM env grow pc kb ib ib2 l m val s).1 = t.unsafeUpdateLoop env l s ∧
    WBufs (t.unsafeUpdateLoopM env grow pc kb ib ib2 l m val s).2.1 ib ib2 (t.unsafeUpdateLoopM env grow pc kb ib ib2 l m val s).2.2 (kb :: L) := by
  intro l
  induction l with
  | nil => intro m val s h; exact ⟨rfl, h⟩
  | cons p l ih =>
    intro m val s h
    obtain ⟨tr, old⟩ := p
    simp only [Table.unsafeUpdateLoopM, Table.unsafeUpdateLoop]
    split
    · exact ⟨rfl, h⟩
    obtain ⟨w, r⟩ := keyM_spec grow hp tr (h.1 kb (by simp))
    generalize t.keyM grow pc tr m kb = k at w r ⊢
    have hk : WBufs k.1 ib ib2 val (kb :: L) := ⟨fun x hx => (h.1 x hx).mono w.next_le, h.2⟩
    have hk2 : WBufs k.1 ib ib2 val [k.2] := by
      have h3 : Bufs m ([ib, ib2, val] ++ [kb]) := by
        have h0 : Bufs m ([ib, ib2, val, kb] ++ L) := h
        exact (Bufs.append_iff.mp h0).1
      exact (h3.upd w.upd).1
    cases t.ser tr with
    | none => exact ⟨rfl, hk⟩
    | some data =>
      simp only
      obtain ⟨h1, _, _⟩ := hk.serialize grow data
      obtain ⟨h1', r1, k1⟩ := hk2.serialize grow data
      generalize k.1.append grow val.zero data = d at h1 h1' r1 k1 ⊢
      obtain ⟨sc, ops⟩ := idxOpsM_spec (bufs := [ib, ib2]) (f := onUpdateM t grow pc old tr ib.zero ib2.zero) (g := fun i => onUpdate t i old tr)
        (fun i m hb => onUpdateM_spec grow hp old tr h1.ok.2 i (hb ib (by simp)) (hb ib2 (by simp))) (env.order s.clock) d.1 h1.ok.1
      generalize idxOpsM (onUpdateM t grow pc old tr ib.zero ib2.zero) (env.order s.clock) d.1 = x at sc ops ⊢
      obtain ⟨h2, _⟩ := h1.scr sc
      obtain ⟨e, b⟩ := ih x.1 d.2 { s with ops := s.ops ++ .set (d.1.read k.2) (d.1.read d.2) :: x.2, clock := s.clock + 1 } h2
      refine ⟨?_, b⟩
      rw [e, k1 _ (by simp), r, r1, ops]

end Bond
