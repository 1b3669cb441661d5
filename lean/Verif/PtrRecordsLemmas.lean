import Verif.PtrRecords
import Verif.LoopLemmas
import Verif.UpsertSorted

/- Pointer records: what the calls do to the objects that existed before, and that they write what the calls on record values
write. -/

namespace Bond

variable {T F : Type}

/-- the objects `U` are as in `m0`, and `old` is not one of them (nothing in /repo: proof notion) -/
structure PInv (m0 : RMem T) (U : Nat → Prop) (m : RMem T) (old : Option Nat) : Prop where
  next : m0.next ≤ m.next
  sub : ∀ p, U p → p < m0.next
  same : ∀ p, U p → m.cell p = m0.cell p
  own : ∀ p, old = some p → ¬ U p ∧ p < m.next

theorem PInv.refl (m : RMem T) {U : Nat → Prop} (h : ∀ p, U p → p < m.next) : PInv m U m none :=
  ⟨Nat.le_refl _, h, fun _ _ => rfl, fun _ h => by simp at h⟩

theorem PInv.mono {m0 m : RMem T} {U V : Nat → Prop} {old : Option Nat} (h : PInv m0 U m old) (hv : ∀ p, V p → U p) : PInv m0 V m old :=
  ⟨h.next, fun p hp => h.sub p (hv p hp), fun p hp => h.same p (hv p hp), fun p hp => ⟨fun hn => (h.own p hp).1 (hv p hn), (h.own p hp).2⟩⟩

/-- forgetting the pointer -/
theorem PInv.drop {m0 m : RMem T} {U : Nat → Prop} {old : Option Nat} (h : PInv m0 U m old) : PInv m0 U m none :=
  ⟨h.next, h.sub, h.same, fun p hp => by simp at hp⟩

/-- the state of the call on record values that belongs to a state on pointer records (nothing in /repo: proof notion) -/
def WSt.content (nil : T) (m : RMem T) (s : WSt (Option Nat) F) : WSt T F :=
  { ops := s.ops, filt := s.filt, clock := s.clock, oldTr := m.read nil s.oldTr }

theorem decodeP_inv (t : Table T F) (dec : Decoder T) {m0 m : RMem T} {U : Nat → Prop} {old : Option Nat} (h : PInv m0 U m old)
    (v : Bytes) :
    PInv m0 U (t.decodeP dec m old v).mem (some (t.decodeP dec m old v).ptr) ∧ m.next ≤ (t.decodeP dec m old v).mem.next := by
  unfold Table.decodeP
  have hnx := h.next
  have hr : ∀ p, (if dec.reuse then old else none) = some p → old = some p := by
    intro p hp
    split at hp
    · exact hp
    · simp at hp
  generalize hold : (if dec.reuse then old else none) = o
  rw [hold] at hr
  cases o with
  | none =>
    have key : ∀ x, PInv m0 U (m.alloc x) (some m.next) ∧ m.next ≤ (m.alloc x).next := by
      intro x
      refine ⟨⟨by simp only [RMem.alloc]; omega, h.sub, ?_, ?_⟩, by simp [RMem.alloc]⟩
      · intro p hp
        have := h.sub p hp
        simp only [RMem.alloc]
        rw [if_neg (by omega)]; exact h.same p hp
      · intro p hp
        simp only [Option.some.injEq] at hp
        subst hp
        exact ⟨fun hu => by have := h.sub _ hu; omega, by simp [RMem.alloc]⟩
    simp only
    cases t.deser t.nil v <;> exact key _
  | some q =>
    have hq := h.own q (hr q rfl)
    have key : ∀ x, PInv m0 U (m.set q x) (some q) ∧ m.next ≤ (m.set q x).next := by
      intro x
      refine ⟨⟨h.next, h.sub, ?_, ?_⟩, Nat.le_refl _⟩
      · intro p hp
        simp only [RMem.set]
        rw [if_neg (fun he : p = q => hq.1 (he ▸ hp))]; exact h.same p hp
      · intro p hp
        simp only [Option.some.injEq] at hp
        subst hp; exact hq
    simp only
    cases t.deser (m.cell q) v <;> exact key _

/-- the serializer and the model of it on record values agree: if the object is not reused its content does not matter
(nothing in /repo: proof notion) -/
def Decoder.For (dec : Decoder T) (t : Table T F) : Prop := dec.reuse = false → ∀ o v, t.deser o v = t.deser t.nil v

theorem decodeP_value {t : Table T F} {dec : Decoder T} (m : RMem T) {old : Option Nat} (hf : dec.For t ∨ old = none) (v : Bytes) :
    (∃ x, t.deser (m.read t.nil old) v = some x ∧ (t.decodeP dec m old v).ok = true ∧
      (t.decodeP dec m old v).mem.cell (t.decodeP dec m old v).ptr = x) ∨
    (t.deser (m.read t.nil old) v = none ∧ (t.decodeP dec m old v).ok = false) := by
  have hd : t.deser (m.read t.nil old) v = t.deser (m.read t.nil (if dec.reuse then old else none)) v := by
    by_cases hr : dec.reuse = true
    · rw [if_pos hr]
    · rw [if_neg hr]
      rcases hf with hf | rfl
      · exact hf (by simpa using hr) _ v
      · rfl
  rw [hd]
  unfold Table.decodeP
  generalize (if dec.reuse then old else none) = o
  cases o with
  | none =>
    simp only [RMem.read]
    cases h : t.deser t.nil v with
    | none => exact Or.inr ⟨rfl, rfl⟩
    | some x => exact Or.inl ⟨x, rfl, rfl, by simp [RMem.alloc]⟩
  | some q =>
    simp only [RMem.read]
    cases h : t.deser (m.cell q) v with
    | none => exact Or.inr ⟨rfl, rfl⟩
    | some x => exact Or.inl ⟨x, rfl, rfl, by simp [RMem.set]⟩

/-- the call on pointer records ended like the call on record values, and the old objects are as they were
(nothing in /repo: proof notion) -/
structure PSim (nil : T) (m0 : RMem T) (U : Nat → Prop) (r : WRes T F) (v : WSt T F × Option Err) : Prop where
  err : r.1.2 = v.2
  ops : r.1.1.ops = v.1.ops
  filt : r.1.1.filt = v.1.filt
  clock : r.1.1.clock = v.1.clock
  inv : PInv m0 U r.2 none
  own : r.1.2 = none → PInv m0 U r.2 r.1.1.oldTr
  old : r.1.2 = none → v.1 = r.1.1.content nil r.2

theorem map_getElem? (m : RMem T) (trs : List Nat) (j : Nat) : (trs.map m.cell)[j]? = (trs[j]?).map m.cell := List.getElem?_map ..

theorem updateLoopP_spec (t : Table T F) (env : Env T) {dec : Decoder T} (hf : dec.For t) (entries : List (Bytes × Bytes)) {m0 : RMem T}
    {U : Nat → Prop} {trs : List Nat} (htrs : ∀ p ∈ trs, U p) : ∀ (items : List (Bytes × Nat)) (m : RMem T) (s : WSt (Option Nat) F),
    PInv m0 U m s.oldTr →
    PSim t.nil m0 U (t.updateLoopP env dec entries trs items m s)
      (t.updateLoop env entries (trs.map m0.cell) items (s.content t.nil m)) := by
  intro items
  induction items with
  | nil => intro m s h; exact ⟨rfl, rfl, rfl, rfl, h.drop, fun _ => h, fun _ => rfl⟩
  | cons e rest ih =>
    obtain ⟨key, j⟩ := e
    intro m s h
    rw [Table.updateLoopP, Table.updateLoop]
    have hc : (s.content t.nil m).clock = s.clock := rfl
    rw [hc]
    by_cases hd : env.done s.clock = true
    · rw [if_pos hd, if_pos hd]; exact ⟨rfl, rfl, rfl, rfl, h.drop, fun hn => by simp at hn, fun hn => by simp at hn⟩
    rw [if_neg hd, if_neg hd]
    by_cases hk : (rest.head?.map Prod.fst) = some key
    · rw [if_pos hk, if_pos hk]
      exact ih m { s with clock := s.clock + 1 } h
    rw [if_neg hk, if_neg hk]
    cases hs : seekExact entries key with
    | none => exact ⟨rfl, rfl, rfl, rfl, h.drop, fun hn => by simp at hn, fun hn => by simp at hn⟩
    | some v =>
      simp only
      have hold : (s.content t.nil m).oldTr = m.read t.nil s.oldTr := rfl
      rw [hold]
      obtain ⟨hinv, hnx⟩ := decodeP_inv t dec h v
      have hval := decodeP_value m (old := s.oldTr) (Or.inl hf) v
      generalize hdd : t.decodeP dec m s.oldTr v = d at *
      rcases hval with ⟨x, hx, hok, hcell⟩ | ⟨hx, hok⟩
      · rw [hx]
        simp only [hok, Bool.true_eq_false, if_false]
        rw [map_getElem?]
        cases htr : trs[j]? with
        | none => exact ⟨rfl, rfl, rfl, rfl, hinv.drop, fun hn => by simp at hn, fun hn => by simp at hn⟩
        | some p =>
          simp only [Option.map_some]
          have hp : d.mem.cell p = m0.cell p := hinv.same p (htrs p (List.mem_of_getElem? htr))
          rw [hp, hcell]
          cases hse : t.ser (m0.cell p) with
          | none => exact ⟨rfl, rfl, rfl, rfl, hinv.drop, fun hn => by simp at hn, fun hn => by simp at hn⟩
          | some data =>
            simp only
            have := ih d.mem (WSt.mk (s.ops ++ .set key data :: (env.order s.clock).flatMap (fun idx => onUpdate t idx x (m0.cell p)))
              s.filt (s.clock + 1) (some d.ptr)) hinv
            simpa only [WSt.content, RMem.read, hcell] using this
      · rw [hx]
        simp only [hok, if_true]
        exact ⟨rfl, rfl, rfl, rfl, hinv.drop, fun hn => by simp at hn, fun hn => by simp at hn⟩

/-- a slice of a call on pointer records against a slice on record values, the state after it and its outcome
(nothing in /repo: proof notion) -/
structure CSim (nil : T) (m0 : RMem T) (U : Nat → Prop) (r : (WSt (Option Nat) F × RMem T) × Option Err) (v : WSt T F × Option Err) : Prop where
  err : r.2 = v.2
  ops : r.1.1.ops = v.1.ops
  filt : r.1.1.filt = v.1.filt
  clock : r.1.1.clock = v.1.clock
  inv : PInv m0 U r.1.2 none
  own : r.2 = none → PInv m0 U r.1.2 r.1.1.oldTr
  old : r.2 = none → v.1 = r.1.1.content nil r.1.2

theorem PSim.chunk {nil : T} {m0 : RMem T} {U : Nat → Prop} {r : WRes T F} {v : WSt T F × Option Err} (h : PSim nil m0 U r v) :
    CSim nil m0 U ((r.1.1, r.2), r.1.2) v := ⟨h.err, h.ops, h.filt, h.clock, h.inv, h.own, h.old⟩

/-- the objects `U cs` are those that have to be as they were before the slices `cs` -/
theorem forChunks_ptr {nil : T} {m0 : RMem T} (U : List (List Nat) → Nat → Prop)
    {fP : List Nat → (WSt (Option Nat) F × RMem T) → (WSt (Option Nat) F × RMem T) × Option Err}
    {fV : List T → WSt T F → WSt T F × Option Err} :
    ∀ (cs : List (List Nat)), (∀ c cs' p, U cs' p → U (c :: cs') p) →
      (∀ (pre cs' : List (List Nat)) (c : List Nat), cs = pre ++ c :: cs' → ∀ (s : WSt (Option Nat) F) (m : RMem T), PInv m0 (U (c :: cs')) m s.oldTr →
        CSim nil m0 (U cs') (fP c (s, m)) (fV (c.map m0.cell) (s.content nil m))) →
      ∀ (s : WSt (Option Nat) F) (m : RMem T), PInv m0 (U cs) m s.oldTr →
        CSim nil m0 (U []) (forChunks fP cs (s, m)) (forChunks fV (cs.map (fun c => c.map m0.cell)) (s.content nil m)) := by
  intro cs hU
  have hmono : ∀ cs p, U [] p → U cs p := by
    intro cs
    induction cs with
    | nil => exact fun _ h => h
    | cons c cs ih => exact fun p h => hU c cs p (ih p h)
  induction cs with
  | nil => intro _ s m h; exact ⟨rfl, rfl, rfl, rfl, h.drop, fun _ => h, fun _ => rfl⟩
  | cons c cs ih =>
    intro hf s m h
    have h1 := hf [] cs c rfl s m h
    simp only [List.map_cons, forChunks]
    generalize fP c (s, m) = r at *
    generalize fV (c.map m0.cell) (s.content nil m) = v at *
    obtain ⟨⟨s', m'⟩, e⟩ := r
    obtain ⟨v', e'⟩ := v
    have he : e = e' := h1.err
    subst he
    cases e with
    | some e =>
      exact ⟨rfl, h1.ops, h1.filt, h1.clock, h1.inv.mono (hmono cs), fun hn => by simp at hn, fun hn => by simp at hn⟩
    | none =>
      have hv : v' = s'.content nil m' := h1.old rfl
      rw [hv]
      exact ih (fun pre cs' c' e => hf (c :: pre) cs' c' (by rw [e]; rfl)) s' m' (h1.own rfl)

theorem batchedLoop_map {α β : Type} (g : α → β) (items : List α) (bs : Nat) : ∀ (fuel k : Nat),
    batchedLoop (items.map g) bs fuel k = (batchedLoop items bs fuel k).map (List.map g) := by
  intro fuel
  induction fuel with
  | zero => intro k; rfl
  | succ n ih =>
    intro k
    rw [batchedLoop, batchedLoop]
    simp only [List.length_map]
    split
    · simp only [List.map_cons, List.map_drop, List.map_take, ih]
    · rfl

theorem batched_map {α β : Type} (g : α → β) (items : List α) (bs : Nat) :
    batched (items.map g) bs = (batched items bs).map (List.map g) := by
  unfold batched; rw [List.length_map]; exact batchedLoop_map g items bs _ _

theorem batchedLoop_mem {α : Type} (items : List α) (bs : Nat) : ∀ (fuel k : Nat) (c : List α), c ∈ batchedLoop items bs fuel k →
    c.Sublist items := by
  intro fuel
  induction fuel with
  | zero => intro k c hc; simp [batchedLoop] at hc
  | succ n ih =>
    intro k c hc
    rw [batchedLoop] at hc
    split at hc
    · rcases List.mem_cons.1 hc with rfl | hc
      · exact (List.drop_sublist _ _).trans (List.take_sublist _ _)
      · exact ih _ c hc
    · simp at hc

theorem batched_sublist {α : Type} {items : List α} {bs : Nat} {c : List α} (hc : c ∈ batched items bs) : c.Sublist items :=
  batchedLoop_mem items bs _ _ c hc

theorem finish_sim {env : Env T} {nil : T} {db : KV} {ob : Option Batch} {m0 : RMem T} {U : Nat → Prop}
    {r : (WSt (Option Nat) F × RMem T) × Option Err} {v : WSt T F × Option Err} (h : CSim nil m0 U r v) :
    (finishP env nil db ob r).1 = finish env db ob v := by
  unfold finishP finish
  simp only [h.ops, h.filt, h.err]

theorem chunk_keys (t : Table T F) {m0 m : RMem T} {U : Nat → Prop} {old : Option Nat} (hi : PInv m0 U m old) {c : List Nat}
    (hin : ∀ p ∈ c, U p) : c.map (fun p => t.key (m.cell p)) = (c.map m0.cell).map t.key := by
  rw [List.map_map]
  exact List.map_congr_left (fun p hp => by simp only [Function.comp]; rw [hi.same p (hin p hp)])

theorem updatePBs_spec (bs : Nat) (t : Table T F) (env : Env T) {dec : Decoder T} (hf : dec.For t) (db : KV) (filt : F) (ob : Option Batch)
    (m0 : RMem T) {trs : List Nat} (htrs : ∀ p ∈ trs, p < m0.next) :
    (Table.updatePBs bs t env dec db filt ob m0 trs).1 = Table.updateBs bs t env db filt ob (trs.map m0.cell) ∧
    PInv m0 (fun p => p < m0.next) (Table.updatePBs bs t env dec db filt ob m0 trs).2 none := by
  have h := forChunks_ptr (nil := t.nil) (m0 := m0) (fun _ p => p < m0.next) (fP := t.updateChunkP env dec db ob)
    (fV := t.updateChunk env db ob) (batched trs bs) (fun _ _ _ h => h)
    (by
      intro pre cs' c hc s m hi
      have hin : ∀ p ∈ c, p < m0.next := fun p hp => htrs p ((batched_sublist (by rw [hc]; simp)).subset hp)
      unfold Table.updateChunkP Table.updateChunk
      simp only [chunk_keys t hi hin]
      exact (updateLoopP_spec t env hf _ hin _ m s hi).chunk)
    { ops := [], filt := filt, clock := 0, oldTr := none } m0 (PInv.refl m0 fun _ h => h)
  refine ⟨?_, h.inv⟩
  unfold Table.updatePBs Table.updateBs
  rw [finish_sim h, batched_map]
  rfl

/-! ## Upsert -/

/-- What the conflict function does, on pointers and on contents (nothing in /repo: it is the caller's function): it writes no
object but `old`, the record it returns has the content `(ov old new).1`, and `old` is left with the content `(ov old new).2`. -/
structure OnConflictP.Acts (oc : OnConflictP T) (ov : Table.OnConflict T) : Prop where
  ret : ∀ m old new, old < m.next → new < m.next → old ≠ new → (oc m old new).1.cell (oc m old new).2 = (ov (m.cell old) (m.cell new)).1
  old : ∀ m old new, old < m.next → new < m.next → old ≠ new → (oc m old new).1.cell old = (ov (m.cell old) (m.cell new)).2
  alive : ∀ m old new, old < m.next → new < m.next → old ≠ new → (oc m old new).2 < (oc m old new).1.next
  next : ∀ m old new, old < m.next → new < m.next → old ≠ new → m.next ≤ (oc m old new).1.next
  same : ∀ m old new, old < m.next → new < m.next → old ≠ new → ∀ p, p < m.next → p ≠ old → (oc m old new).1.cell p = m.cell p

theorem upsertDupP_none (oc : OnConflictP T) (trs : List Nat) (key : Bytes) {items : List (Bytes × Nat)} (h : ∀ e ∈ items, e.1 ≠ key)
    (i : Nat) (m : RMem T) (tr : Nat) (old : Option Nat) : upsertDupP oc trs key items i m tr old = some (items, i, m, tr, old) := by
  cases items with
  | nil => rfl
  | cons e rest => obtain ⟨k, j⟩ := e; rw [upsertDupP, if_neg (h (k, j) (by simp))]

theorem upsertDup_none (ov : Table.OnConflict T) (trs : List T) (key : Bytes) {items : List (Bytes × Nat)} (h : ∀ e ∈ items, e.1 ≠ key)
    (i : Nat) (tr old : T) : Table.upsertDup ov trs key items i tr old = some (items, i, tr, old) := by
  cases items with
  | nil => rfl
  | cons e rest => obtain ⟨k, j⟩ := e; rw [Table.upsertDup, if_neg (h (k, j) (by simp))]

/-- the step of the loop before the duplicates, and what is left to show after them; `V` are the objects that have to be as
they were from there on -/
theorem upsertStep {t : Table T F} {env : Env T} {dec : Decoder T} (hf : dec.For t) {oc : OnConflictP T} {ov : Table.OnConflict T} (ha : oc.Acts ov)
    {entries : List (Bytes × Bytes)} {m0 : RMem T} {U : Nat → Prop} {V W : Nat → Prop} {trs : List Nat} (hVU : ∀ p, V p → U p)
    (hWV : ∀ p, W p → V p) {fuel i : Nat} {key : Bytes} {j tr : Nat} {rest : List (Bytes × Nat)} (htr : trs[j]? = some tr) (hU : U tr)
    {m : RMem T} {s : WSt (Option Nat) F} (h : PInv m0 U m s.oldTr)
    (after : ∀ (m1 : RMem T) (tr1 : Nat) (old1 : Option Nat), PInv m0 V m1 old1 → tr1 < m1.next →
      (tr1 = tr ∨ (∃ (m2 : RMem T) (old2 : Nat), PInv m0 U m2 (some old2) ∧ (m1, tr1) = oc m2 old2 tr)) →
      match upsertDupP oc trs key rest i m1 tr1 old1 with
      | none => Table.upsertDup ov (trs.map m0.cell) key rest i (m1.cell tr1) (m1.read t.nil old1) = none
      | some (rest', i', m', tr', old') =>
        Table.upsertDup ov (trs.map m0.cell) key rest i (m1.cell tr1) (m1.read t.nil old1) =
          some (rest', i', m'.cell tr', m'.read t.nil old') ∧ PInv m0 W m' none ∧
        ∀ (s' : WSt (Option Nat) F), s'.oldTr = old' →
          PSim t.nil m0 W (t.upsertLoopP env dec oc entries trs fuel (i' + 1) rest' m' s')
            (t.upsertLoop env ov entries (trs.map m0.cell) fuel (i' + 1) rest' (s'.content t.nil m'))) :
    PSim t.nil m0 W (t.upsertLoopP env dec oc entries trs (fuel + 1) i ((key, j) :: rest) m s)
      (t.upsertLoop env ov entries (trs.map m0.cell) (fuel + 1) i ((key, j) :: rest) (s.content t.nil m)) := by
  have hWU : ∀ p, W p → U p := fun p hp => hVU p (hWV p hp)
  rw [Table.upsertLoopP, Table.upsertLoop, map_getElem?, htr]
  simp only [Option.map_some]
  have hc : (s.content t.nil m).clock = s.clock := rfl
  have hfi : (s.content t.nil m).filt = s.filt := rfl
  have hop : (s.content t.nil m).ops = s.ops := rfl
  have hol : (s.content t.nil m).oldTr = m.read t.nil s.oldTr := rfl
  simp only [hc, hfi, hop, hol]
  by_cases hd : env.done s.clock = true
  · rw [if_pos hd, if_pos hd]
    exact ⟨rfl, rfl, rfl, rfl, (h.mono hWU).drop, fun hn => by simp at hn, fun hn => by simp at hn⟩
  rw [if_neg hd, if_neg hd]
  cases hx : t.existIter s.filt entries key with
  | none =>
    simp only [Bool.true_eq_false, if_false]
    have hlt : tr < m.next := by have := h.sub tr hU; have := h.next; omega
    have hcell : m0.cell tr = m.cell tr := (h.same tr hU).symm
    have h1 := after m tr s.oldTr (h.mono hVU) hlt (Or.inl rfl)
    rw [← hcell] at h1
    cases hdup : upsertDupP oc trs key rest i m tr s.oldTr with
    | none =>
      rw [hdup] at h1
      rw [h1]
      exact ⟨rfl, rfl, rfl, rfl, (h.mono hWU).drop, fun hn => by simp at hn, fun hn => by simp at hn⟩
    | some q =>
      obtain ⟨rest', i', m', tr', old'⟩ := q
      rw [hdup] at h1
      obtain ⟨h1, h2, h3⟩ := h1
      rw [h1]
      simp only
      cases hse : t.ser (m'.cell tr') with
      | none => exact ⟨rfl, rfl, rfl, rfl, h2, fun hn => by simp at hn, fun hn => by simp at hn⟩
      | some data =>
        simp only [Bool.false_eq_true, if_false]
        exact h3 (WSt.mk _ _ _ old') rfl
  | some v =>
    simp only
    obtain ⟨hinv, hnx⟩ := decodeP_inv t dec h v
    have hval := decodeP_value m (old := s.oldTr) (Or.inl hf) v
    generalize hdd : t.decodeP dec m s.oldTr v = d at *
    rcases hval with ⟨x, hx', hok, hcell⟩ | ⟨hx', hok⟩
    · rw [hx']
      simp only [hok, Bool.true_eq_false, if_false, Option.map_some]
      obtain ⟨hnU, hlt⟩ := hinv.own d.ptr rfl
      have hne : d.ptr ≠ tr := fun he => hnU (he ▸ hU)
      have htl : tr < d.mem.next := by have := hinv.sub tr hU; have := hinv.next; omega
      have hct : d.mem.cell tr = m0.cell tr := hinv.same tr hU
      have e1 := ha.ret d.mem d.ptr tr hlt htl hne
      have e2 := ha.old d.mem d.ptr tr hlt htl hne
      have e3 := ha.alive d.mem d.ptr tr hlt htl hne
      have e4 := ha.next d.mem d.ptr tr hlt htl hne
      have e5 := ha.same d.mem d.ptr tr hlt htl hne
      rw [hcell, hct] at e1 e2
      have hP : PInv m0 U (oc d.mem d.ptr tr).1 (some d.ptr) := by
        refine ⟨by have := hinv.next; omega, hinv.sub, ?_, ?_⟩
        · intro p hp
          rw [e5 p (by have := hinv.sub p hp; have := hinv.next; omega) (fun he => hnU (he ▸ hp))]
          exact hinv.same p hp
        · intro p hp
          simp only [Option.some.injEq] at hp
          subst hp
          exact ⟨hnU, by omega⟩
      have h1 := after (oc d.mem d.ptr tr).1 (oc d.mem d.ptr tr).2 (some d.ptr) (hP.mono hVU) e3 (Or.inr ⟨d.mem, d.ptr, hinv, rfl⟩)
      simp only [RMem.read] at h1
      rw [e1, e2] at h1
      cases hdup : upsertDupP oc trs key rest i (oc d.mem d.ptr tr).1 (oc d.mem d.ptr tr).2 (some d.ptr) with
      | none =>
        rw [hdup] at h1
        simp only at h1
        rw [h1]
        exact ⟨rfl, rfl, rfl, rfl, (hP.mono hWU).drop, fun hn => by simp at hn, fun hn => by simp at hn⟩
      | some q =>
        obtain ⟨rest', i', m', tr', old'⟩ := q
        rw [hdup] at h1
        simp only at h1
        obtain ⟨h1, h2, h3⟩ := h1
        rw [h1]
        simp only
        cases hse : t.ser (m'.cell tr') with
        | none => exact ⟨rfl, rfl, rfl, rfl, h2, fun hn => by simp at hn, fun hn => by simp at hn⟩
        | some data =>
          simp only [if_true]
          have := h3 (WSt.mk (s.ops ++ .set key data :: (env.order s.clock).flatMap
            (fun idx => onUpdate t idx (m'.read t.nil old') (m'.cell tr'))) s.filt (s.clock + 1) old') rfl
          exact this
    · rw [hx']
      simp only [hok, if_true, Option.map_none]
      exact ⟨rfl, rfl, rfl, rfl, (hinv.mono hWU).drop, fun hn => by simp at hn, fun hn => by simp at hn⟩

theorem upsertPanic {t : Table T F} {env : Env T} {dec : Decoder T} {oc : OnConflictP T} {ov : Table.OnConflict T}
    {entries : List (Bytes × Bytes)} {m0 : RMem T} {U W : Nat → Prop} {trs : List Nat} (hWU : ∀ p, W p → U p) {fuel i : Nat} {key : Bytes}
    {j : Nat} {rest : List (Bytes × Nat)} (htr : trs[j]? = none) {m : RMem T} {s : WSt (Option Nat) F} (h : PInv m0 U m s.oldTr) :
    PSim t.nil m0 W (t.upsertLoopP env dec oc entries trs (fuel + 1) i ((key, j) :: rest) m s)
      (t.upsertLoop env ov entries (trs.map m0.cell) (fuel + 1) i ((key, j) :: rest) (s.content t.nil m)) := by
  rw [Table.upsertLoopP, Table.upsertLoop, map_getElem?, htr]
  exact ⟨rfl, rfl, rfl, rfl, (h.mono hWU).drop, fun hn => by simp at hn, fun hn => by simp at hn⟩

/-- distinct keys: nothing the caller can reach is written -/
theorem upsertLoopP_distinct (t : Table T F) (env : Env T) {dec : Decoder T} (hf : dec.For t) {oc : OnConflictP T} {ov : Table.OnConflict T}
    (ha : oc.Acts ov) (entries : List (Bytes × Bytes)) {m0 : RMem T} {U : Nat → Prop} {trs : List Nat} (htrs : ∀ p ∈ trs, U p) :
    ∀ (fuel i : Nat) (items : List (Bytes × Nat)) (m : RMem T) (s : WSt (Option Nat) F), (items.map Prod.fst).Nodup → PInv m0 U m s.oldTr →
    PSim t.nil m0 U (t.upsertLoopP env dec oc entries trs fuel i items m s)
      (t.upsertLoop env ov entries (trs.map m0.cell) fuel i items (s.content t.nil m)) := by
  intro fuel
  induction fuel with
  | zero => intro i items m s _ h; rw [Table.upsertLoopP, Table.upsertLoop]; exact ⟨rfl, rfl, rfl, rfl, h.drop, fun _ => h, fun _ => rfl⟩
  | succ fuel ih =>
    intro i items m s hnd h
    cases items with
    | nil => simp only [Table.upsertLoopP, Table.upsertLoop]; exact ⟨rfl, rfl, rfl, rfl, h.drop, fun _ => h, fun _ => rfl⟩
    | cons e rest =>
      obtain ⟨key, j⟩ := e
      simp only [List.map_cons, List.nodup_cons] at hnd
      have hk : ∀ e ∈ rest, e.1 ≠ key := fun e he hek => hnd.1 (hek ▸ List.mem_map_of_mem he)
      cases htr : trs[j]? with
      | none => exact upsertPanic (fun _ h => h) htr h
      | some tr =>
        refine upsertStep hf ha (V := U) (fun _ h => h) (fun _ h => h) htr (htrs tr (List.mem_of_getElem? htr)) h ?_
        intro m1 tr1 old1 h1 _ _
        rw [upsertDupP_none oc trs key hk, upsertDup_none ov _ key hk]
        exact ⟨rfl, h1.drop, fun s' hs' => ih _ _ m1 s' hnd.2 (by rw [hs']; exact h1)⟩

theorem sortKeys_nodup {t : Table T F} {env : Env T} (ok : env.OK t) {keys : List Bytes} (h : keys.Nodup) :
    ((sortKeys env keys).map Prod.fst).Nodup := by
  have e : (sortKeys env keys).map Prod.fst = (env.sort keys).map (fun j => keys.getD j []) := by
    unfold sortKeys; rw [List.map_map]; rfl
  rw [e]
  have p := (ok.sort_perm keys).map (fun j => keys.getD j [])
  have hr : (List.range keys.length).map (fun j => keys.getD j []) = keys := by
    apply List.ext_getElem?
    intro i
    by_cases hi : i < keys.length
    · rw [List.getElem?_map, List.getElem?_range hi, List.getElem?_eq_getElem hi]
      simp [List.getElem?_eq_getElem hi]
    · rw [List.getElem?_eq_none (by simp; omega), List.getElem?_eq_none (by omega)]
  rw [hr] at p
  exact p.nodup_iff.2 h

theorem upsertPBs_distinct (bs : Nat) {t : Table T F} {env : Env T} (ok : env.OK t) {dec : Decoder T} (hf : dec.For t) {oc : OnConflictP T}
    {ov : Table.OnConflict T} (ha : oc.Acts ov) (db : KV) (filt : F) (ob : Option Batch) (m0 : RMem T) {trs : List Nat}
    (htrs : ∀ p ∈ trs, p < m0.next) (hnd : (trs.map (fun p => t.key (m0.cell p))).Nodup) :
    (Table.upsertPBs bs t env dec db filt ob oc m0 trs).1 = Table.upsertBs bs t env db filt ob ov (trs.map m0.cell) ∧
    PInv m0 (fun p => p < m0.next) (Table.upsertPBs bs t env dec db filt ob oc m0 trs).2 none := by
  have h := forChunks_ptr (nil := t.nil) (m0 := m0) (fun _ p => p < m0.next) (fP := t.upsertChunkP env dec db ob oc)
    (fV := t.upsertChunk env db ob ov) (batched trs bs) (fun _ _ _ h => h)
    (by
      intro pre cs' c hc s m hi
      have hsub := batched_sublist (items := trs) (bs := bs) (c := c) (by rw [hc]; simp)
      have hin : ∀ p ∈ c, p < m0.next := fun p hp => htrs p (hsub.subset hp)
      unfold Table.upsertChunkP Table.upsertChunk
      simp only [chunk_keys t hi hin]
      refine (upsertLoopP_distinct t env hf ha _ hin _ _ _ m s ?_ hi).chunk
      apply sortKeys_nodup ok
      rw [List.map_map]
      exact (hsub.map _).nodup hnd)
    { ops := [], filt := filt, clock := 0, oldTr := none } m0 (PInv.refl m0 fun _ h => h)
  refine ⟨?_, h.inv⟩
  unfold Table.upsertPBs Table.upsertBs
  rw [finish_sim h, batched_map]
  rfl

/-! ## Upsert of rows in key order, keys may repeat -/

/-- The conflict function returns one of the two records given to it or a new one (nothing in /repo: it is the caller's
function). -/
def OnConflictP.Own (oc : OnConflictP T) : Prop :=
  ∀ m old new, (oc m old new).2 = old ∨ (oc m old new).2 = new ∨ m.next ≤ (oc m old new).2

/-- objects still to be read: those of the slice from position `i` on, and `W` -/
def Unread (trs : List Nat) (W : Nat → Prop) (i : Nat) : Nat → Prop := fun p => p ∈ trs.drop i ∨ W p

theorem unread_step {trs : List Nat} {W : Nat → Prop} (hnd : trs.Nodup) (hW : ∀ p ∈ trs, ¬ W p) {i x : Nat} (hx : trs[i]? = some x) :
    Unread trs W i x ∧ ¬ Unread trs W (i + 1) x ∧ ∀ p, Unread trs W (i + 1) p → Unread trs W i p := by
  obtain ⟨hi, rfl⟩ := List.getElem?_eq_some_iff.1 hx
  have hdrop : trs.drop i = trs[i] :: trs.drop (i + 1) := List.drop_eq_getElem_cons hi
  have hn : (trs.drop i).Nodup := (List.drop_sublist _ _).nodup hnd
  rw [hdrop, List.nodup_cons] at hn
  refine ⟨Or.inl (hdrop ▸ List.mem_cons_self), ?_, ?_⟩
  · rintro (h | h)
    · exact hn.1 h
    · exact hW _ (List.getElem_mem _) h
  · rintro p (h | h)
    · exact Or.inl (hdrop ▸ List.mem_cons_of_mem _ h)
    · exact Or.inr h

theorem upsertDupP_sorted {oc : OnConflictP T} {ov : Table.OnConflict T} (ha : oc.Acts ov) (ho : oc.Own) {m0 : RMem T} {W : Nat → Prop}
    {trs : List Nat} (hnd : trs.Nodup) (hW : ∀ p ∈ trs, ¬ W p) (nil : T) (key : Bytes) :
    ∀ (items : List (Bytes × Nat)) (i : Nat) (m : RMem T) (tr : Nat) (old : Option Nat),
    items.map Prod.snd = List.range' (i + 1) items.length → i + 1 + items.length = trs.length →
    PInv m0 (Unread trs W (i + 1)) m old → tr < m.next → ¬ Unread trs W (i + 1) tr →
    ∃ (rest' : List (Bytes × Nat)) (i' : Nat) (m' : RMem T) (tr' : Nat) (old' : Option Nat),
      upsertDupP oc trs key items i m tr old = some (rest', i', m', tr', old') ∧
      Table.upsertDup ov (trs.map m0.cell) key items i (m.cell tr) (m.read nil old) = some (rest', i', m'.cell tr', m'.read nil old') ∧
      PInv m0 (Unread trs W (i' + 1)) m' old' ∧ rest'.map Prod.snd = List.range' (i' + 1) rest'.length ∧
      i' + 1 + rest'.length = trs.length := by
  intro items
  induction items with
  | nil => intro i m tr old h1 h2 h _ _; exact ⟨[], i, m, tr, old, rfl, rfl, h, h1, h2⟩
  | cons e rest ih =>
    obtain ⟨k, j⟩ := e
    intro i m tr old h1 h2 h hlt hnu
    rw [upsertDupP, Table.upsertDup]
    by_cases hk : k = key
    · rw [if_pos hk, if_pos hk, map_getElem?]
      simp only [List.length_cons] at h2
      have hi : i + 1 < trs.length := by omega
      have hx : trs[i + 1]? = some trs[i + 1] := List.getElem?_eq_getElem hi
      generalize trs[i + 1] = x at hx
      rw [hx]
      simp only [Option.map_some]
      obtain ⟨hu, hnu', hmono⟩ := unread_step hnd hW hx
      have hne : tr ≠ x := fun he => hnu (he ▸ hu)
      have hxl : x < m.next := by have := h.sub x hu; have := h.next; omega
      have e1 := ha.ret m tr x hlt hxl hne
      have e2 := ha.old m tr x hlt hxl hne
      have e3 := ha.alive m tr x hlt hxl hne
      have e4 := ha.next m tr x hlt hxl hne
      have e5 := ha.same m tr x hlt hxl hne
      have hcx : m.cell x = m0.cell x := h.same x hu
      rw [hcx] at e1 e2
      have hP : PInv m0 (Unread trs W (i + 1 + 1)) (oc m tr x).1 (some tr) := by
        refine ⟨by have := h.next; omega, fun p hp => h.sub p (hmono p hp), ?_, ?_⟩
        · intro p hp
          have hp' := hmono p hp
          rw [e5 p (by have := h.sub p hp'; have := h.next; omega) (fun he => hnu (he ▸ hp'))]
          exact h.same p hp'
        · intro p hp
          simp only [Option.some.injEq] at hp
          subst hp
          exact ⟨fun hq => hnu (hmono _ hq), by omega⟩
      have hret : ¬ Unread trs W (i + 1 + 1) (oc m tr x).2 := by
        rcases ho m tr x with hr | hr | hr
        · rw [hr]; exact fun hq => hnu (hmono _ hq)
        · rw [hr]; exact hnu'
        · intro hq
          have := h.sub _ (hmono _ hq)
          have := h.next
          omega
      simp only [List.map_cons, List.length_cons, List.range'_succ, List.cons.injEq] at h1
      have := ih (i + 1) (oc m tr x).1 (oc m tr x).2 (some tr) h1.2 (by omega) hP e3 hret
      simp only [RMem.read] at this
      rw [e1, e2] at this
      exact this
    · rw [if_neg hk, if_neg hk]
      exact ⟨_, _, _, _, _, rfl, rfl, h, h1, h2⟩

theorem upsertLoopP_sorted (t : Table T F) (env : Env T) {dec : Decoder T} (hf : dec.For t) {oc : OnConflictP T} {ov : Table.OnConflict T}
    (ha : oc.Acts ov) (ho : oc.Own) (entries : List (Bytes × Bytes)) {m0 : RMem T} {W : Nat → Prop} {trs : List Nat} (hnd : trs.Nodup)
    (hW : ∀ p ∈ trs, ¬ W p) : ∀ (fuel i : Nat) (items : List (Bytes × Nat)) (m : RMem T) (s : WSt (Option Nat) F),
    items.map Prod.snd = List.range' i items.length → i + items.length = trs.length → PInv m0 (Unread trs W i) m s.oldTr →
    PSim t.nil m0 W (t.upsertLoopP env dec oc entries trs fuel i items m s)
      (t.upsertLoop env ov entries (trs.map m0.cell) fuel i items (s.content t.nil m)) := by
  intro fuel
  induction fuel with
  | zero =>
    intro i items m s _ _ h
    have h' : PInv m0 W m s.oldTr := h.mono (fun _ => Or.inr)
    rw [Table.upsertLoopP, Table.upsertLoop]; exact ⟨rfl, rfl, rfl, rfl, h'.drop, fun _ => h', fun _ => rfl⟩
  | succ fuel ih =>
    intro i items m s h1 h2 h
    cases items with
    | nil =>
      have h' : PInv m0 W m s.oldTr := h.mono (fun _ => Or.inr)
      simp only [Table.upsertLoopP, Table.upsertLoop]; exact ⟨rfl, rfl, rfl, rfl, h'.drop, fun _ => h', fun _ => rfl⟩
    | cons e rest =>
      obtain ⟨key, j⟩ := e
      simp only [List.map_cons, List.length_cons, List.range'_succ, List.cons.injEq] at h1 h2
      obtain ⟨rfl, h1⟩ := h1
      cases htr : trs[j]? with
      | none => exact upsertPanic (fun _ => Or.inr) htr h
      | some tr =>
        obtain ⟨hu, hnu, hmono⟩ := unread_step hnd hW htr
        refine upsertStep hf ha (V := Unread trs W (j + 1)) hmono (fun _ => Or.inr) htr hu h ?_
        intro m1 tr1 old1 hP hlt hor
        have hnu1 : ¬ Unread trs W (j + 1) tr1 := by
          rcases hor with rfl | ⟨m2, old2, hP2, he⟩
          · exact hnu
          · have he2 : tr1 = (oc m2 old2 tr).2 := congrArg Prod.snd he
            rw [he2]
            rcases ho m2 old2 tr with hr | hr | hr
            · rw [hr]; exact fun hq => (hP2.own old2 rfl).1 (hmono _ hq)
            · rw [hr]; exact hnu
            · intro hq
              have := hP2.sub _ (hmono _ hq)
              have := hP2.next
              omega
        obtain ⟨rest', i', m', tr', old', d1, d2, d3, d4, d5⟩ :=
          upsertDupP_sorted ha ho hnd hW t.nil key rest j m1 tr1 old1 h1 (by omega) hP hlt hnu1
        rw [d1]
        refine ⟨d2, (d3.mono (fun _ => Or.inr)).drop, fun s' hs' => ?_⟩
        exact ih (i' + 1) rest' m' s' d4 (by omega) (by rw [hs']; exact d3)

theorem upsertPBs_sorted {bs : Nat} (hbs : 0 < bs) {t : Table T F} {env : Env T} (ok : env.OK t) (st : env.Stable) {dec : Decoder T} (hf : dec.For t)
    {oc : OnConflictP T} {ov : Table.OnConflict T} (ha : oc.Acts ov) (ho : oc.Own) (db : KV) (filt : F) (ob : Option Batch) (m0 : RMem T)
    {trs : List Nat} (htrs : ∀ p ∈ trs, p < m0.next) (hnd : trs.Nodup)
    (hs : (trs.map (fun p => t.key (m0.cell p))).Pairwise (fun a b => ble a b = true)) :
    (Table.upsertPBs bs t env dec db filt ob oc m0 trs).1 = Table.upsertBs bs t env db filt ob ov (trs.map m0.cell) := by
  have h := forChunks_ptr (nil := t.nil) (m0 := m0) (fun cs p => p ∈ cs.flatten) (fP := t.upsertChunkP env dec db ob oc)
    (fV := t.upsertChunk env db ob ov) (batched trs bs) (fun c cs p h => by rw [List.flatten_cons]; exact List.mem_append_right _ h)
    (by
      intro pre cs' c hc s m hi
      have hsub := batched_sublist (items := trs) (bs := bs) (c := c) (by rw [hc]; simp)
      have hfl : pre.flatten ++ (c ++ cs'.flatten) = trs := by
        have := batched_flatten trs hbs
        rw [hc] at this
        simpa using this
      have hin : ∀ p ∈ c, p ∈ (c :: cs').flatten := fun p hp => by simp [hp]
      have hW : ∀ p ∈ c, ¬ p ∈ cs'.flatten := by
        intro p hp hq
        rw [← hfl, List.nodup_append] at hnd
        have h2 := (List.nodup_append.1 hnd.2.1).2.2 p hp p hq
        exact h2 rfl
      unfold Table.upsertChunkP Table.upsertChunk
      simp only [chunk_keys t hi hin]
      have hks : sortKeys env ((c.map m0.cell).map t.key) = ((c.map m0.cell).map t.key).zipIdx 0 := by
        apply sortKeys_of_sorted ok st
        rw [List.map_map]
        exact hs.sublist (hsub.map _)
      rw [hks]
      refine (upsertLoopP_sorted t env hf ha ho _ (hsub.nodup hnd) hW _ 0 _ m s ?_ (by simp) ?_).chunk
      · rw [List.zipIdx_map_snd]; simp
      · exact hi.mono (fun p hp => by
          rcases hp with hp | hp
          · simp at hp; simp [hp]
          · simp only [List.flatten_cons, List.mem_append]; exact Or.inr hp))
    { ops := [], filt := filt, clock := 0, oldTr := none } m0
    (PInv.refl m0 fun p h => htrs p (by rw [batched_flatten trs hbs] at h; exact h))
  unfold Table.upsertPBs Table.upsertBs
  rw [finish_sim h, batched_map]
  rfl

/-! ## Upsert with a serializer that never overwrites objects -/

/-- The conflict function writes no object that exists; the record it returns has the content `(ov old new).1` (nothing in /repo:
it is the caller's function). -/
structure OnConflictP.Pure (oc : OnConflictP T) (ov : Table.OnConflict T) : Prop where
  ret : ∀ m old new, old < m.next → new < m.next → (oc m old new).1.cell (oc m old new).2 = (ov (m.cell old) (m.cell new)).1
  old : ∀ a b, (ov a b).2 = a
  alive : ∀ m old new, old < m.next → new < m.next → (oc m old new).2 < (oc m old new).1.next
  next : ∀ m old new, old < m.next → new < m.next → m.next ≤ (oc m old new).1.next
  same : ∀ m old new, old < m.next → new < m.next → ∀ p, p < m.next → (oc m old new).1.cell p = m.cell p

/-- later objects: those that existed are as they were (nothing in /repo: proof notion) -/
structure RMem.Ext (m m' : RMem T) : Prop where
  next : m.next ≤ m'.next
  same : ∀ p, p < m.next → m'.cell p = m.cell p

theorem RMem.Ext.refl (m : RMem T) : m.Ext m := ⟨Nat.le_refl _, fun _ _ => rfl⟩

theorem RMem.Ext.trans {m m' m'' : RMem T} (h : m.Ext m') (h' : m'.Ext m'') : m.Ext m'' :=
  ⟨Nat.le_trans h.next h'.next, fun p hp => by rw [h'.same p (Nat.lt_of_lt_of_le hp h.next)]; exact h.same p hp⟩

/-- `oldTr` is nil or an existing object (nothing in /repo: proof notion) -/
def RMem.Has (m : RMem T) (old : Option Nat) : Prop := ∀ p, old = some p → p < m.next

theorem decodeP_fresh (t : Table T F) {dec : Decoder T} (hr : dec.reuse = false) (m : RMem T) (old : Option Nat) (v : Bytes) :
    m.Ext (t.decodeP dec m old v).mem ∧ (t.decodeP dec m old v).ptr < (t.decodeP dec m old v).mem.next := by
  unfold Table.decodeP
  rw [hr]
  have key : ∀ x, m.Ext (m.alloc x) ∧ m.next < (m.alloc x).next := by
    intro x
    refine ⟨⟨by simp [RMem.alloc], fun p hp => ?_⟩, by simp [RMem.alloc]⟩
    simp only [RMem.alloc]
    rw [if_neg (by omega)]
  simp only [Bool.false_eq_true, if_false]
  cases t.deser t.nil v <;> exact key _

theorem upsertDupP_pure {oc : OnConflictP T} {ov : Table.OnConflict T} (ha : oc.Pure ov) {m0 : RMem T} {trs : List Nat}
    (htrs : ∀ p ∈ trs, p < m0.next) (nil : T) (key : Bytes) : ∀ (items : List (Bytes × Nat)) (i : Nat) (m : RMem T) (tr : Nat) (old : Option Nat),
    m0.Ext m → tr < m.next → m.Has old →
    match upsertDupP oc trs key items i m tr old with
    | none => Table.upsertDup ov (trs.map m0.cell) key items i (m.cell tr) (m.read nil old) = none
    | some (rest', i', m', tr', old') =>
      Table.upsertDup ov (trs.map m0.cell) key items i (m.cell tr) (m.read nil old) = some (rest', i', m'.cell tr', m'.read nil old') ∧
      m0.Ext m' ∧ m'.Has old' := by
  intro items
  induction items with
  | nil => intro i m tr old h _ ho; exact ⟨rfl, h, ho⟩
  | cons e rest ih =>
    obtain ⟨k, j⟩ := e
    intro i m tr old h hlt ho
    rw [upsertDupP, Table.upsertDup]
    by_cases hk : k = key
    · rw [if_pos hk, if_pos hk, map_getElem?]
      cases hx : trs[i + 1]? with
      | none => rfl
      | some x =>
        simp only [Option.map_some]
        have hx0 := htrs x (List.mem_of_getElem? hx)
        have hxl : x < m.next := Nat.lt_of_lt_of_le hx0 h.next
        have e1 := ha.ret m tr x hlt hxl
        have e2 := ha.alive m tr x hlt hxl
        have e3 := ha.next m tr x hlt hxl
        have e4 := ha.same m tr x hlt hxl
        rw [h.same x hx0] at e1
        have := ih (i + 1) (oc m tr x).1 (oc m tr x).2 (some tr) (h.trans ⟨e3, e4⟩) e2
          (fun p hp => by simp only [Option.some.injEq] at hp; subst hp; omega)
        simp only [RMem.read] at this
        rw [e1, e4 tr hlt] at this
        rw [ha.old]
        exact this
    · rw [if_neg hk, if_neg hk]
      exact ⟨rfl, h, ho⟩

theorem upsertLoopP_pure {t : Table T F} (env : Env T) {dec : Decoder T} (hf : dec.For t) (hr : dec.reuse = false) {oc : OnConflictP T}
    {ov : Table.OnConflict T} (ha : oc.Pure ov) (entries : List (Bytes × Bytes)) {m0 : RMem T} {trs : List Nat}
    (htrs : ∀ p ∈ trs, p < m0.next) : ∀ (fuel i : Nat) (items : List (Bytes × Nat)) (m : RMem T) (s : WSt (Option Nat) F),
    m0.Ext m → m.Has s.oldTr →
    let r := t.upsertLoopP env dec oc entries trs fuel i items m s
    let v := t.upsertLoop env ov entries (trs.map m0.cell) fuel i items (s.content t.nil m)
    r.1.2 = v.2 ∧ r.1.1.ops = v.1.ops ∧ r.1.1.filt = v.1.filt ∧ r.1.1.clock = v.1.clock ∧ m0.Ext r.2 ∧
    (r.1.2 = none → v.1 = r.1.1.content t.nil r.2 ∧ r.2.Has r.1.1.oldTr) := by
  intro fuel
  induction fuel with
  | zero => intro i items m s h ho; simp only [Table.upsertLoopP, Table.upsertLoop]; exact ⟨trivial, rfl, rfl, rfl, h, fun _ => ⟨trivial, ho⟩⟩
  | succ fuel ih =>
    intro i items m s h ho
    cases items with
    | nil => simp only [Table.upsertLoopP, Table.upsertLoop]; exact ⟨trivial, rfl, rfl, rfl, h, fun _ => ⟨trivial, ho⟩⟩
    | cons e rest =>
      obtain ⟨key, j⟩ := e
      rw [Table.upsertLoopP, Table.upsertLoop, map_getElem?]
      cases htr : trs[j]? with
      | none => exact ⟨rfl, rfl, rfl, rfl, h, fun hn => by simp at hn⟩
      | some tr =>
        simp only [Option.map_some]
        have htr0 := htrs tr (List.mem_of_getElem? htr)
        have hc : (s.content t.nil m).clock = s.clock := rfl
        have hfi : (s.content t.nil m).filt = s.filt := rfl
        have hop : (s.content t.nil m).ops = s.ops := rfl
        have hol : (s.content t.nil m).oldTr = m.read t.nil s.oldTr := rfl
        simp only [hc, hfi, hop, hol]
        by_cases hd : env.done s.clock = true
        · rw [if_pos hd, if_pos hd]
          exact ⟨rfl, rfl, rfl, rfl, h, fun hn => by simp at hn⟩
        rw [if_neg hd, if_neg hd]
        cases hx : t.existIter s.filt entries key with
        | none =>
          simp only [Bool.true_eq_false, if_false]
          have h1 := upsertDupP_pure ha htrs t.nil key rest i m tr s.oldTr h (Nat.lt_of_lt_of_le htr0 h.next) ho
          rw [h.same tr htr0] at h1
          cases hdup : upsertDupP oc trs key rest i m tr s.oldTr with
          | none =>
            rw [hdup] at h1
            simp only at h1
            rw [h1]
            exact ⟨rfl, rfl, rfl, rfl, h, fun hn => by simp at hn⟩
          | some q =>
            obtain ⟨rest', i', m', tr', old'⟩ := q
            rw [hdup] at h1
            obtain ⟨h1, h2, h3⟩ := h1
            rw [h1]
            simp only
            cases hse : t.ser (m'.cell tr') with
            | none => exact ⟨rfl, rfl, rfl, rfl, h2, fun hn => by simp at hn⟩
            | some data =>
              simp only [Bool.false_eq_true, if_false]
              exact ih (i' + 1) rest' m' (WSt.mk _ _ _ old') h2 h3
        | some v =>
          simp only
          obtain ⟨hE, hl⟩ := decodeP_fresh t hr m s.oldTr v
          have hval := decodeP_value m (old := s.oldTr) (Or.inl hf) v
          generalize hdd : t.decodeP dec m s.oldTr v = d at *
          rcases hval with ⟨x, hx', hok, hcell⟩ | ⟨hx', hok⟩
          · rw [hx']
            simp only [hok, Bool.true_eq_false, if_false, Option.map_some]
            have hE0 := h.trans hE
            have htl : tr < d.mem.next := Nat.lt_of_lt_of_le htr0 hE0.next
            have e1 := ha.ret d.mem d.ptr tr hl htl
            have e2 := ha.alive d.mem d.ptr tr hl htl
            have e3 := ha.next d.mem d.ptr tr hl htl
            have e4 := ha.same d.mem d.ptr tr hl htl
            rw [hE0.same tr htr0, hcell] at e1
            have hE1 := hE0.trans ⟨e3, e4⟩
            have h1 := upsertDupP_pure ha htrs t.nil key rest i (oc d.mem d.ptr tr).1 (oc d.mem d.ptr tr).2 (some d.ptr) hE1 e2
              (fun p hp => by simp only [Option.some.injEq] at hp; subst hp; omega)
            simp only [RMem.read] at h1
            rw [e1, e4 d.ptr hl, hcell] at h1
            rw [ha.old]
            cases hdup : upsertDupP oc trs key rest i (oc d.mem d.ptr tr).1 (oc d.mem d.ptr tr).2 (some d.ptr) with
            | none =>
              rw [hdup] at h1
              simp only at h1
              rw [h1]
              exact ⟨rfl, rfl, rfl, rfl, hE1, fun hn => by simp at hn⟩
            | some q =>
              obtain ⟨rest', i', m', tr', old'⟩ := q
              rw [hdup] at h1
              simp only at h1
              obtain ⟨h1, h2, h3⟩ := h1
              rw [h1]
              simp only
              cases hse : t.ser (m'.cell tr') with
              | none => exact ⟨rfl, rfl, rfl, rfl, h2, fun hn => by simp at hn⟩
              | some data =>
                simp only [if_true]
                exact ih (i' + 1) rest' m' (WSt.mk (s.ops ++ .set key data :: (env.order s.clock).flatMap
                  (fun idx => onUpdate t idx (m'.read t.nil old') (m'.cell tr'))) s.filt (s.clock + 1) old') h2 h3
          · rw [hx']
            simp only [hok, if_true, Option.map_none]
            exact ⟨trivial, rfl, rfl, rfl, h.trans hE, fun hn => by simp at hn⟩

theorem upsertPBs_pure (bs : Nat) {t : Table T F} (env : Env T) {dec : Decoder T} (hf : dec.For t) (hr : dec.reuse = false)
    {oc : OnConflictP T} {ov : Table.OnConflict T} (ha : oc.Pure ov) (db : KV) (filt : F) (ob : Option Batch) (m0 : RMem T) {trs : List Nat}
    (htrs : ∀ p ∈ trs, p < m0.next) :
    (Table.upsertPBs bs t env dec db filt ob oc m0 trs).1 = Table.upsertBs bs t env db filt ob ov (trs.map m0.cell) ∧
    m0.Ext (Table.upsertPBs bs t env dec db filt ob oc m0 trs).2 := by
  have key : ∀ (cs : List (List Nat)), (∀ c ∈ cs, ∀ p ∈ c, p < m0.next) → ∀ (s : WSt (Option Nat) F) (m : RMem T), m0.Ext m → m.Has s.oldTr →
      let r := forChunks (t.upsertChunkP env dec db ob oc) cs (s, m)
      let v := forChunks (t.upsertChunk env db ob ov) (cs.map (fun c => c.map m0.cell)) (s.content t.nil m)
      r.2 = v.2 ∧ r.1.1.ops = v.1.ops ∧ r.1.1.filt = v.1.filt ∧ m0.Ext r.1.2 := by
    intro cs
    induction cs with
    | nil => intro _ s m h _; exact ⟨rfl, rfl, rfl, h⟩
    | cons c cs ih =>
      intro hc s m h ho
      simp only [List.map_cons, forChunks]
      have hk : c.map (fun p => t.key (m.cell p)) = (c.map m0.cell).map t.key := by
        rw [List.map_map]
        exact List.map_congr_left (fun p hp => by simp only [Function.comp]; rw [h.same p (hc c (by simp) p hp)])
      have h1 : let r := t.upsertChunkP env dec db ob oc c (s, m)
          let v := t.upsertChunk env db ob ov (c.map m0.cell) (s.content t.nil m)
          r.2 = v.2 ∧ r.1.1.ops = v.1.ops ∧ r.1.1.filt = v.1.filt ∧ r.1.1.clock = v.1.clock ∧ m0.Ext r.1.2 ∧
          (r.2 = none → v.1 = r.1.1.content t.nil r.1.2 ∧ r.1.2.Has r.1.1.oldTr) := by
        unfold Table.upsertChunkP Table.upsertChunk
        simp only [hk]
        exact upsertLoopP_pure env hf hr ha _ (hc c (by simp)) _ _ _ m s h ho
      generalize t.upsertChunkP env dec db ob oc c (s, m) = r at *
      generalize t.upsertChunk env db ob ov (c.map m0.cell) (s.content t.nil m) = v at *
      obtain ⟨⟨s', m'⟩, e⟩ := r
      obtain ⟨v', e'⟩ := v
      obtain ⟨rfl, h2, h3, h4, h5, h6⟩ := h1
      cases e with
      | some e => exact ⟨rfl, h2, h3, h5⟩
      | none =>
        obtain ⟨hv, hh⟩ := h6 rfl
        simp only at hv hh
        rw [hv]
        exact ih (fun c hc' => hc c (by simp [hc'])) s' m' h5 hh
  obtain ⟨a, b, c, d⟩ := key (batched trs bs) (fun c hc p hp => htrs p ((batched_sublist hc).subset hp))
    { ops := [], filt := filt, clock := 0, oldTr := none } m0 (RMem.Ext.refl m0) (fun p hp => by simp at hp)
  refine ⟨?_, d⟩
  unfold Table.upsertPBs Table.upsertBs finishP finish
  rw [batched_map]
  have e : WSt.content t.nil m0 { ops := [], filt := filt, clock := 0, oldTr := none } = { ops := [], filt := filt, clock := 0, oldTr := t.nil } := rfl
  rw [e] at a b c
  simp only [a, b, c]

/-! ## Get -/

theorem decodeAllP_spec (t : Table T F) (dec : Decoder T) : ∀ (vs : List Bytes) (m : RMem T),
    m.next ≤ (t.decodeAllP dec vs m).2.next ∧ (∀ p, p < m.next → (t.decodeAllP dec vs m).2.cell p = m.cell p) ∧
    (∀ p, some p ∈ (t.decodeAllP dec vs m).1.1 → m.next ≤ p ∧ p < (t.decodeAllP dec vs m).2.next) ∧
    ((t.decodeAllP dec vs m).1.1.filterMap id).Nodup ∧
    (match t.decodeAll vs with
     | .ok xs => (t.decodeAllP dec vs m).1.2 = true ∧ (t.decodeAllP dec vs m).1.1.map ((t.decodeAllP dec vs m).2.read t.nil) = xs ∧
        ∀ (i : Nat), (t.decodeAllP dec vs m).1.1[i]? = some none ↔ vs[i]? = some []
     | .error e => e = .deser ∧ (t.decodeAllP dec vs m).1.2 = false) := by
  intro vs
  induction vs with
  | nil => intro m; exact ⟨Nat.le_refl _, fun _ _ => rfl, fun p hp => by simp [Table.decodeAllP] at hp, by simp [Table.decodeAllP],
      rfl, rfl, fun i => by simp [Table.decodeAllP]⟩
  | cons v vs ih =>
    intro m
    rw [Table.decodeAllP, Table.decodeAll]
    by_cases hv : v = []
    · rw [if_pos hv, if_pos hv]
      obtain ⟨a, b, c, d, e⟩ := ih m
      refine ⟨a, b, fun p hp => c p (by simpa using hp), by simpa using d, ?_⟩
      cases hx : t.decodeAll vs with
      | error er => rw [hx] at e; exact e
      | ok xs =>
        rw [hx] at e
        obtain ⟨e1, e2, e3⟩ := e
        refine ⟨e1, ?_, ?_⟩
        · simp only [List.map_cons, e2, RMem.read]
        · intro i
          cases i with
          | zero => simp [hv]
          | succ i => simpa using e3 i
    · rw [if_neg hv, if_neg hv]
      have hval := decodeP_value (t := t) (dec := dec) m (Or.inr rfl) v
      obtain ⟨hinv, hnx⟩ := decodeP_inv t dec (PInv.refl m (U := fun p => p < m.next) fun _ h => h) v
      generalize t.decodeP dec m none v = d at *
      obtain ⟨hn, hl⟩ := hinv.own d.ptr rfl
      rcases hval with ⟨x, hx, hok, hcell⟩ | ⟨hx, hok⟩
      · simp only [RMem.read] at hx
        rw [hx]
        simp only [hok, Bool.true_eq_false, if_false]
        obtain ⟨a, b, c, dd, e⟩ := ih d.mem
        refine ⟨by omega, fun p hp => by rw [b p (by omega)]; exact hinv.same p hp, ?_, ?_, ?_⟩
        · intro p hp
          simp only [List.mem_cons, Option.some.injEq] at hp
          rcases hp with rfl | hp
          · exact ⟨by omega, by omega⟩
          · have := c p hp; exact ⟨by omega, this.2⟩
        · simp only [List.filterMap_cons, id, List.nodup_cons]
          refine ⟨fun hq => ?_, dd⟩
          obtain ⟨o, ho, hoe⟩ := List.mem_filterMap.1 hq
          simp only [id] at hoe
          subst hoe
          have := c _ ho
          omega
        · cases hxs : t.decodeAll vs with
          | error er => rw [hxs] at e; exact e
          | ok xs =>
            rw [hxs] at e
            obtain ⟨e1, e2, e3⟩ := e
            refine ⟨e1, ?_, ?_⟩
            · simp only [List.map_cons, e2, RMem.read, b d.ptr hl, hcell]
            · intro i
              cases i with
              | zero => simp [hv]
              | succ i => simpa using e3 i
      · simp only [RMem.read] at hx
        rw [hx]
        simp only [hok, if_true]
        exact ⟨by omega, hinv.same, fun p hp => by simp at hp, by simp, by simp, by simp⟩

/-- rows handed out by a read: objects made since `m0`, no object twice (nothing in /repo: proof notion) -/
structure Fresh (m0 m : RMem T) (ps : List (Option Nat)) : Prop where
  made : ∀ p, some p ∈ ps → m0.next ≤ p ∧ p < m.next
  once : (ps.filterMap id).Nodup

theorem getChunksP_spec (t : Table T F) (env : Env T) (dec : Decoder T) (f : F) (db : KV) (ob : Option Batch) (cap : Nat)
    (m0 : RMem T) : ∀ (cs : List (List Nat)) (m : RMem T), m0.next ≤ m.next → (∀ p, p < m0.next → m.cell p = m0.cell p) →
    (∀ c ∈ cs, ∀ p ∈ c, p < m0.next) →
    m.next ≤ (t.getChunksP env dec f db ob cap cs m).2.next ∧
    (∀ p, p < m.next → (t.getChunksP env dec f db ob cap cs m).2.cell p = m.cell p) ∧
    (match t.getChunks env f db ob cap (cs.map (List.map m0.cell)) with
     | .ok xs => ∃ ps, (t.getChunksP env dec f db ob cap cs m).1 = .ok ps ∧
        ps.map ((t.getChunksP env dec f db ob cap cs m).2.read t.nil) = xs ∧ Fresh m (t.getChunksP env dec f db ob cap cs m).2 ps
     | .error e => (t.getChunksP env dec f db ob cap cs m).1 = .error e) := by
  intro cs
  induction cs with
  | nil => intro m _ _ _; exact ⟨Nat.le_refl _, fun _ _ => rfl, [], rfl, rfl, fun p hp => by simp at hp, by simp⟩
  | cons c cs ih =>
    intro m hn hs hc
    have hk : c.map (fun p => t.key (m.cell p)) = (c.map m0.cell).map t.key := by
      rw [List.map_map]
      exact List.map_congr_left (fun p hp => by simp only [Function.comp]; rw [hs p (hc c (by simp) p hp)])
    rw [Table.getChunksP, List.map_cons, Table.getChunks, hk]
    cases hg : t.getKeys env f db ob ((c.map m0.cell).map t.key) cap false with
    | error e => exact ⟨Nat.le_refl _, fun _ _ => rfl, rfl⟩
    | ok values =>
      simp only
      obtain ⟨a, b, fr, nd, e⟩ := decodeAllP_spec t dec values m
      cases hd : t.decodeAll values with
      | error er =>
        rw [hd] at e
        obtain ⟨rfl, e⟩ := e
        simp only [e, if_true]
        exact ⟨a, b, trivial⟩
      | ok xs =>
        rw [hd] at e
        obtain ⟨e1, e2, _⟩ := e
        generalize t.decodeAllP dec values m = d at *
        simp only [e1, Bool.true_eq_false, if_false]
        obtain ⟨a', b', e'⟩ := ih d.2 (by omega) (fun p hp => by rw [b p (by omega)]; exact hs p hp) (fun c hc' => hc c (by simp [hc']))
        refine ⟨by omega, fun p hp => by rw [b' p (by omega)]; exact b p hp, ?_⟩
        cases hr : t.getChunks env f db ob cap (cs.map (List.map m0.cell)) with
        | error er => rw [hr] at e'; simp only at e'; rw [e']; rfl
        | ok ys =>
          rw [hr] at e'
          obtain ⟨ps, h1, h2, h3⟩ := e'
          refine ⟨d.1.1 ++ ps, by rw [h1]; rfl, ?_, ?_, ?_⟩
          · rw [List.map_append, h2, ← e2]
            congr 1
            apply List.map_congr_left
            intro o ho
            cases o with
            | none => rfl
            | some p => exact b' p (fr p ho).2
          · intro p hp
            rcases List.mem_append.1 hp with hp | hp
            · have := fr p hp; exact ⟨this.1, by omega⟩
            · have := h3.made p hp; exact ⟨by omega, this.2⟩
          · rw [List.filterMap_append, List.nodup_append]
            refine ⟨nd, h3.once, ?_⟩
            intro x hx y hy
            obtain ⟨o, ho, hoe⟩ := List.mem_filterMap.1 hx
            obtain ⟨o', ho', hoe'⟩ := List.mem_filterMap.1 hy
            simp only [id] at hoe hoe'
            subst hoe; subst hoe'
            have := fr _ ho
            have := h3.made _ ho'
            omega

end Bond
