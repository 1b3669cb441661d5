import Verif.Serializers
/-
Property C78: serializers that reuse buffers.
-/
namespace Bond
variable {R : Type}

/-! ## C78 Serialized bytes belong to the record

Full statement: whatever was serialized and released before, the bytes that `Serialize` and `SerializerWithCloseable`
return for a record are the encoding of that record. False with a Buffer pool: released buffers are reused with their
old content. -/

/-- the concatenated encodings of records -/
def Spec.encodings (enc : R → Option Bytes) (rs : List R) : Bytes := (rs.map (fun r => (enc r).getD [])).flatten

theorem encodings_append (enc : R → Option Bytes) (a b : List R) :
    Spec.encodings enc (a ++ b) = Spec.encodings enc a ++ Spec.encodings enc b := by simp [Spec.encodings]

/-- every buffer in the pool or on its way back holds the encodings of at least one record serialized before -/
structure SerInv (enc : R → Option Bytes) (s : SerSt R) : Prop where
  pool : ∀ b ∈ s.pool, ∃ r rs, (∀ x ∈ r :: rs, (enc x).isSome ∧ x ∈ s.log.map Prod.fst) ∧ b = Spec.encodings enc (r :: rs)
  closers : ∀ b, some b ∈ s.closers → ∃ r rs, (∀ x ∈ r :: rs, (enc x).isSome ∧ x ∈ s.log.map Prod.fst) ∧
    b = Spec.encodings enc (r :: rs)

/-- what `getBuffer` answers: an empty buffer and the pool as it was, or an element of the pool, which is removed -/
theorem getBuffer_cases (cfg : MsgpCfg) (pool : List Bytes) (c : Option Nat) :
    getBuffer cfg pool c = ([], pool) ∨
    (cfg.buffer = true ∧ (getBuffer cfg pool c).1 ∈ pool ∧ ∀ b ∈ (getBuffer cfg pool c).2, b ∈ pool) := by
  unfold getBuffer
  cases hb : cfg.buffer with
  | false => left; rfl
  | true =>
    cases c with
    | none => left; rfl
    | some i =>
      cases hi : pool[i]? with
      | none => left; simp [hi]
      | some b =>
        right
        simp only [if_true, hi, true_and]
        exact ⟨List.mem_of_getElem? hi, fun b hb => List.mem_of_mem_eraseIdx hb⟩

/-- a result: encodings of earlier records, then the encoding of the record -/
def Spec.Tail (enc : R → Option Bytes) (earlier : List R) (r : R) (out : Option Bytes) : Prop :=
  ∀ b, out = some b → ∃ rs e, (∀ x ∈ rs, (enc x).isSome ∧ x ∈ earlier) ∧ enc r = some e ∧ b = Spec.encodings enc rs ++ e

/-- how a call ends, in one statement for both methods -/
theorem encodeInto_tail {enc : R → Option Bytes} {s : SerSt R} (hi : SerInv enc s) (cfg : MsgpCfg) (c : Option Nat) (r : R) :
    Spec.Tail enc (s.log.map Prod.fst) r (encodeInto enc (getBuffer cfg s.pool c).1 r) := by
  intro b hb
  unfold encodeInto at hb
  rw [Option.map_eq_some_iff] at hb
  obtain ⟨e, he, rfl⟩ := hb
  rcases getBuffer_cases cfg s.pool c with h | ⟨_, h, _⟩
  · rw [h]; exact ⟨[], e, by simp, he, by simp [Spec.encodings]⟩
  · obtain ⟨r0, rs, h1, h2⟩ := hi.pool _ h
    exact ⟨r0 :: rs, e, h1, he, by rw [h2]⟩

theorem encodings_of_tail {enc : R → Option Bytes} {earlier : List R} {r : R} {b : Bytes}
    (h : Spec.Tail enc earlier r (some b)) :
    ∃ x xs, (∀ y ∈ x :: xs, (enc y).isSome ∧ y ∈ earlier ++ [r]) ∧ b = Spec.encodings enc (x :: xs) := by
  obtain ⟨rs, e, h1, h2, h3⟩ := h b rfl
  have hb : b = Spec.encodings enc (rs ++ [r]) := by rw [encodings_append, h3]; simp [Spec.encodings, h2]
  have hm : ∀ y ∈ rs ++ [r], (enc y).isSome ∧ y ∈ earlier ++ [r] := by
    intro y hy
    rcases List.mem_append.1 hy with hy | hy
    · exact ⟨(h1 y hy).1, List.mem_append_left _ (h1 y hy).2⟩
    · rw [List.mem_singleton] at hy; subst hy; exact ⟨by rw [h2]; rfl, by simp⟩
  cases rs with
  | nil => exact ⟨r, [], hm, hb⟩
  | cons x xs => exact ⟨x, xs ++ [r], hm, hb⟩

theorem serialize_tail {enc : R → Option Bytes} {s : SerSt R} (hi : SerInv enc s) (cfg : MsgpCfg) (c : Option Nat) (r : R) :
    Spec.Tail enc (s.log.map Prod.fst) r (serialize cfg enc s.pool c r).1 := by
  unfold serialize
  split
  · intro b hb
    unfold encodeInto at hb
    rw [Option.map_eq_some_iff] at hb
    obtain ⟨e, he, rfl⟩ := hb
    exact ⟨[], e, by simp, he, by simp [Spec.encodings]⟩
  · split
    · exact encodeInto_tail hi cfg c r
    · intro b hb; exact ⟨[], b, by simp, hb, by simp [Spec.encodings]⟩

theorem serializeC_tail {enc : R → Option Bytes} {s : SerSt R} (hi : SerInv enc s) (cfg : MsgpCfg) (c : Option Nat) (r : R) :
    Spec.Tail enc (s.log.map Prod.fst) r (serializeC cfg enc s.pool c r).1 ∧
    ∀ b, (serializeC cfg enc s.pool c r).2.1 = some b → (serializeC cfg enc s.pool c r).1 = some b := by
  unfold serializeC
  split
  · have ht := encodeInto_tail hi cfg c r
    dsimp only
    cases he : encodeInto enc (getBuffer cfg s.pool c).1 r with
    | none => exact ⟨by intro b hb; simp at hb, by intro b hb; simp at hb⟩
    | some out => rw [he] at ht; exact ⟨ht, fun b hb => hb⟩
  · exact ⟨by intro b hb; exact ⟨[], b, by simp, hb, by simp [Spec.encodings]⟩, by intro b hb; simp at hb⟩

theorem getBuffer_pool {cfg : MsgpCfg} {pool : List Bytes} {c : Option Nat} : ∀ b ∈ (getBuffer cfg pool c).2, b ∈ pool := by
  rcases getBuffer_cases cfg pool c with h | ⟨_, _, h⟩
  · rw [h]; exact fun b hb => hb
  · exact h

theorem serialize_pool {cfg : MsgpCfg} {enc : R → Option Bytes} {pool : List Bytes} {c : Option Nat} {r : R} :
    ∀ b ∈ (serialize cfg enc pool c r).2, b ∈ pool := by
  unfold serialize
  split
  · exact fun b hb => hb
  · split
    · exact getBuffer_pool
    · exact fun b hb => hb

theorem serializeC_pool {cfg : MsgpCfg} {enc : R → Option Bytes} {pool : List Bytes} {c : Option Nat} {r : R} :
    ∀ b ∈ (serializeC cfg enc pool c r).2.2, b ∈ pool := by
  unfold serializeC
  split
  · dsimp only
    cases encodeInto enc (getBuffer cfg pool c).1 r <;> exact getBuffer_pool
  · exact fun b hb => hb

theorem serInv_step {cfg : MsgpCfg} {enc : R → Option Bytes} {s : SerSt R} (hi : SerInv enc s) (ev : SerEv R) :
    SerInv enc (s.step cfg enc ev) := by
  have mono : ∀ (r : R) (out : Option Bytes) (b : Bytes), (∃ x xs, (∀ y ∈ x :: xs, (enc y).isSome ∧ y ∈ s.log.map Prod.fst) ∧
      b = Spec.encodings enc (x :: xs)) → ∃ x xs, (∀ y ∈ x :: xs, (enc y).isSome ∧ y ∈ (s.log ++ [(r, out)]).map Prod.fst) ∧
      b = Spec.encodings enc (x :: xs) := by
    intro r out b ⟨x, xs, h1, h2⟩
    exact ⟨x, xs, fun y hy => ⟨(h1 y hy).1, by rw [List.map_append]; exact List.mem_append_left _ (h1 y hy).2⟩, h2⟩
  cases ev with
  | ser r c =>
    simp only [SerSt.step]
    exact ⟨fun b hb => mono _ _ _ (hi.pool b (serialize_pool b hb)), fun b hb => mono _ _ _ (hi.closers b hb)⟩
  | serC r c =>
    simp only [SerSt.step]
    refine ⟨fun b hb => mono _ _ _ (hi.pool b (serializeC_pool b hb)), fun b hb => ?_⟩
    rcases List.mem_append.1 hb with hb | hb
    · exact mono _ _ _ (hi.closers b hb)
    · rw [List.mem_singleton] at hb
      obtain ⟨h1, h2⟩ := serializeC_tail hi cfg c r
      rw [h2 b hb.symm] at h1
      obtain ⟨x, xs, h3, h4⟩ := encodings_of_tail h1
      exact ⟨x, xs, by rw [List.map_append]; exact h3, h4⟩
  | close i =>
    simp only [SerSt.step]
    cases hc : s.closers[i]? with
    | none => exact hi
    | some o =>
      cases o with
      | none => exact hi
      | some b =>
        refine ⟨fun b' hb' => ?_, fun b' hb' => ?_⟩
        · change b' ∈ freeBuffer cfg s.pool b at hb'
          unfold freeBuffer at hb'
          split at hb'
          · rcases List.mem_append.1 hb' with h | h
            · exact hi.pool _ h
            · rw [List.mem_singleton] at h; subst h; exact hi.closers _ (List.mem_of_getElem? hc)
          · exact hi.pool _ hb'
        · rcases List.mem_or_eq_of_mem_set hb' with h | h
          · exact hi.closers _ h
          · simp at h

theorem serInv_run (cfg : MsgpCfg) (enc : R → Option Bytes) (evs : List (SerEv R)) : SerInv enc (serRun cfg enc evs) := by
  unfold serRun
  have : ∀ s, SerInv enc s → SerInv enc (evs.foldl (SerSt.step cfg enc) s) := by
    induction evs with
    | nil => exact fun s h => h
    | cons e evs ih => exact fun s h => ih _ (serInv_step h e)
  exact this _ ⟨by intro b hb; simp at hb, by intro b hb; simp at hb⟩

theorem serRun_append (cfg : MsgpCfg) (enc : R → Option Bytes) (evs : List (SerEv R)) (e : SerEv R) :
    serRun cfg enc (evs ++ [e]) = (serRun cfg enc evs).step cfg enc e := by simp [serRun]

/-- In every history every result ends with the encoding of its record, after the encodings of records serialized before. -/
theorem C78_tail (cfg : MsgpCfg) (enc : R → Option Bytes) (evs : List (SerEv R)) :
    ∀ (i : Nat) r b, (serRun cfg enc evs).log[i]? = some (r, some b) →
      ∃ rs e, (∀ x ∈ rs, (enc x).isSome ∧ x ∈ ((serRun cfg enc evs).log.take i).map Prod.fst) ∧ enc r = some e ∧
        b = Spec.encodings enc rs ++ e := by
  generalize hr : evs.reverse = rv
  have : evs = rv.reverse := by rw [← hr]; simp
  subst this
  clear hr
  induction rv with
  | nil => intro i r b h; simp [serRun] at h
  | cons ev rv ih =>
    intro i r b h
    rw [List.reverse_cons, serRun_append] at h ⊢
    generalize hs : serRun cfg enc rv.reverse = s at h ih ⊢
    have hi : SerInv enc s := by rw [← hs]; exact serInv_run _ _ _
    have main : ∀ out x, Spec.Tail enc (s.log.map Prod.fst) x out → (s.log ++ [(x, out)])[i]? = some (r, some b) →
        ∃ rs e, (∀ y ∈ rs, (enc y).isSome ∧ y ∈ ((s.log ++ [(x, out)]).take i).map Prod.fst) ∧ enc r = some e ∧
          b = Spec.encodings enc rs ++ e := by
      intro out x ht hg
      by_cases hl : i < s.log.length
      · rw [List.getElem?_append_left hl] at hg
        obtain ⟨rs, e, h1, h2, h3⟩ := ih i r b hg
        rw [List.take_append_of_le_length (by omega)]
        exact ⟨rs, e, h1, h2, h3⟩
      · rw [List.getElem?_append_right (by omega)] at hg
        have h0 : i - s.log.length = 0 := by
          rcases Nat.eq_zero_or_pos (i - s.log.length) with h | h
          · exact h
          · rw [List.getElem?_eq_none (by simp; omega)] at hg; simp at hg
        rw [h0] at hg
        simp only [List.getElem?_cons_zero, Option.some.injEq, Prod.mk.injEq] at hg
        obtain ⟨rfl, rfl⟩ := hg
        obtain ⟨rs, e, h1, h2, h3⟩ := ht b rfl
        have : i = s.log.length := by omega
        subst this
        exact ⟨rs, e, by simpa using h1, h2, h3⟩
    cases ev with
    | ser x c => exact main _ x (serialize_tail hi cfg c x) h
    | serC x c => exact main _ x (serializeC_tail hi cfg c x).1 h
    | close j =>
      have hlog : (s.step cfg enc (.close j)).log = s.log := by
        simp only [SerSt.step]; split <;> rfl
      rw [hlog] at h ⊢
      exact ih i r b h

/-- no function returned by `SerializerWithCloseable` is called -/
def Spec.NoClose (evs : List (SerEv R)) : Prop := ∀ i, SerEv.close i ∉ evs

/-- Without a Buffer pool, or if nothing is ever released, every result is the encoding of its record. -/
theorem C78_partial (cfg : MsgpCfg) (enc : R → Option Bytes) (evs : List (SerEv R))
    (h : cfg.buffer = false ∨ Spec.NoClose evs) : ∀ p ∈ (serRun cfg enc evs).log, p.2 = enc p.1 := by
  suffices hh : (serRun cfg enc evs).pool = [] ∧ ∀ p ∈ (serRun cfg enc evs).log, p.2 = enc p.1 from hh.2
  generalize hr : evs.reverse = rv
  have : evs = rv.reverse := by rw [← hr]; simp
  subst this
  clear hr
  induction rv with
  | nil => exact ⟨rfl, by intro p hp; simp [serRun] at hp⟩
  | cons ev rv ih =>
    rw [List.reverse_cons] at h
    have hcl : cfg.buffer = false ∨ Spec.NoClose rv.reverse :=
      h.imp id (fun h i hi => h i (List.mem_append_left _ hi))
    obtain ⟨h1, h2⟩ := ih hcl
    rw [List.reverse_cons, serRun_append]
    generalize serRun cfg enc rv.reverse = s at h1 h2 ⊢
    have hg : ∀ c, getBuffer cfg s.pool c = ([], []) := by
      intro c
      rw [h1]; unfold getBuffer
      split
      · cases c with
        | none => rfl
        | some i => simp
      · rfl
    have he : ∀ r : R, encodeInto enc [] r = enc r := by
      intro r; unfold encodeInto; cases enc r <;> simp
    cases ev with
    | ser r c =>
      have hs : serialize cfg enc s.pool c r = (enc r, []) := by
        unfold serialize
        rw [he, hg]
        simp only [he, h1]
        split
        · rfl
        · split <;> rfl
      simp only [SerSt.step, hs]
      refine ⟨trivial, fun p hp => ?_⟩
      rcases List.mem_append.1 hp with hp | hp
      · exact h2 p hp
      · rw [List.mem_singleton] at hp; subst hp; rfl
    | serC r c =>
      have hs : (serializeC cfg enc s.pool c r).1 = enc r ∧ (serializeC cfg enc s.pool c r).2.2 = [] := by
        unfold serializeC
        rw [hg]
        simp only [he, h1]
        split
        · cases hc : enc r <;> simp
        · exact ⟨rfl, rfl⟩
      simp only [SerSt.step]
      refine ⟨hs.2, fun p hp => ?_⟩
      rcases List.mem_append.1 hp with hp | hp
      · exact h2 p hp
      · rw [List.mem_singleton] at hp; subst hp; exact hs.1
    | close i =>
      rcases h with h | h
      · simp only [SerSt.step]
        split
        · exact ⟨by simp [freeBuffer, h, h1], h2⟩
        · exact ⟨h1, h2⟩
      · exact absurd (by simp) (h i)

/-- Whatever was released before: `Serialize` of the generated-code serializer, and both calls of the msgp serializer without an Encoder pool, give
exactly the encoding of the record and leave the Buffer pool alone. -/
theorem C78_serialize_partial (cfg : MsgpCfg) (enc : R → Option Bytes) (evs : List (SerEv R)) (choice : Option Nat) (r : R) :
    (cfg.gen = true ∨ cfg.encoder = false →
      serialize cfg enc (serRun cfg enc evs).pool choice r = (enc r, (serRun cfg enc evs).pool)) ∧
    (cfg.gen = false → cfg.encoder = false →
      serializeC cfg enc (serRun cfg enc evs).pool choice r = (enc r, none, (serRun cfg enc evs).pool)) := by
  have e : encodeInto enc [] r = enc r := by unfold encodeInto; cases enc r <;> rfl
  refine ⟨fun h => ?_, fun h1 h2 => by simp [serializeC, h1, h2]⟩
  unfold serialize
  cases hg : cfg.gen with
  | true => simp [e]
  | false =>
    have : cfg.encoder = false := by simpa [hg] using h
    simp [this]

/-- with a released buffer in the pool -/
example : (serRun ⟨true, false, true⟩ (fun r : UInt8 => some [r]) [.serC 5 none, .close 0]).pool = [[5]] ∧
    (serialize ⟨true, false, true⟩ (fun r : UInt8 => some [r]) [[5]] (some 0) 6).1 = some [6] := by decide

/-- a decoder that reads one value from the front of its input and leaves the rest (msgpack.Unmarshal, msgp.Decode) -/
def Spec.ReadsFront (enc : R → Option Bytes) (dec : Bytes → Option R) : Prop :=
  ∀ r e rest, enc r = some e → dec (e ++ rest) = some r

/-- The refutation for all records: after one record was serialized and its buffer released, the next record serialized
with that buffer gives both encodings, and decodes to the first record. -/
theorem C78_refuted_all (cfg : MsgpCfg) (hb : cfg.buffer = true) (he : (cfg.gen || cfg.encoder) = true)
    {enc : R → Option Bytes} {dec : Bytes → Option R} (hd : Spec.ReadsFront enc dec) (r1 r2 : R) {e1 e2 : Bytes}
    (h1 : enc r1 = some e1) (h2 : enc r2 = some e2) :
    (serRun cfg enc [.serC r1 none, .close 0, .serC r2 (some 0)]).log = [(r1, some e1), (r2, some (e1 ++ e2))] ∧
    dec (e1 ++ e2) = some r1 := by
  refine ⟨?_, hd _ _ _ h1⟩
  simp [serRun, SerSt.step, serializeC, he, getBuffer, hb, encodeInto, h1, h2, freeBuffer]

/-- More generally: whenever a call gets a buffer from the pool, its result decodes to a record serialized before it. -/
theorem C78_first (cfg : MsgpCfg) {enc : R → Option Bytes} {dec : Bytes → Option R} (hd : Spec.ReadsFront enc dec)
    (evs : List (SerEv R)) (i : Nat) (r : R) {b : Bytes} (hp : (serRun cfg enc evs).pool[i]? = some b) (hb : cfg.buffer = true)
    (he : (cfg.gen || cfg.encoder) = true) {out : Bytes} (ho : (serializeC cfg enc (serRun cfg enc evs).pool (some i) r).1 = some out) :
    ∃ r0 ∈ (serRun cfg enc evs).log.map Prod.fst, dec out = some r0 := by
  obtain ⟨r0, rs, h1, h2⟩ := (serInv_run cfg enc evs).pool b (List.mem_of_getElem? hp)
  obtain ⟨hs, hm⟩ := h1 r0 List.mem_cons_self
  refine ⟨r0, hm, ?_⟩
  obtain ⟨e0, he0⟩ := Option.isSome_iff_exists.1 hs
  cases hr : enc r with
  | none => simp [serializeC, he, getBuffer, hb, hp, encodeInto, hr] at ho
  | some e =>
    simp [serializeC, he, getBuffer, hb, hp, encodeInto, hr] at ho
    rw [← ho, h2]
    simp only [Spec.encodings, List.map_cons, List.flatten_cons, he0, Option.getD_some, List.append_assoc]
    exact hd _ _ _ he0

/-- C78 is false: a concrete encoder (length byte, then the bytes), two records, the second comes out as the first. -/
theorem C78_refuted :
    ∃ (cfg : MsgpCfg) (enc : UInt8 → Option Bytes) (dec : Bytes → Option UInt8) (evs : List (SerEv UInt8)),
      Spec.ReadsFront enc dec ∧ (serRun cfg enc evs).log = [(5, some [5]), (6, some [5, 6])] ∧ dec [5, 6] = some 5 := by
  refine ⟨⟨true, false, true⟩, fun r => some [r], fun b => b.head?, [.serC 5 none, .close 0, .serC 6 (some 0)], ?_, by decide, by decide⟩
  intro r e rest h
  simp only [Option.some.injEq] at h
  subst h; rfl

/-- `C78_partial` is about non-trivial histories: two records, released, without a pool -/
example : (serRun ⟨false, true, false⟩ (fun r : UInt8 => some [r]) [.serC 5 none, .close 0, .ser 6 (some 0)]).log =
    [(5, some [5]), (6, some [6])] := by decide

/-- the buffer's array exists -/
def CborSt.OK (s : CborSt) : Prop := s.arr < s.heap.length

theorem cbor_call {enc : R → Option Bytes} {s : CborSt} (hs : s.OK) (r : R) :
    (s.call enc r).1.OK ∧ ∀ v, (s.call enc r).2 = some v → enc r = some ((s.call enc r).1.read v) := by
  unfold CborSt.call
  cases he : enc r with
  | none => exact ⟨hs, by intro v hv; simp at hv⟩
  | some e =>
    dsimp only
    have hg : s.heap[s.arr]? = some s.heap[s.arr] := List.getElem?_eq_getElem hs
    split
    · rename_i hle
      refine ⟨by simpa [CborSt.OK] using hs, fun v hv => ?_⟩
      simp only [Option.some.injEq] at hv
      subst hv
      rw [hg, Option.getD_some] at hle
      rw [hg, Option.getD_some]
      simp only [CborSt.read, List.getElem?_set_self hs, overwritePrefix, Option.getD_some, List.take_take, Nat.min_eq_left hle]
      rw [List.take_left]
    · refine ⟨by simp [CborSt.OK], fun v hv => ?_⟩
      simp only [Option.some.injEq] at hv
      subst hv
      simp [CborSt.read]

/-- The table writes with the CBOR serializer: however many rows share one buffer, of whatever size, each row gets its
own encoding (or the call fails because a row cannot be encoded). -/
theorem C78_cbor (enc : R → Option Bytes) {s : CborSt} (hs : s.OK) (rs : List R) : s.writeAll enc rs = rs.mapM enc := by
  induction rs generalizing s with
  | nil => rfl
  | cons r rs ih =>
    obtain ⟨h1, h2⟩ := cbor_call (enc := enc) hs r
    rw [CborSt.writeAll, List.mapM_cons]
    rcases hc : s.call enc r with ⟨s', ov⟩
    rw [hc] at h1 h2
    cases ov with
    | none =>
      have : enc r = none := by
        unfold CborSt.call at hc
        cases he : enc r with
        | none => rfl
        | some e => rw [he] at hc; dsimp only at hc; split at hc <;> simp at hc
      rw [this]; rfl
    | some v =>
      have h3 := h2 v rfl
      simp only at h3 h1
      rw [h3]
      dsimp only
      rw [ih h1]
      cases rs.mapM enc <;> rfl

/-- Keeping the returned slices instead does not work: two rows, both slices then show the second. So the copy made by
`batch.Set` before the next row matters. -/
theorem C78_cbor_refuted_kept :
    let out := CborSt.keepAll (fun r : UInt8 => some [r]) ⟨[[0, 0]], 0⟩ [5, 6]
    out.2.map out.1.read = [[6], [6]] ∧ CborSt.writeAll (fun r : UInt8 => some [r]) ⟨[[0, 0]], 0⟩ [5, 6] = some [[5], [6]] := by
  decide

end Bond
