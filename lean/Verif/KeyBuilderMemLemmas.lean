import Verif.KeyBuilderMem
import Verif.MemoryLemmas
import Verif.FieldLemmas
/- Lemmas on builders in memory: a new field leaves everything alone but the room behind the builder it is added to. -/
namespace Bond
open Spec

/-- `m'`, `s'` come from `m`, `s` by appending: nothing that was allocated has changed but the room between length and capacity of `s` -/
structure SlExtends (m : Mem) (s : Sl) (m' : Mem) (s' : Sl) : Prop where
  next_le : m.next ≤ m'.next
  ok : s'.OK m'
  place : (s'.arr = s.arr ∧ s'.off = s.off ∧ s'.cap = s.cap) ∨ (m.next ≤ s'.arr ∧ s'.off = 0)
  len_le : s.len ≤ s'.len
  frame : ∀ a j, a < m.next → ¬ (a = s.arr ∧ s.off + s.len ≤ j ∧ j < s.off + s.cap) → m'.byte a j = m.byte a j

theorem SlExtends.refl {m : Mem} {s : Sl} (h : s.OK m) : SlExtends m s m s :=
  ⟨Nat.le_refl _, h, Or.inl ⟨rfl, rfl, rfl⟩, Nat.le_refl _, fun _ _ _ _ => rfl⟩

theorem SlExtends.write {m : Mem} {s : Sl} {m' : Mem} {s' : Sl} (h : SlExtends m s m' s') (hs : s.OK m) {pos : Nat} {xs : Bytes} (h1 : s.len ≤ pos)
    (h2 : pos + xs.length ≤ s'.len) : SlExtends m s (m'.write s'.arr (s'.off + pos) xs) s' := by
  refine ⟨h.next_le, h.ok, h.place, h.len_le, fun a j ha hn => ?_⟩
  rw [← h.frame a j ha hn]
  simp only [Mem.write]
  rw [if_neg]
  rintro ⟨rfl, h3, h4⟩
  have := h.ok.2
  rcases h.place with ⟨e1, e2, e3⟩ | ⟨e1, e2⟩
  · exact hn ⟨e1, by omega, by omega⟩
  · omega

theorem SlExtends.append (grow : Nat → Nat → Nat) {m : Mem} {s : Sl} {m' : Mem} {s' : Sl} (h : SlExtends m s m' s') (xs : Bytes) :
    SlExtends m s (m'.append grow s' xs).1 (m'.append grow s' xs).2 := by
  unfold Mem.append
  split
  · rename_i hle
    refine ⟨h.next_le, ⟨h.ok.1, hle⟩, h.place, by have := h.len_le; simp only; omega, fun a j ha hn => ?_⟩
    rw [← h.frame a j ha hn]
    simp only [Mem.write]
    rw [if_neg]
    rintro ⟨rfl, h3, h4⟩
    have := h.len_le
    rcases h.place with ⟨e1, e2, e3⟩ | ⟨e1, e2⟩
    · exact hn ⟨e1, by omega, by omega⟩
    · omega
  · refine ⟨Nat.le_succ_of_le h.next_le, ⟨Nat.lt_succ_self _, Nat.le_max_left _ _⟩, Or.inr ⟨h.next_le, rfl⟩, by have := h.len_le; simp only; omega, fun a j ha hn => ?_⟩
    rw [← h.frame a j ha hn]
    simp only [Mem.write]
    rw [if_neg]
    rintro ⟨rfl, _⟩
    have := h.next_le
    omega

theorem SlExtends.appendAll (grow : Nat → Nat → Nat) (ps : List Bytes) {m : Mem} {s : Sl} : ∀ {m' : Mem} {s' : Sl}, SlExtends m s m' s' →
    SlExtends m s (m'.appendAll grow s' ps).1 (m'.appendAll grow s' ps).2 := by
  induction ps with
  | nil => intro m' s' h; exact h
  | cons p ps ih => intro m' s' h; exact ih (h.append grow p)

/-- a slice of before that does not reach into the room behind `s` reads as before -/
theorem SlExtends.read {m : Mem} {s : Sl} {m' : Mem} {s' : Sl} (h : SlExtends m s m' s') {r : Sl} (hr : r.OK m)
    (hd : r.arr ≠ s.arr ∨ r.off + r.len ≤ s.off + s.len ∨ s.off + s.cap ≤ r.off) : m'.read r = m.read r := by
  unfold Mem.read
  apply List.map_congr_left
  intro j hj
  rw [List.mem_range] at hj
  apply h.frame _ _ hr.1
  rintro ⟨h1, h2, h3⟩
  rcases hd with hd | hd | hd
  · exact hd h1
  · omega
  · omega

/-- overwriting the last bytes -/
theorem Mem.read_write_last (m : Mem) (s : Sl) {b c xs : Bytes} (hr : m.read s = b ++ c) (hx : xs.length = c.length) :
    (m.write s.arr (s.off + (s.len - c.length)) xs).read s = b ++ xs := by
  have hl : s.len = b.length + c.length := by rw [← m.read_length s, hr, List.length_append]
  apply List.ext_getElem?
  intro i
  rw [Mem.read_getElem?, List.getElem?_append]
  simp only [Mem.write]
  by_cases hi : i < b.length
  · rw [if_pos (by omega), if_neg (by omega), if_pos hi]
    have := congrArg (fun l => l[i]?) hr
    simp only [Mem.read_getElem?] at this
    rw [if_pos (by omega), List.getElem?_append_left hi] at this
    exact this
  · rw [if_neg hi]
    by_cases h2 : i < s.len
    · rw [if_pos h2, if_pos ⟨trivial, by omega, by omega⟩, List.getD_eq_getElem?_getD, List.getElem?_eq_getElem (by omega), List.getElem?_eq_getElem (by omega)]
      simp only [Option.getD_some]
      congr 2
      omega
    · rw [if_neg h2, List.getElem?_eq_none (by omega)]

/-- what a method of the builder achieves: the bytes are appended, and it works by appending -/
structure Adds (m : Mem) (b : KBM) (xs : Bytes) (r : Mem × KBM) : Prop where
  ext : SlExtends m b.buff r.1 r.2.buff
  read : r.1.read r.2.buff = m.read b.buff ++ xs

theorem Adds.app (grow : Nat → Nat → Nat) {m : Mem} {b : KBM} {xs : Bytes} {r : Mem × KBM} (h : Adds m b xs r) (ys : Bytes) :
    Adds m b (xs ++ ys) (KBM.app grow r ys) :=
  ⟨h.ext.append grow ys, by unfold KBM.app; rw [read_append, h.read, List.append_assoc]⟩

theorem adds_putFieldID (grow : Nat → Nat → Nat) {m : Mem} {b : KBM} (h : b.buff.OK m) : Adds m b [b.fid + 1] (b.putFieldID grow m) :=
  ⟨(SlExtends.refl h).append grow _, by unfold KBM.putFieldID; rw [read_append]⟩

theorem Adds.len {m : Mem} {b : KBM} {xs : Bytes} {r : Mem × KBM} (h : Adds m b xs r) : r.2.buff.len = b.buff.len + xs.length := by
  rw [← Mem.read_length r.1, h.read, List.length_append, Mem.read_length]

theorem Adds.last {m : Mem} {b : KBM} (hb : b.buff.OK m) {xs ys zs : Bytes} {r : Mem × KBM} (h : Adds m b (xs ++ ys) r) (hl : zs.length = ys.length) :
    Adds m b (xs ++ zs) (r.1.write r.2.buff.arr (r.2.buff.off + (r.2.buff.len - ys.length)) zs, r.2) := by
  have e := h.len
  rw [List.length_append] at e
  refine ⟨h.ext.write hb (by omega) (by omega), ?_⟩
  rw [← List.append_assoc]
  exact Mem.read_write_last _ _ (by rw [h.read, List.append_assoc]) hl

theorem Adds.putBE (grow : Nat → Nat → Nat) (n v : Nat) {m : Mem} {b : KBM} (hb : b.buff.OK m) {xs : Bytes} {r : Mem × KBM} (h : Adds m b xs r) :
    Adds m b (xs ++ beBytes n v) (KBM.putBE grow n v r) := by
  have := (h.app grow (List.replicate n 0)).last hb (zs := beBytes n v) (by simp)
  rw [List.length_replicate] at this
  exact this

theorem adds_int {w : Nat} (n : Nat) (grow : Nat → Nat → Nat) {m : Mem} {b : KBM} (hb : b.buff.OK m) (i : BitVec w) :
    Adds m b ([b.fid + 1] ++ (if BitVec.slt 0 i then [0x02] ++ beBytes n i.toNat else if i = 0 then [0x01] ++ beBytes n i.toNat
      else [0x00] ++ beBytes n (~~~(-i)).toNat)) (b.addIntField n grow m i) := by
  unfold KBM.addIntField
  have h := adds_putFieldID grow hb
  simp only
  split
  · rw [← List.append_assoc]; exact (h.app grow _).putBE grow n _ hb
  · split
    · rw [← List.append_assoc]; exact (h.app grow _).putBE grow n _ hb
    · rw [← List.append_assoc]; exact (h.app grow _).putBE grow n _ hb

theorem complement_succ (m : Mem) (s : Sl) (n : Nat) : KBM.complement m s (n + 1) = (KBM.complement m s n).write s.arr (s.off + s.len - n - 1)
    [0xFF - (KBM.complement m s n).byte s.arr (s.off + s.len - n - 1)] := by
  unfold KBM.complement
  rw [List.range_succ, List.foldl_append]
  rfl

theorem complement_byte (s : Sl) (n : Nat) : ∀ (m : Mem), n ≤ s.len → ∀ a j, (KBM.complement m s n).byte a j =
    if a = s.arr ∧ s.off + s.len - n ≤ j ∧ j < s.off + s.len then 0xFF - m.byte a j else m.byte a j := by
  induction n with
  | zero => intro m _ a j; rw [if_neg (by omega)]; rfl
  | succ n ih =>
    intro m hn a j
    have ih := ih m (by omega)
    rw [complement_succ]
    simp only [Mem.write, List.length_singleton]
    rw [ih a j, ih]
    by_cases h1 : a = s.arr ∧ s.off + s.len - n - 1 ≤ j ∧ j < s.off + s.len - n - 1 + 1
    · obtain ⟨rfl, h2, h3⟩ := h1
      have e : j = s.off + s.len - n - 1 := by omega
      subst e
      rw [if_pos ⟨rfl, by omega, by omega⟩, if_neg (by omega), if_pos ⟨rfl, by omega, by omega⟩]
      simp
    · rw [if_neg h1]
      by_cases h2 : a = s.arr ∧ s.off + s.len - n ≤ j ∧ j < s.off + s.len
      · rw [if_pos h2, if_pos ⟨h2.1, by omega, h2.2.2⟩]
      · rw [if_neg h2, if_neg]
        rintro ⟨h3, h4, h5⟩
        by_cases h6 : s.off + s.len - n ≤ j
        · exact h2 ⟨h3, h6, h5⟩
        · exact h1 ⟨h3, by omega, by omega⟩

theorem complement_next (s : Sl) (n : Nat) (m : Mem) : (KBM.complement m s n).next = m.next := by
  unfold KBM.complement
  induction n with
  | zero => rfl
  | succ n ih => rw [List.range_succ, List.foldl_append]; exact ih

theorem Adds.complement {m : Mem} {b : KBM} (hb : b.buff.OK m) {xs ys : Bytes} {r : Mem × KBM} (h : Adds m b (xs ++ ys) r) :
    Adds m b (xs ++ ys.map (fun x => 0xFF - x)) (KBM.complement r.1 r.2.buff ys.length, r.2) := by
  have e := h.len
  rw [List.length_append] at e
  have hc := complement_byte r.2.buff ys.length r.1 (by omega)
  refine ⟨⟨by simpa only [complement_next] using h.ext.next_le, ⟨by simpa only [complement_next] using h.ext.ok.1, h.ext.ok.2⟩, h.ext.place, h.ext.len_le, ?_⟩, ?_⟩
  · intro a j ha hn
    rw [hc, ← h.ext.frame a j ha hn, if_neg]
    rintro ⟨rfl, h3, h4⟩
    have := h.ext.ok.2
    rcases h.ext.place with ⟨e1, e2, e3⟩ | ⟨e1, e2⟩
    · exact hn ⟨e1, by omega, by omega⟩
    · omega
  · have hr := h.read
    rw [← List.append_assoc] at hr ⊢
    apply List.ext_getElem?
    intro i
    have hri := congrArg (fun l => l[i]?) hr
    change (r.1.read r.2.buff)[i]? = (m.read b.buff ++ xs ++ ys)[i]? at hri
    show ((KBM.complement r.1 r.2.buff ys.length).read r.2.buff)[i]? = _
    rw [Mem.read_getElem?] at hri ⊢
    have el : (m.read b.buff ++ xs).length = b.buff.len + xs.length := by rw [List.length_append, Mem.read_length]
    rw [hc]
    by_cases hi : i < b.buff.len + xs.length
    · rw [if_pos (by omega), if_neg (by omega)]
      rw [if_pos (by omega), List.getElem?_append_left (by omega)] at hri
      rw [hri]
      exact (List.getElem?_append_left (by omega)).symm
    · by_cases h2 : i < r.2.buff.len
      · rw [if_pos h2, if_pos ⟨rfl, by omega, by omega⟩]
        rw [if_pos h2, List.getElem?_append_right (by omega)] at hri
        rw [List.getElem?_append_right (by omega), List.getElem?_map, ← hri]
        rfl
      · rw [if_neg h2, List.getElem?_eq_none]
        rw [List.length_append, el, List.length_map]
        omega

theorem adds_big (grow : Nat → Nat → Nat) {m : Mem} {b : KBM} (hb : b.buff.OK m) (v : Int) (bits : Nat) :
    match (b.addBigIntField grow m v bits), (KeyBuilder.addBigIntField ⟨m.read b.buff, b.fid⟩ v bits) with
    | (m', some b'), some k => SlExtends m b.buff m' b'.buff ∧ k = ⟨m'.read b'.buff, b'.fid⟩ ∧ b.buff.len < b'.buff.len
    | (m', none), none => ∃ s', SlExtends m b.buff m' s'
    | _, _ => False := by
  unfold KBM.addBigIntField KeyBuilder.addBigIntField KeyBuilder.putFieldID
  have h := (adds_putFieldID grow hb).app grow [UInt8.ofNat (v.sign + 1).toNat]
  generalize hr : KBM.app grow (b.putFieldID grow m) [UInt8.ofNat (v.sign + 1).toNat] = r at h
  have hf : r.2.fid = b.fid + 1 := by rw [← hr]; rfl
  simp only [hr]
  have hl0 : (List.replicate (bits / 8) [(0 : UInt8)]).flatten = List.replicate (bits / 8) 0 := by
    generalize bits / 8 = n
    induction n with
    | zero => rfl
    | succ n ih => rw [List.replicate_succ, List.replicate_succ, List.flatten_cons, ih]; rfl
  have h2 : Adds m b ([b.fid + 1] ++ [UInt8.ofNat (v.sign + 1).toNat] ++ List.replicate (bits / 8) 0)
      ((r.1.appendAll grow r.2.buff (List.replicate (bits / 8) [0])).1, ⟨(r.1.appendAll grow r.2.buff (List.replicate (bits / 8) [0])).2, r.2.fid⟩) :=
    ⟨h.ext.appendAll grow _, by simp only; rw [read_appendAll, h.read, hl0, List.append_assoc]⟩
  generalize r.1.appendAll grow r.2.buff (List.replicate (bits / 8) [0]) = a at h2
  cases hfill : KeyBuilder.fillBytes (if v.sign + 1 = 0 then 0 - v else v).natAbs (bits / 8) with
  | none => exact ⟨_, h2.ext⟩
  | some filled =>
    have hlen : filled.length = bits / 8 := by
      generalize (if v.sign + 1 = 0 then 0 - v else v).natAbs = n at hfill
      unfold KeyBuilder.fillBytes at hfill
      by_cases hn : n < 256 ^ (bits / 8)
      · rw [if_pos hn] at hfill; cases hfill; simp
      · rw [if_neg hn] at hfill; cases hfill
    have h3 := h2.last hb (zs := filled) (by rw [hlen, List.length_replicate])
    rw [List.length_replicate] at h3
    by_cases hs : v.sign + 1 = 0
    · simp only [hs, if_true]
      have h4 := h3.complement hb
      rw [hlen] at h4
      refine ⟨h4.ext, ?_, ?_⟩
      · have := h4.read
        simp only [hs] at this
        simp only [this, hf, List.append_assoc]
      · have := h4.len
        simp only [List.length_append, List.length_singleton] at this
        omega
    · simp only [hs, if_false]
      refine ⟨h3.ext, ?_, ?_⟩
      · have := h3.read
        simp only at this
        simp only [this, hf, List.append_assoc]
      · have := h3.len
        simp only [List.length_append, List.length_singleton] at this
        omega

/-- every method of the builder: the new builder has the bytes of the value model, and nothing changes but the room behind the old one -/
theorem addFieldM_spec (grow : Nat → Nat → Nat) {m : Mem} {b : KBM} (hb : b.buff.OK m) (f : Field) :
    match b.addField grow m f, KeyBuilder.addField ⟨m.read b.buff, b.fid⟩ f with
    | (m', some b'), some k => SlExtends m b.buff m' b'.buff ∧ k = ⟨m'.read b'.buff, b'.fid⟩ ∧ b.buff.len < b'.buff.len
    | (m', none), none => ∃ s', SlExtends m b.buff m' s'
    | _, _ => False := by
  have key : ∀ (xs : Bytes) (r : Mem × KBM) (k : KeyBuilder), Adds m b ([b.fid + 1] ++ xs) r → r.2.fid = b.fid + 1 →
      k = ⟨m.read b.buff ++ ([b.fid + 1] ++ xs), b.fid + 1⟩ →
      SlExtends m b.buff r.1 r.2.buff ∧ k = ⟨r.1.read r.2.buff, r.2.fid⟩ ∧ b.buff.len < r.2.buff.len := by
    intro xs r k h hf hk
    refine ⟨h.ext, by rw [hk, h.read, hf], ?_⟩
    have := h.len
    simp only [List.length_append, List.length_singleton] at this
    omega
  have hint : ∀ {w : Nat} (n : Nat) (i : BitVec w), (b.addIntField n grow m i).2.fid = b.fid + 1 := by
    intro w n i
    unfold KBM.addIntField
    simp only
    split
    · rfl
    · split <;> rfl
  have ha := fun bs => (adds_putFieldID grow hb).app grow bs
  cases f with
  | i64 v => exact key _ _ _ (adds_int 8 grow hb v) (hint 8 v) (by unfold KeyBuilder.addInt64Field KeyBuilder.putFieldID; simp only; split; · simp
                                                                   · split <;> simp)
  | i32 v => exact key _ _ _ (adds_int 4 grow hb v) (hint 4 v) (by unfold KeyBuilder.addInt32Field KeyBuilder.putFieldID; simp only; split; · simp
                                                                   · split <;> simp)
  | i16 v => exact key _ _ _ (adds_int 2 grow hb v) (hint 2 v) (by unfold KeyBuilder.addInt16Field KeyBuilder.putFieldID; simp only; split; · simp
                                                                   · split <;> simp)
  | u64 v => exact key _ _ _ ((adds_putFieldID grow hb).putBE grow 8 _ hb) rfl (by simp [KeyBuilder.addUint64Field, KeyBuilder.putFieldID])
  | u32 v => exact key _ _ _ ((adds_putFieldID grow hb).putBE grow 4 _ hb) rfl (by simp [KeyBuilder.addUint32Field, KeyBuilder.putFieldID])
  | u16 v => exact key _ _ _ ((adds_putFieldID grow hb).putBE grow 2 _ hb) rfl (by simp [KeyBuilder.addUint16Field, KeyBuilder.putFieldID])
  | byte v => exact key _ _ _ (ha [v]) rfl (by simp [KeyBuilder.addByteField, KeyBuilder.putFieldID])
  | str s => exact key _ _ _ (ha s) rfl (by simp [KeyBuilder.addStringField, KeyBuilder.putFieldID])
  | bytes s => exact key _ _ _ (ha s) rfl (by simp [KeyBuilder.addBytesField, KeyBuilder.putFieldID])
  | big v bits => exact adds_big grow hb v bits

end Bond
