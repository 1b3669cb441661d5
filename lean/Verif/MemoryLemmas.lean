import Verif.Memory
/-
Writing to a slice of bytes: what it changes and what it leaves alone.
-/
namespace Bond

theorem Mem.read_length (m : Mem) (s : Sl) : (m.read s).length = s.len := by simp [Mem.read]

theorem Mem.read_getElem? (m : Mem) (s : Sl) (i : Nat) : (m.read s)[i]? = if i < s.len then some (m.byte s.arr (s.off + i)) else none := by
  unfold Mem.read
  rw [List.getElem?_map]
  split
  · rename_i h; rw [List.getElem?_range h]; rfl
  · rename_i h; rw [List.getElem?_eq_none (by simp; omega)]; rfl

theorem Mem.read_zero (m : Mem) (s : Sl) : m.read s.zero = [] := rfl

theorem Sl.Dis.symm {s r : Sl} (h : s.Dis r) : r.Dis s := by
  rcases h with h | h | h
  · exact Or.inl (Ne.symm h)
  · exact Or.inr (Or.inr h)
  · exact Or.inr (Or.inl h)

theorem Mem.read_write_dis (m : Mem) {a i : Nat} {xs : Bytes} {r : Sl}
    (h : r.arr ≠ a ∨ r.off + r.len ≤ i ∨ i + xs.length ≤ r.off) : (m.write a i xs).read r = m.read r := by
  unfold Mem.read
  apply List.map_congr_left
  intro j hj
  rw [List.mem_range] at hj
  simp only [Mem.write]
  rw [if_neg]
  rintro ⟨h1, h2, h3⟩
  rcases h with h | h | h
  · exact h h1
  · omega
  · omega

/-- `m'` and `s'` come from writing to the memory of `s` in `m`: everything apart from it is as before, and `s'` is apart from it too -/
structure Writes (m : Mem) (s : Sl) (m' : Mem) (s' : Sl) : Prop where
  next_le : m.next ≤ m'.next
  ok : s'.OK m'
  frame : ∀ r : Sl, r.OK m → r.Dis s → m'.read r = m.read r ∧ r.Dis s'

theorem Sl.OK.mono {m m' : Mem} {s : Sl} (h : s.OK m) (hn : m.next ≤ m'.next) : s.OK m' := ⟨Nat.lt_of_lt_of_le h.1 hn, h.2⟩

theorem Writes.refl {m : Mem} {s : Sl} (h : s.OK m) : Writes m s m s := ⟨Nat.le_refl _, h, fun _ _ hd => ⟨rfl, hd⟩⟩

theorem Writes.trans {m m1 m2 : Mem} {s s1 s2 : Sl} (a : Writes m s m1 s1) (b : Writes m1 s1 m2 s2) : Writes m s m2 s2 :=
  ⟨Nat.le_trans a.next_le b.next_le, b.ok, fun r hr hd => by
    obtain ⟨h1, h2⟩ := a.frame r hr hd
    obtain ⟨h3, h4⟩ := b.frame r (hr.mono a.next_le) h2
    exact ⟨h3.trans h1, h4⟩⟩

theorem append_writes (grow : Nat → Nat → Nat) {m : Mem} {s : Sl} (h : s.OK m) (xs : Bytes) :
    Writes m s (m.append grow s xs).1 (m.append grow s xs).2 := by
  unfold Mem.append
  split
  · rename_i hle
    refine ⟨Nat.le_refl _, ⟨h.1, hle⟩, fun r hr hd => ⟨?_, hd⟩⟩
    apply m.read_write_dis
    have := hr.2
    rcases hd with hd | hd | hd
    · exact Or.inl hd
    · right; left; omega
    · right; right; omega
  · refine ⟨Nat.le_succ _, ⟨Nat.lt_succ_self _, Nat.le_max_left _ _⟩, fun r hr hd => ⟨?_, Or.inl (Nat.ne_of_lt hr.1)⟩⟩
    exact m.read_write_dis (Or.inl (Nat.ne_of_lt hr.1))

theorem Mem.read_write_append (m : Mem) (s : Sl) (xs : Bytes) :
    (m.write s.arr (s.off + s.len) xs).read { s with len := s.len + xs.length } = m.read s ++ xs := by
  apply List.ext_getElem?
  intro i
  rw [Mem.read_getElem?, List.getElem?_append, Mem.read_length, m.read_getElem?]
  simp only [Mem.write]
  by_cases hi : i < s.len
  · rw [if_pos (by omega), if_neg (by omega), if_pos hi, if_pos hi]
  · rw [if_neg hi]
    by_cases h2 : i < s.len + xs.length
    · rw [if_pos h2, if_pos ⟨trivial, by omega, by omega⟩, List.getD_eq_getElem?_getD, List.getElem?_eq_getElem (by omega), List.getElem?_eq_getElem (by omega)]
      simp only [Option.getD_some]
      congr 2
      omega
    · rw [if_neg h2, List.getElem?_eq_none (by omega)]

theorem read_append (grow : Nat → Nat → Nat) (m : Mem) (s : Sl) (xs : Bytes) :
    (m.append grow s xs).1.read (m.append grow s xs).2 = m.read s ++ xs := by
  unfold Mem.append
  split
  · exact m.read_write_append s xs
  · have := m.read_write_append ⟨m.next, 0, 0, 0⟩ (m.read s ++ xs)
    simp only [List.length_append, Mem.read_length, Nat.zero_add] at this
    show (m.write m.next 0 (m.read s ++ xs)).read _ = _
    have e : ∀ c, (m.write m.next 0 (m.read s ++ xs)).read ⟨m.next, 0, s.len + xs.length, c⟩ =
      (m.write m.next 0 (m.read s ++ xs)).read ⟨m.next, 0, s.len + xs.length, 0⟩ := fun c => rfl
    rw [e]
    exact this

theorem appendAll_writes (grow : Nat → Nat → Nat) (ps : List Bytes) : ∀ {m : Mem} {s : Sl}, s.OK m →
    Writes m s (m.appendAll grow s ps).1 (m.appendAll grow s ps).2 := by
  induction ps with
  | nil => intro m s h; exact Writes.refl h
  | cons p ps ih =>
    intro m s h
    have := append_writes grow h p
    exact this.trans (ih this.ok)

theorem read_appendAll (grow : Nat → Nat → Nat) (ps : List Bytes) : ∀ (m : Mem) (s : Sl),
    (m.appendAll grow s ps).1.read (m.appendAll grow s ps).2 = m.read s ++ ps.flatten := by
  induction ps with
  | nil => intro m s; simp [Mem.appendAll]
  | cons p ps ih =>
    intro m s
    simp only [Mem.appendAll]
    rw [ih, read_append]
    simp

theorem putUint32_writes {m : Mem} {s : Sl} (h : s.OK m) {pos v : Nat} (hp : pos + 4 ≤ s.len) : Writes m s (m.putUint32 s pos v) s := by
  refine ⟨Nat.le_refl _, h, fun r hr hd => ⟨?_, hd⟩⟩
  apply m.read_write_dis
  have := hr.2
  have hb : (beBytes 4 v).length = 4 := by simp
  have := h.2
  rcases hd with hd | hd | hd
  · exact Or.inl hd
  · right; left; omega
  · right; right; omega

theorem read_putUint32 (m : Mem) (s : Sl) {pos v : Nat} (hp : pos + 4 ≤ s.len) :
    (m.putUint32 s pos v).read s = putUint32 (m.read s) pos v := by
  have hb : (beBytes 4 v).length = 4 := by simp
  apply List.ext_getElem?
  intro i
  unfold putUint32
  rw [(m.putUint32 s pos v).read_getElem?]
  simp only [List.getElem?_append, List.length_append, List.length_take, Mem.read_length, hb, List.getElem?_take, List.getElem?_drop,
    m.read_getElem?, Mem.putUint32, Mem.write]
  rw [Nat.min_eq_left (by omega)]
  by_cases hi : i < pos
  · rw [if_pos (by omega), if_neg (by omega), if_pos (by omega), if_pos hi, if_pos hi, if_pos (by omega)]
  · by_cases hi2 : i < pos + 4
    · rw [if_pos (by omega : i < s.len), if_pos ⟨trivial, by omega, by omega⟩, if_pos hi2, if_neg hi, List.getD_eq_getElem?_getD, List.getElem?_eq_getElem (by omega),
        List.getElem?_eq_getElem (by omega)]
      simp only [Option.getD_some]
      congr 2
      omega
    · rw [if_neg hi2]
      have e : pos + 4 + (i - (pos + 4)) = i := by omega
      rw [e]
      by_cases h3 : i < s.len
      · rw [if_pos h3, if_pos h3, if_neg (by omega)]
      · rw [if_neg h3, if_neg h3]

theorem len_of_read {m : Mem} {s : Sl} {b : Bytes} (h : m.read s = b) : s.len = b.length := by rw [← h, Mem.read_length]

theorem lenPartM_spec (grow : Nat → Nat → Nat) (fi : Option (List Bytes)) {m : Mem} {s : Sl} {x : Mem × Sl} {b : Bytes} (hb : 4 ≤ b.length)
    (w : Writes m s x.1 x.2) (r : x.1.read x.2 = b) :
    Writes m s (lenPartM grow fi x).1 (lenPartM grow fi x).2 ∧ (lenPartM grow fi x).1.read (lenPartM grow fi x).2 =
      (match fi.map (fun ps (b : Bytes) => b ++ ps.flatten) with
        | none => b
        | some f => putUint32 (f b) (b.length - 4) ((f b).length - (b.length - 4 + 4))) := by
  cases fi with
  | none => exact ⟨w, r⟩
  | some ps =>
    have w4 := w.trans (appendAll_writes grow ps w.ok)
    have r4 := read_appendAll grow ps x.1 x.2
    rw [r] at r4
    have l3 := len_of_read r
    have l4 := len_of_read r4
    rw [List.length_append] at l4
    refine ⟨w4.trans (putUint32_writes w4.ok (by omega)), ?_⟩
    simp only [lenPartM, Option.map_some]
    rw [read_putUint32 _ _ (by omega), r4, l4, l3, List.length_append]

/-- encoding a key into a buffer gives the bytes of the key, and changes nothing apart from the buffer -/
theorem keyEncodeRawM_spec (grow : Nat → Nat → Nat) (tid iid : UInt8) (fi fo fp : Option (List Bytes)) {m : Mem} {s : Sl} (h : s.OK m) :
    Writes m s (keyEncodeRawM grow tid iid fi fo fp m s).1 (keyEncodeRawM grow tid iid fi fo fp m s).2 ∧
    (keyEncodeRawM grow tid iid fi fo fp m s).1.read (keyEncodeRawM grow tid iid fi fo fp m s).2 =
      keyEncodeRaw tid iid (fi.map (fun ps b => b ++ ps.flatten)) (fo.map (fun ps b => b ++ ps.flatten))
        (fp.map (fun ps b => b ++ ps.flatten)) (m.read s) := by
  unfold keyEncodeRawM keyEncodeRaw
  have w1 := append_writes grow h [tid]
  have r1 := read_append grow m s [tid]
  dsimp only
  generalize m.append grow s [tid] = x1 at w1 r1 ⊢
  have w2 := w1.trans (append_writes grow w1.ok [iid])
  have r2 := read_append grow x1.1 x1.2 [iid]
  rw [r1] at r2
  generalize x1.1.append grow x1.2 [iid] = x2 at w2 r2 ⊢
  have w3 := w2.trans (append_writes grow w2.ok [0, 0, 0, 0])
  have r3 := read_append grow x2.1 x2.2 [0, 0, 0, 0]
  rw [r2] at r3
  generalize x2.1.append grow x2.2 [0, 0, 0, 0] = x3 at w3 r3 ⊢
  obtain ⟨w4, r4⟩ := lenPartM_spec grow fi (by simp) w3 r3
  generalize lenPartM grow fi x3 = x4 at w4 r4 ⊢
  cases fp with
  | none => exact ⟨w4, r4⟩
  | some pk =>
    simp only [Option.map_some]
    have w5 := w4.trans (append_writes grow w4.ok [0, 0, 0, 0])
    have r5 := read_append grow x4.1 x4.2 [0, 0, 0, 0]
    rw [r4] at r5
    generalize x4.1.append grow x4.2 [0, 0, 0, 0] = x5 at w5 r5 ⊢
    obtain ⟨w6, r6⟩ := lenPartM_spec grow fo (by simp) w5 r5
    exact ⟨w6.trans (appendAll_writes grow pk w6.ok), by rw [read_appendAll, r6]; cases fi <;> cases fo <;> rfl⟩

theorem toDataKeyBytesM_spec (grow : Nat → Nat → Nat) (key : Bytes) {m : Mem} {s : Sl} (h : s.OK m) :
    match toDataKeyBytesM grow key m s with
    | none => toDataKeyBytes key (m.read s) = none
    | some r => Writes m s r.1 r.2 ∧ toDataKeyBytes key (m.read s) = some (r.1.read r.2) := by
  unfold toDataKeyBytesM toDataKeyBytes
  cases key[0]? with
  | none => rfl
  | some t =>
  cases slice key 2 6 with
  | none => rfl
  | some l =>
  simp only [Option.bind_eq_bind, Option.bind_some]
  cases slice key (6 + beNat l) (10 + beNat l) with
  | none => rfl
  | some l2 =>
  simp only [Option.bind_some]
  cases slice key (10 + beNat l + beNat l2) key.length with
  | none => rfl
  | some rest =>
    simp only [Option.bind_some]
    have w := appendAll_writes grow [[t], [0], [0, 0, 0, 0], [0, 0, 0, 0]] h
    refine ⟨w.trans (append_writes grow w.ok rest), ?_⟩
    rw [read_append, read_appendAll]
    simp

end Bond
