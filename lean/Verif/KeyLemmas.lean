import Verif.Key
import Verif.KeyBuilderLemmas
namespace Bond

@[simp] theorem length_four : ([0,0,0,0] : Bytes).length = 4 := rfl

theorem putUint32_mid (a p s : Bytes) (hp : p.length = 4) (v : Nat) :
    putUint32 (a ++ p ++ s) a.length v = a ++ beBytes 4 v ++ s := by
  unfold putUint32
  rw [List.append_assoc a p s, List.take_left' rfl]
  have : a ++ (p ++ s) = (a ++ p) ++ s := by simp
  rw [this, List.drop_left' (by simp [hp])]

theorem keyEncodeRaw_full (t i : UInt8) (idx ord pk b : Bytes) :
    keyEncodeRaw t i (some (fun b => b ++ idx)) (some (fun b => b ++ ord)) (some (fun b => b ++ pk)) b =
      b ++ [t, i] ++ beBytes 4 idx.length ++ idx ++ beBytes 4 ord.length ++ ord ++ pk := by
  unfold keyEncodeRaw
  simp only
  have e1 : (b ++ [t] ++ [i] ++ [0, 0, 0, 0]).length - 4 = (b ++ [t] ++ [i]).length := by simp
  rw [e1, putUint32_mid _ _ _ rfl]
  have e2 : (b ++ [t] ++ [i] ++ [0, 0, 0, 0] ++ idx).length - ((b ++ [t] ++ [i]).length + 4) = idx.length := by
    simp; omega
  rw [e2]
  generalize hB : b ++ [t] ++ [i] ++ beBytes 4 idx.length ++ idx = B
  have e3 : (B ++ [0, 0, 0, 0]).length - 4 = B.length := by simp
  rw [e3, putUint32_mid _ _ _ rfl]
  have e4 : (B ++ [0, 0, 0, 0] ++ ord).length - (B.length + 4) = ord.length := by simp; omega
  rw [e4, ← hB]; simp

theorem encodeIndexKey_eq (t i : UInt8) (idx ord pk : Bytes) :
    encodeIndexKey t i idx ord pk = [t, i] ++ beBytes 4 idx.length ++ idx ++ beBytes 4 ord.length ++ ord ++ pk := by
  unfold encodeIndexKey; rw [keyEncodeRaw_full]; simp

theorem dataKey_eq (t : UInt8) (pk : Bytes) : dataKey t pk = [t, 0, 0, 0, 0, 0, 0, 0, 0, 0] ++ pk := by
  simp [dataKey, keyEncodeRaw, primaryIndexID]

theorem beBytes4_zero : beBytes 4 0 = [0, 0, 0, 0] := by decide

theorem dataKey_eq_index (t : UInt8) (pk : Bytes) : dataKey t pk = encodeIndexKey t 0 [] [] pk := by
  rw [dataKey_eq, encodeIndexKey_eq]; simp [beBytes4_zero]

theorem keyPrefix_eq (t i : UInt8) (idx : Bytes) :
    keyPrefix t i idx = [t, i] ++ beBytes 4 idx.length ++ idx := by
  unfold keyPrefix keyEncodeRaw
  simp only
  have e1 : (([] : Bytes) ++ [t] ++ [i] ++ [0, 0, 0, 0]).length - 4 = (([] : Bytes) ++ [t] ++ [i]).length := by simp
  rw [e1, putUint32_mid _ _ _ rfl]
  have e2 : (([] : Bytes) ++ [t] ++ [i] ++ [0, 0, 0, 0] ++ idx).length - ((([] : Bytes) ++ [t] ++ [i]).length + 4) = idx.length := by
    simp
  rw [e2]; simp

theorem keyEncode_eq (k : Key) (h : k.primaryKey ≠ []) (b : Bytes) :
    keyEncode k b = b ++ encodeIndexKey k.tableID k.indexID k.index k.indexOrder k.primaryKey := by
  have : k.isKeyPrefix = false := by simp [Key.isKeyPrefix, h]
  simp [keyEncode, this, encodeIndexKey_eq]

theorem keyEncode_prefix (k : Key) (h : k.primaryKey = []) (b : Bytes) :
    keyEncode k b = b ++ keyPrefix k.tableID k.indexID k.index := by
  have : k.isKeyPrefix = true := by simp [Key.isKeyPrefix, h]
  simp [keyEncode, this, keyPrefix_eq]

theorem readN_append (n : Nat) (a s : Bytes) (h : a.length = n) : readN n (a ++ s) = (a, s) := by
  unfold readN
  subst h
  have h1 : a.length - (a ++ s).length = 0 := by simp
  rw [List.take_left' rfl, List.drop_left' rfl, h1]; simp

theorem beNat_beBytes4 {v : Nat} (h : v < 2 ^ 32) : beNat (beBytes 4 v) = v := by
  rw [beNat_beBytes, Nat.mod_eq_of_lt]; exact h

theorem slice_mid (a m s : Bytes) : slice (a ++ m ++ s) a.length (a.length + m.length) = some m := by
  unfold slice
  rw [if_pos (by simp)]
  rw [List.take_left' (by simp), List.drop_left' rfl]

theorem slice_mid' (a m s : Bytes) (lo hi : Nat) (h1 : lo = a.length) (h2 : hi = a.length + m.length) :
    slice (a ++ m ++ s) lo hi = some m := by subst h1; subst h2; exact slice_mid a m s

theorem toDataKeyBytes_of (key b l l2 rest : Bytes) (t : UInt8) (n m : Nat) (h0 : key[0]? = some t)
    (s1 : slice key 2 6 = some l) (hn : beNat l = n)
    (s2 : slice key (6 + n) (10 + n) = some l2) (hm : beNat l2 = m)
    (s3 : slice key (10 + n + m) key.length = some rest) :
    toDataKeyBytes key b = some (b ++ [t] ++ [0] ++ [0, 0, 0, 0] ++ [0, 0, 0, 0] ++ rest) := by
  subst hn; subst hm
  unfold toDataKeyBytes
  simp only [h0, Option.bind_eq_bind, Option.bind_some, s1, s2, s3]

theorem toDataKeyBytes_index (t i : UInt8) (idx ord pk b : Bytes) (h1 : idx.length < 2 ^ 32)
    (h2 : ord.length < 2 ^ 32) :
    toDataKeyBytes (encodeIndexKey t i idx ord pk) b = some (b ++ dataKey t pk) := by
  have hk : encodeIndexKey t i idx ord pk = [t, i] ++ beBytes 4 idx.length ++ (idx ++ beBytes 4 ord.length ++ ord ++ pk) := by
    rw [encodeIndexKey_eq]; simp only [List.append_assoc]
  have hk2 : encodeIndexKey t i idx ord pk = ([t, i] ++ beBytes 4 idx.length ++ idx) ++ beBytes 4 ord.length ++ (ord ++ pk) := by
    rw [encodeIndexKey_eq]; simp only [List.append_assoc]
  have hk3 : encodeIndexKey t i idx ord pk =
      ([t, i] ++ beBytes 4 idx.length ++ idx ++ beBytes 4 ord.length ++ ord) ++ pk ++ [] := by
    rw [encodeIndexKey_eq]; simp only [List.append_assoc, List.append_nil]
  have e2 : ([t, i] ++ beBytes 4 idx.length ++ idx : Bytes).length = 6 + idx.length := by
    simp only [List.length_append, beBytes_length, List.length_cons, List.length_nil]
  have e3 : ([t, i] ++ beBytes 4 idx.length ++ idx ++ beBytes 4 ord.length ++ ord : Bytes).length =
      10 + idx.length + ord.length := by
    simp only [List.length_append, beBytes_length, List.length_cons, List.length_nil]; omega
  rw [toDataKeyBytes_of _ b (beBytes 4 idx.length) (beBytes 4 ord.length) pk t idx.length ord.length]
  · rw [dataKey_eq]; simp
  · rw [hk]; rfl
  · rw [hk]; exact slice_mid' _ _ _ _ _ rfl (by rw [beBytes_length]; rfl)
  · exact beNat_beBytes4 h1
  · rw [hk2]; exact slice_mid' _ _ _ _ _ e2.symm (by rw [e2, beBytes_length]; omega)
  · exact beNat_beBytes4 h2
  · rw [hk3]; exact slice_mid' _ _ _ _ _ e3.symm (by rw [List.append_nil, List.length_append])

/-- index keys of one index are determined by their parts -/
theorem encodeIndexKey_inj {t i t' i' : UInt8} {idx ord pk idx' ord' pk' : Bytes}
    (h1 : idx.length < 2 ^ 32) (h2 : ord.length < 2 ^ 32) (h1' : idx'.length < 2 ^ 32) (h2' : ord'.length < 2 ^ 32)
    (h : encodeIndexKey t i idx ord pk = encodeIndexKey t' i' idx' ord' pk') :
    t = t' ∧ i = i' ∧ idx = idx' ∧ ord = ord' ∧ pk = pk' := by
  rw [encodeIndexKey_eq, encodeIndexKey_eq] at h
  simp only [List.append_assoc, List.cons_append, List.nil_append, List.cons.injEq] at h
  obtain ⟨ht, hi, h⟩ := h
  obtain ⟨e1, h⟩ := List.append_inj h (by simp)
  have e1 := beBytes_inj (n := 4) h1 h1' e1
  obtain ⟨e2, h⟩ := List.append_inj h e1
  obtain ⟨e3, h⟩ := List.append_inj h (by simp)
  have e3 := beBytes_inj (n := 4) h2 h2' e3
  obtain ⟨e4, h⟩ := List.append_inj h e3
  exact ⟨ht, hi, e2, e4, h⟩

theorem dataKey_inj {t t' : UInt8} {pk pk' : Bytes} (h : dataKey t pk = dataKey t' pk') : t = t' ∧ pk = pk' := by
  rw [dataKey_eq, dataKey_eq] at h; simpa using h

theorem head2 {t i t' i' : UInt8} {x y : Bytes} (h : t :: i :: x = t' :: i' :: y) : t = t' ∧ i = i' := by
  simp at h; exact ⟨h.1, h.2.1⟩

theorem dataKey_lt (t : UInt8) (p q : Bytes) : blt (dataKey t p) (dataKey t q) = blt p q := by
  rw [dataKey_eq, dataKey_eq, blt_append_left]

/-- order of two keys of one index: length of the index value, index value, length of the order part,
order part, primary key -/
theorem encodeIndexKey_lt (t i : UInt8) {idx ord pk idx' ord' pk' : Bytes}
    (h1 : idx.length < 2 ^ 32) (h2 : ord.length < 2 ^ 32) (h1' : idx'.length < 2 ^ 32) (h2' : ord'.length < 2 ^ 32) :
    blt (encodeIndexKey t i idx ord pk) (encodeIndexKey t i idx' ord' pk') = true ↔
      idx.length < idx'.length ∨ (idx.length = idx'.length ∧ (blt idx idx' = true ∨ (idx = idx' ∧
        (ord.length < ord'.length ∨ (ord.length = ord'.length ∧ (blt ord ord' = true ∨ (ord = ord' ∧
          blt pk pk' = true))))))) := by
  rw [encodeIndexKey_eq, encodeIndexKey_eq]
  simp only [List.append_assoc, blt_append_left]
  rw [blt_append_same_len (by simp), blt_beBytes (n := 4) h1 h1']
  constructor
  · rintro (h | ⟨e, h⟩)
    · exact Or.inl h
    · have e := beBytes_inj (n := 4) h1 h1' e
      rw [blt_append_same_len e] at h
      refine Or.inr ⟨e, ?_⟩
      rcases h with h | ⟨e2, h⟩
      · exact Or.inl h
      · rw [blt_append_same_len (by simp), blt_beBytes (n := 4) h2 h2'] at h
        refine Or.inr ⟨e2, ?_⟩
        rcases h with h | ⟨e3, h⟩
        · exact Or.inl h
        · have e3 := beBytes_inj (n := 4) h2 h2' e3
          rw [blt_append_same_len e3] at h
          exact Or.inr ⟨e3, h⟩
  · rintro (h | ⟨e, h⟩)
    · exact Or.inl h
    · refine Or.inr ⟨by rw [e], ?_⟩
      rw [blt_append_same_len e]
      rcases h with h | ⟨e2, h⟩
      · exact Or.inl h
      · refine Or.inr ⟨e2, ?_⟩
        rw [blt_append_same_len (by simp), blt_beBytes (n := 4) h2 h2']
        rcases h with h | ⟨e3, h⟩
        · exact Or.inl h
        · refine Or.inr ⟨by rw [e3], ?_⟩
          rw [blt_append_same_len e3]; exact h

end Bond
