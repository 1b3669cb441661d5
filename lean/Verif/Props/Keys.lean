import Verif.KeyLemmas
/- Property theorems C07-C09 (key layout). -/
namespace Bond

/-- C07: decoding an encoded key gives the key back. -/
theorem C07_roundtrip (k : Key) (hp : k.primaryKey ≠ []) (h1 : k.index.length < 2 ^ 32)
    (h2 : k.indexOrder.length < 2 ^ 32) : keyDecode (keyEncode k) = some k := by
  rw [keyEncode_eq k hp, List.nil_append, encodeIndexKey_eq]
  unfold keyDecode
  have hl : ([k.tableID, k.indexID] ++ beBytes 4 k.index.length ++ k.index ++ beBytes 4 k.indexOrder.length ++
      k.indexOrder ++ k.primaryKey : Bytes).length = 10 + k.index.length + k.indexOrder.length + k.primaryKey.length := by
    simp; omega
  rw [hl]
  simp only [List.append_assoc]
  have r1 : ∀ s : Bytes, readN 1 ([k.tableID, k.indexID] ++ s) = ([k.tableID], k.indexID :: s) := by
    intro s; exact readN_append 1 [k.tableID] (k.indexID :: s) rfl
  have r2 : ∀ s : Bytes, readN 1 (k.indexID :: s) = ([k.indexID], s) := by
    intro s; exact readN_append 1 [k.indexID] s rfl
  simp only [r1, r2, readN_append 4 (beBytes 4 _) _ (beBytes_length 4 _), beNat_beBytes4 h1,
    readN_append k.index.length k.index _ rfl, beNat_beBytes4 h2,
    readN_append k.indexOrder.length k.indexOrder _ rfl]
  rw [if_neg (by omega)]
  have e : (((10 + k.index.length + k.indexOrder.length + k.primaryKey.length : Nat) : Int) - k.index.length -
      k.indexOrder.length - 10).toNat = k.primaryKey.length := by omega
  rw [e]
  have := readN_append k.primaryKey.length k.primaryKey [] rfl
  rw [List.append_nil] at this
  rw [this]
  simp

example : keyDecode (keyEncode ⟨3, 2, [1, 2], [9], [5, 6, 7]⟩) = some ⟨3, 2, [1, 2], [9], [5, 6, 7]⟩ := by decide

/-- C07: a key without primary key (a prefix) is never decodable: `KeyDecode` panics. -/
theorem C07_prefix_panics (k : Key) (hp : k.primaryKey = []) (h1 : k.index.length < 2 ^ 32) :
    keyDecode (keyEncode k) = none := by
  rw [keyEncode_prefix k hp, List.nil_append, keyPrefix_eq]
  unfold keyDecode
  have r1 : ∀ s : Bytes, readN 1 ([k.tableID, k.indexID] ++ s) = ([k.tableID], k.indexID :: s) := by
    intro s; exact readN_append 1 [k.tableID] (k.indexID :: s) rfl
  have r2 : ∀ s : Bytes, readN 1 (k.indexID :: s) = ([k.indexID], s) := by
    intro s; exact readN_append 1 [k.indexID] s rfl
  have r3 := readN_append k.index.length k.index [] rfl
  rw [List.append_nil] at r3
  have r4 : readN 4 [] = ([0, 0, 0, 0], []) := rfl
  have hl : ([k.tableID, k.indexID] ++ beBytes 4 k.index.length ++ k.index : Bytes).length =
      6 + k.index.length := by simp; omega
  rw [hl]
  simp only [List.append_assoc, r1, r2, readN_append 4 (beBytes 4 _) _ (beBytes_length 4 _), beNat_beBytes4 h1, r3, r4]
  have : beNat [0, 0, 0, 0] = 0 := rfl
  rw [this, if_pos (by omega)]

/-- the theorem at a key prefix as used for iterator bounds -/
example : keyDecode (keyEncode ⟨3, 2, [1, 2], [9], []⟩) = none := C07_prefix_panics _ rfl (by decide)

/-- C07: encoding is injective on the keys it is used for (it loses nothing). -/
theorem C07_injective (k k' : Key) (hp : k.primaryKey ≠ []) (hp' : k'.primaryKey ≠ [])
    (h1 : k.index.length < 2 ^ 32) (h2 : k.indexOrder.length < 2 ^ 32)
    (h1' : k'.index.length < 2 ^ 32) (h2' : k'.indexOrder.length < 2 ^ 32)
    (h : keyEncode k = keyEncode k') : k = k' := by
  have a := C07_roundtrip k hp h1 h2
  have b := C07_roundtrip k' hp' h1' h2'
  rw [h, b] at a; simpa using a.symm

/-- the theorem's hypotheses at a key with all five fields -/
example (k' : Key) (hp : k'.primaryKey ≠ []) (h1 : k'.index.length < 2 ^ 32) (h2 : k'.indexOrder.length < 2 ^ 32)
    (h : keyEncode ⟨3, 2, [1, 2], [9], [5]⟩ = keyEncode k') : k' = ⟨3, 2, [1, 2], [9], [5]⟩ :=
  (C07_injective _ k' (by decide) hp (by decide) (by decide) h1 h2 h).symm

/-- C08: the index key written for a record leads back to the data key of the record,
and its table id, index id, index value and split point read back. -/
theorem C08 (t i : UInt8) (idx ord pk : Bytes) (h1 : idx.length < 2 ^ 32 - 6) (h2 : ord.length < 2 ^ 32) :
    toDataKeyBytes (encodeIndexKey t i idx ord pk) = some (dataKey t pk) ∧
    keyTableID (encodeIndexKey t i idx ord pk) = some t ∧
    keyIndexID (encodeIndexKey t i idx ord pk) = some i ∧
    keyIndex (encodeIndexKey t i idx ord pk) = some idx ∧
    keyPrefixSplit (encodeIndexKey t i idx ord pk) = some (keyPrefix t i idx).length ∧
    (encodeIndexKey t i idx ord pk).take (keyPrefix t i idx).length = keyPrefix t i idx := by
  have hlt : idx.length < 2 ^ 32 := Nat.lt_of_lt_of_le h1 (Nat.sub_le _ _)
  have hk : encodeIndexKey t i idx ord pk =
      [t, i] ++ beBytes 4 idx.length ++ (idx ++ (beBytes 4 ord.length ++ (ord ++ pk))) := by
    rw [encodeIndexKey_eq]; simp only [List.append_assoc]
  have hk2 : encodeIndexKey t i idx ord pk =
      ([t, i] ++ beBytes 4 idx.length) ++ idx ++ (beBytes 4 ord.length ++ (ord ++ pk)) := by
    rw [encodeIndexKey_eq]; simp only [List.append_assoc]
  have s1 : slice (encodeIndexKey t i idx ord pk) 2 6 = some (beBytes 4 idx.length) := by
    rw [hk]; exact slice_mid' _ _ _ _ _ rfl (by rw [beBytes_length]; rfl)
  have e2 : ([t, i] ++ beBytes 4 idx.length : Bytes).length = 6 := by
    simp only [List.length_append, beBytes_length, List.length_cons, List.length_nil]
  have e3 : (keyPrefix t i idx).length = 6 + idx.length := by
    rw [keyPrefix_eq, List.length_append, e2]
  refine ⟨?_, ?_, ?_, ?_, ?_, ?_⟩
  · rw [toDataKeyBytes_index t i idx ord pk [] hlt h2]; rfl
  · rw [hk]; rfl
  · rw [hk]; rfl
  · unfold keyIndex
    rw [s1, Option.bind_eq_bind, Option.bind_some, beNat_beBytes4 hlt,
      Nat.mod_eq_of_lt (by omega), hk2]
    exact slice_mid' _ _ _ _ _ e2.symm (by rw [e2])
  · unfold keyPrefixSplit
    rw [s1, Option.map_some, beNat_beBytes4 hlt, e3]
  · rw [hk2, keyPrefix_eq]; exact List.take_left' rfl

example : toDataKeyBytes (encodeIndexKey 3 2 [1, 2] [9] [5, 6]) = some (dataKey 3 [5, 6]) := by decide

/-- A key belongs to the key space of a (table, index) pair if it starts with their ids. -/
def Spec.InSpace (t i : UInt8) (k : Bytes) : Prop := ∃ r, k = t :: i :: r

/-- C09: every kind of key lives in the key space of its table and index. -/
theorem C09_spaces (t i : UInt8) (idx ord pk u : Bytes) :
    Spec.InSpace t i (encodeIndexKey t i idx ord pk) ∧ Spec.InSpace t 0 (dataKey t pk) ∧
    Spec.InSpace t i (keyPrefix t i idx) ∧ Spec.InSpace 0 0xFF (newUserKey u) ∧
    Spec.InSpace 0 0 bondDataVersionKey := by
  refine ⟨?_, ?_, ?_, ?_, ?_⟩
  · rw [encodeIndexKey_eq]; exact ⟨_, rfl⟩
  · rw [dataKey_eq]; exact ⟨_, rfl⟩
  · rw [keyPrefix_eq]; exact ⟨_, rfl⟩
  · unfold newUserKey
    by_cases h : u = []
    · rw [keyEncode_prefix _ (by simpa using h), List.nil_append, keyPrefix_eq]; exact ⟨_, rfl⟩
    · rw [keyEncode_eq _ (by simpa using h), List.nil_append, encodeIndexKey_eq]; exact ⟨_, rfl⟩
  · rw [show bondDataVersionKey = 0 :: 0 :: (bondDataVersionKey.drop 2) by decide]; exact ⟨_, rfl⟩

/-- C09: key spaces of different (table, index) pairs are disjoint. -/
theorem C09_disjoint {t i t' i' : UInt8} {k : Bytes} (h : Spec.InSpace t i k) (h' : Spec.InSpace t' i' k) :
    t = t' ∧ i = i' := by
  obtain ⟨r, rfl⟩ := h
  obtain ⟨r', e⟩ := h'
  exact head2 e

/-- C09: a key space is contiguous: what lies between two of its keys belongs to it. -/
theorem C09_contiguous {t i : UInt8} {a b c : Bytes} (ha : Spec.InSpace t i a) (hc : Spec.InSpace t i c)
    (hab : ble a b = true) (hbc : ble b c = true) : Spec.InSpace t i b := by
  obtain ⟨r, rfl⟩ := ha
  obtain ⟨s, rfl⟩ := hc
  match b with
  | [] => simp [ble, blt] at hab
  | [x] =>
    simp only [ble, blt, Bool.not_eq_true'] at hab hbc
    grind
  | x :: y :: b =>
    simp only [ble, blt, Bool.not_eq_true'] at hab hbc
    have hx : x = t := by grind
    have hy : y = i := by grind
    exact ⟨b, by rw [hx, hy]⟩

/-- the theorem between the first and the last possible entry of an index value -/
example : Spec.InSpace 3 2 [3, 2, 0, 0, 0, 1, 8] :=
  C09_contiguous (a := [3, 2, 0]) (c := [3, 2, 255]) (by simp [Spec.InSpace]) (by simp [Spec.InSpace]) (by decide) (by decide)

/-- C09: rows of one table with different primary keys have different data keys; entries of one index
for different (index value, order value, primary key) are different keys. -/
theorem C09_injective (t i : UInt8) (idx ord pk idx' ord' pk' : Bytes)
    (h1 : idx.length < 2 ^ 32) (h2 : ord.length < 2 ^ 32) (h1' : idx'.length < 2 ^ 32) (h2' : ord'.length < 2 ^ 32) :
    (dataKey t pk = dataKey t pk' → pk = pk') ∧
    (encodeIndexKey t i idx ord pk = encodeIndexKey t i idx' ord' pk' → idx = idx' ∧ ord = ord' ∧ pk = pk') :=
  ⟨fun h => (dataKey_inj h).2, fun h => (encodeIndexKey_inj h1 h2 h1' h2' h).2.2⟩

/-- the theorem at two index keys that differ in the split between value and order -/
example : encodeIndexKey 3 2 [1] [2] [7] ≠ encodeIndexKey 3 2 [1, 2] [] [7] := fun h =>
  absurd ((C09_injective 3 2 [1] [2] [7] [1, 2] [] [7] (by decide) (by decide) (by decide) (by decide)).2 h).1 (by decide)

/-- C09: different user keys are different database keys. -/
theorem C09_user_keys (u v : Bytes) (h : newUserKey u = newUserKey v) : u = v := by
  unfold newUserKey at h
  by_cases hu : u = [] <;> by_cases hv : v = []
  · rw [hu, hv]
  · rw [keyEncode_prefix _ (by simpa using hu), keyEncode_eq _ (by simpa using hv), keyPrefix_eq, encodeIndexKey_eq] at h
    simp [beBytes4_zero] at h
  · rw [keyEncode_eq _ (by simpa using hu), keyEncode_prefix _ (by simpa using hv), keyPrefix_eq, encodeIndexKey_eq] at h
    simp [beBytes4_zero] at h
  · rw [keyEncode_eq _ (by simpa using hu), keyEncode_eq _ (by simpa using hv), List.nil_append, List.nil_append] at h
    exact (encodeIndexKey_inj (by simp) (by simp) (by simp) (by simp) h).2.2.2.2

example : Spec.InSpace 3 2 (encodeIndexKey 3 2 [1] [] [7]) ∧ ¬ Spec.InSpace 3 2 (dataKey 3 [7]) := by
  constructor
  · exact (C09_spaces 3 2 [1] [] [7] []).1
  · intro h
    have := C09_disjoint h (C09_spaces 3 2 [1] [] [7] []).2.1
    exact absurd this.2 (by decide)

end Bond
