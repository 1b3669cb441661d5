import Verif.Props.Keys
/- Property theorems C82: the structured form of a key (`Key`) and its bytes (`KeyBytes`) give the same answers. -/
namespace Bond

/-- C82: converting to a row key commutes with encoding: the structured `ToDataKey` encodes to what
`ToDataKeyBytes` makes of the bytes, and that is the key under which the row is stored. -/
theorem C82_dataKey (k : Key) (hp : k.primaryKey ≠ []) (h1 : k.index.length < 2 ^ 32)
    (h2 : k.indexOrder.length < 2 ^ 32) :
    keyEncode k.toDataKey = dataKey k.tableID k.primaryKey ∧
    toDataKeyBytes (keyEncode k) = some (keyEncode k.toDataKey) := by
  have e : keyEncode k.toDataKey = dataKey k.tableID k.primaryKey := by
    rw [keyEncode_eq _ (by simpa [Key.toDataKey] using hp), encodeIndexKey_eq, dataKey_eq]
    simp [Key.toDataKey, primaryIndexID]
    rfl
  refine ⟨e, ?_⟩
  rw [e, keyEncode_eq k hp, List.nil_append, toDataKeyBytes_index _ _ _ _ _ [] h1 h2]; rfl

example : keyEncode (Key.toDataKey ⟨3, 2, [1, 2], [9], [5, 6]⟩) = dataKey 3 [5, 6] := by decide

/-- C82: `ToKeyPrefix` encodes to exactly the bytes up to the split point of the encoded key: the prefix which the
database filters on, and which every scan of that index value starts at. It keeps nothing of the order value or the
primary key, and is the only such key: two keys have the same prefix key exactly if they agree in table, index and
index value. -/
theorem C82_prefix (k : Key) (hp : k.primaryKey ≠ []) (h1 : k.index.length < 2 ^ 32) :
    keyEncode k.toKeyPrefix = keyPrefix k.tableID k.indexID k.index ∧
    (keyPrefixSplit (keyEncode k)).map (fun n => (keyEncode k).take n) = some (keyEncode k.toKeyPrefix) ∧
    k.toKeyPrefix.isKeyPrefix = true ∧
    (∀ k' : Key, k'.toKeyPrefix = k.toKeyPrefix ↔
      k'.tableID = k.tableID ∧ k'.indexID = k.indexID ∧ k'.index = k.index) := by
  have e : keyEncode k.toKeyPrefix = keyPrefix k.tableID k.indexID k.index := by
    rw [keyEncode_prefix _ rfl]; rfl
  refine ⟨e, ?_, rfl, ?_⟩
  · rw [e]
    have hk2 : keyEncode k = ([k.tableID, k.indexID] ++ beBytes 4 k.index.length) ++ k.index ++
        (beBytes 4 k.indexOrder.length ++ (k.indexOrder ++ k.primaryKey)) := by
      rw [keyEncode_eq k hp, List.nil_append, encodeIndexKey_eq]; simp only [List.append_assoc]
    have hk : keyEncode k = [k.tableID, k.indexID] ++ beBytes 4 k.index.length ++
        (k.index ++ (beBytes 4 k.indexOrder.length ++ (k.indexOrder ++ k.primaryKey))) := by
      rw [hk2]; simp only [List.append_assoc]
    have s1 : slice (keyEncode k) 2 6 = some (beBytes 4 k.index.length) := by
      rw [hk]; exact slice_mid' _ _ _ _ _ rfl (by rw [beBytes_length]; rfl)
    unfold keyPrefixSplit
    rw [s1, Option.map_some, beNat_beBytes4 h1, Option.map_some, hk2, keyPrefix_eq]
    refine congrArg some (List.take_left' ?_)
    simp only [List.length_append, beBytes_length, List.length_cons, List.length_nil]
  · intro k'
    simp [Key.toKeyPrefix]

example : keyEncode (Key.toKeyPrefix ⟨3, 2, [1, 2], [9], [5, 6]⟩) = [3, 2, 0, 0, 0, 2, 1, 2] := by decide

/-- C82: on the bytes of the keys the library writes, `IsDataKey` and `IsIndexKey` tell rows from index entries. -/
theorem C82_bytes (t i : UInt8) (idx ord pk : Bytes) (hi : i ≠ 0) :
    keyIsDataKey (dataKey t pk) = some true ∧ keyIsIndexKey (dataKey t pk) = some false ∧
    keyIsDataKey (encodeIndexKey t i idx ord pk) = some false ∧
    keyIsIndexKey (encodeIndexKey t i idx ord pk) = some true := by
  have a : keyIndexID (dataKey t pk) = some 0 := by rw [dataKey_eq]; rfl
  have b : keyIndexID (encodeIndexKey t i idx ord pk) = some i := by rw [encodeIndexKey_eq]; rfl
  unfold keyIsDataKey keyIsIndexKey
  rw [a, b]
  simp [primaryIndexID, hi]

/-- the theorem at a row and an entry of table 7 -/
example := C82_bytes 7 1 [5] [] [1] (by decide)

/-- What the structured predicates should say of a key that the library writes: it is a row (primary index, no index
value) or an entry of a secondary index. -/
def Spec.KindsAgree (b : Bytes) : Prop :=
  ∃ k, keyDecode b = some k ∧ keyIsDataKey b = some k.isDataKey ∧ keyIsIndexKey b = some k.isIndexKey ∧
    k.isKeyPrefix = false

/-- C82, part: the structured predicates on the decoded key agree with those on the bytes for every row and for
every entry of an index that appends at least one byte. -/
theorem C82_partial (t i : UInt8) (idx ord pk : Bytes) (hi : i ≠ 0) (hp : pk ≠ []) (hx : idx ≠ [])
    (h1 : idx.length < 2 ^ 32) (h2 : ord.length < 2 ^ 32) :
    Spec.KindsAgree (dataKey t pk) ∧ Spec.KindsAgree (encodeIndexKey t i idx ord pk) := by
  obtain ⟨b1, b2, b3, b4⟩ := C82_bytes t i idx ord pk hi
  constructor
  · refine ⟨⟨t, 0, [], [], pk⟩, ?_, ?_, ?_, ?_⟩
    · have := C07_roundtrip ⟨t, 0, [], [], pk⟩ hp (by simp) (by simp)
      rw [← this, ← (C82_dataKey ⟨t, 0, [], [], pk⟩ hp (by simp) (by simp)).1]; rfl
    · rw [b1]; rfl
    · rw [b2]; rfl
    · simpa [Key.isKeyPrefix] using hp
  · refine ⟨⟨t, i, idx, ord, pk⟩, ?_, ?_, ?_, ?_⟩
    · have := C07_roundtrip ⟨t, i, idx, ord, pk⟩ hp h1 h2
      rwa [keyEncode_eq _ hp, List.nil_append] at this
    · rw [b3]; simp [Key.isDataKey, primaryIndexID, hi]
    · rw [b4]; simp [Key.isIndexKey, primaryIndexID, hi, hx]
    · simpa [Key.isKeyPrefix] using hp

example : Spec.KindsAgree (encodeIndexKey 3 2 [1, 2] [9] [5, 6]) := (C82_partial 3 2 [1, 2] [9] [5, 6] (by decide) (by decide) (by decide) (by decide) (by decide)).2

/-- C82 fails for an index whose key function appends nothing (an index that orders all rows): of the entry
`3/2//9/5` the bytes say it is an index entry, the structured form says it is neither row nor entry. -/
theorem C82_refuted : ¬ Spec.KindsAgree (encodeIndexKey 3 2 [] [9] [5]) := by
  rintro ⟨k, hd, -, hx, -⟩
  have e : keyDecode (encodeIndexKey 3 2 [] [9] [5]) = some ⟨3, 2, [], [9], [5]⟩ := by decide
  rw [e] at hd
  obtain rfl := Option.some.inj hd
  revert hx; decide

/-- C82, exactly: the structured predicates agree with those on the bytes for an index entry if and only if its index value is not empty. -/
theorem C82_iff (t i : UInt8) (idx ord pk : Bytes) (hi : i ≠ 0) (hp : pk ≠ [])
    (h1 : idx.length < 2 ^ 32) (h2 : ord.length < 2 ^ 32) : Spec.KindsAgree (encodeIndexKey t i idx ord pk) ↔ idx ≠ [] := by
  refine ⟨?_, fun hx => (C82_partial t i idx ord pk hi hp hx h1 h2).2⟩
  rintro ⟨k, hd, -, hx, -⟩ rfl
  have := C07_roundtrip ⟨t, i, [], ord, pk⟩ hp h1 h2
  rw [keyEncode_eq _ hp, List.nil_append] at this
  simp only at this
  rw [this] at hd
  obtain rfl := Option.some.inj hd
  rw [(C82_bytes t i [] ord pk hi).2.2.2] at hx
  simp [Key.isIndexKey] at hx

/-- `C82_iff` at an entry without and one with an index value -/
example : ¬ Spec.KindsAgree (encodeIndexKey 3 2 [] [9] [5]) ∧ Spec.KindsAgree (encodeIndexKey 3 2 [1] [9] [5]) :=
  ⟨fun h => (C82_iff 3 2 [] [9] [5] (by decide) (by decide) (by decide) (by decide)).1 h rfl,
    (C82_iff 3 2 [1] [9] [5] (by decide) (by decide) (by decide) (by decide)).2 (by decide)⟩

end Bond
