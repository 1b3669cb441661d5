import Verif.Comparer
import Verif.Props.Keys
import Verif.Props.Writes
import Verif.ScanLemmas
/- C98: the comparer of the database fulfils what the store expects from it, for all keys the library makes. -/
namespace Bond
open Spec
variable {T F : Type}

/-- the keys that the library makes: rows, index entries, bounds of index values, user keys, the data version -/
inductive Spec.LibraryKey : Bytes → Prop
  | row (t : UInt8) (pk : Bytes) : Spec.LibraryKey (dataKey t pk)
  | entry (t i : UInt8) (idx ord pk : Bytes) (h : idx.length < 2 ^ 32) : Spec.LibraryKey (encodeIndexKey t i idx ord pk)
  | bound (t i : UInt8) (idx : Bytes) (h : idx.length < 2 ^ 32) : Spec.LibraryKey (keyPrefix t i idx)
  | user (u : Bytes) : Spec.LibraryKey (newUserKey u)
  | version : Spec.LibraryKey bondDataVersionKey

/-- The key starts with a table, an index and an index value with its length. -/
def Spec.Framed (k p : Bytes) : Prop := ∃ t i idx, idx.length < 2 ^ 32 ∧ p = keyPrefix t i idx ∧ p <+: k

theorem comparerPrefix_eq {k p : Bytes} (h : Framed k p) : comparerPrefix k = some p := by
  obtain ⟨t, i, idx, hl, rfl, r, rfl⟩ := h
  have e : keyPrefix t i idx ++ r = [t, i] ++ beBytes 4 idx.length ++ (idx ++ r) := by rw [keyPrefix_eq]; simp only [List.append_assoc]
  have s1 : slice (keyPrefix t i idx ++ r) 2 6 = some (beBytes 4 idx.length) := by
    rw [e]; exact slice_mid' _ _ _ _ _ rfl (by rw [beBytes_length]; rfl)
  have e3 : (keyPrefix t i idx).length = 6 + idx.length := by
    rw [keyPrefix_eq]; simp only [List.length_append, beBytes_length, List.length_cons, List.length_nil]
  unfold comparerPrefix keyPrefixSplit
  rw [s1, Option.map_some, beNat_beBytes4 hl, Option.bind_some]
  unfold slice
  rw [if_pos ⟨Nat.zero_le _, by rw [List.length_append, e3]; omega⟩, ← e3, List.take_left' rfl]
  rfl

theorem framed_iff {k p : Bytes} : Framed k p ↔ comparerPrefix k = some p := by
  refine ⟨comparerPrefix_eq, fun h => ?_⟩
  unfold comparerPrefix keyPrefixSplit at h
  cases hs : slice k 2 6 with
  | none => simp [hs] at h
  | some l =>
    simp only [hs, Option.map_some, Option.bind_some] at h
    unfold slice at hs h
    split at hs
    · rename_i h6
      simp only [Option.some.injEq] at hs
      split at h
      · rename_i hn
        simp only [Option.some.injEq, List.drop_zero] at h
        have hl4 : l.length = 4 := by rw [← hs]; simp; omega
        match k, h6.2, hs with
        | t :: i :: r, h6', hs =>
          simp only [List.take_succ_cons, List.drop_succ_cons, List.drop_zero] at hs
          have hr : r = l ++ r.drop 4 := by rw [← hs]; exact (List.take_append_drop 4 r).symm
          have hb : beNat l < 2 ^ 32 := by have := beNat_lt l; rw [hl4] at this; simpa using this
          have hlen : (r.drop 4).length ≥ beNat l := by
            simp only [List.length_cons] at hn
            simp only [List.length_drop]; omega
          refine ⟨t, i, (r.drop 4).take (beNat l), by rw [List.length_take]; omega, ?_, ?_⟩
          · rw [keyPrefix_eq, List.length_take, Nat.min_eq_left hlen, ← h, show beBytes 4 (beNat l) = l by rw [← hl4]; exact beBytes_beNat l]
            show List.take (6 + beNat l) (t :: i :: r) = t :: i :: (l ++ _)
            rw [show 6 + beNat l = (4 + beNat l) + 1 + 1 by omega, List.take_succ_cons, List.take_succ_cons]
            congr 2
            conv => lhs; rw [hr]
            rw [List.take_append, hl4, Nat.add_sub_cancel_left, List.take_of_length_le (by omega)]
          · rw [← h]; exact List.take_prefix _ _
        | [], h6', hs => simp at h6'
        | [_], h6', hs => simp at h6'
      · simp at h
    · simp at hs

/-- C98: every key that the library makes is framed, so the comparer does not panic on it, and its prefix is table, index and
index value. -/
theorem C98_keys {k : Bytes} (h : LibraryKey k) : ∃ p, comparerPrefix k = some p ∧ Framed k p := by
  have key : ∀ p, Framed k p → ∃ p, comparerPrefix k = some p ∧ Framed k p := fun p hp => ⟨p, comparerPrefix_eq hp, hp⟩
  have entry : ∀ t i idx ord pk, keyPrefix t i idx <+: encodeIndexKey t i idx ord pk := fun t i idx ord pk =>
    ⟨beBytes 4 ord.length ++ (ord ++ pk), by rw [keyPrefix_eq, encodeIndexKey_eq]; simp only [List.append_assoc]⟩
  cases h with
  | row t pk =>
    refine key (keyPrefix t 0 []) ⟨t, 0, [], by decide, rfl, ?_⟩
    rw [keyPrefix_eq, dataKey_eq]
    exact ⟨0 :: 0 :: 0 :: 0 :: pk, rfl⟩
  | entry t i idx ord pk h => exact key _ ⟨t, i, idx, h, rfl, entry t i idx ord pk⟩
  | bound t i idx h => exact key _ ⟨t, i, idx, h, rfl, List.prefix_rfl⟩
  | user u =>
    refine key (keyPrefix bondDataTableID bondUserSpaceIndexID []) ⟨_, _, [], by decide, rfl, ?_⟩
    unfold newUserKey
    by_cases hu : u = []
    · subst hu; rw [keyEncode_prefix _ rfl]; exact List.prefix_rfl
    · rw [keyEncode_eq _ (by exact hu), List.nil_append]; exact entry _ _ _ _ _
  | version => exact key (keyPrefix 0 0 []) ⟨0, 0, [], by decide, rfl, by decide⟩

theorem framed_order {a b p q : Bytes} (ha : Framed a p) (hb : Framed b q) (h : ble a b = true) : ble p q = true := by
  obtain ⟨t, i, x, hx, rfl, r, rfl⟩ := ha
  obtain ⟨t', i', y, hy, rfl, r', rfl⟩ := hb
  rw [← not_blt_iff] at h ⊢
  cases hlt : blt (keyPrefix t' i' y) (keyPrefix t i x) with
  | false => rfl
  | true =>
    exfalso
    have key : blt (keyPrefix t' i' y ++ r') (keyPrefix t i x ++ r) = true := by
      rw [keyPrefix_eq, keyPrefix_eq] at hlt ⊢
      have hl : ([t', i'] ++ beBytes 4 y.length : Bytes).length = ([t, i] ++ beBytes 4 x.length : Bytes).length := by
        simp only [List.length_append, beBytes_length, List.length_cons, List.length_nil]
      rw [blt_append_same_len hl] at hlt
      rw [List.append_assoc _ y r', List.append_assoc _ x r, blt_append_same_len hl]
      rcases hlt with hlt | ⟨he, hlt⟩
      · exact Or.inl hlt
      · refine Or.inr ⟨he, ?_⟩
        have : y.length = x.length := by
          have e : beBytes 4 y.length = beBytes 4 x.length := (List.append_inj he rfl).2
          exact beBytes_inj hy hx e
        rw [blt_append_same_len this]
        exact Or.inl hlt
    rw [key] at h
    simp at h

/-- C98 (what the store expects of a comparer): for framed keys, so for all keys of the library, the prefix of a prefix is itself; a prefix is
not above its key; prefixes are ordered as the keys are; and keys with the same prefix are ordered by what follows it. -/
theorem C98_contract {a b p q : Bytes} (ha : comparerPrefix a = some p) (hb : comparerPrefix b = some q) :
    comparerPrefix p = some p ∧ ble p a = true ∧ (ble a b = true → ble p q = true) ∧
    (p = q → ∀ r s, a = p ++ r → b = q ++ s → blt a b = blt r s) := by
  rw [← framed_iff] at ha hb
  refine ⟨?_, ?_, framed_order ha hb, ?_⟩
  · obtain ⟨t, i, x, hx, rfl, _⟩ := ha
    exact comparerPrefix_eq ⟨t, i, x, hx, rfl, List.prefix_rfl⟩
  · obtain ⟨t, i, x, hx, rfl, r, rfl⟩ := ha
    exact ble_append_right_self _ _
  · rintro rfl r s rfl rfl
    exact blt_append_left _ _ _

/-- the theorem at two entries of index 1: their prefixes keep the order -/
example := C98_contract (a := encodeIndexKey 7 1 [5] [] [1]) (b := encodeIndexKey 7 1 [6] [] [0]) (p := [7, 1, 0, 0, 0, 1, 5]) (q := [7, 1, 0, 0, 0, 1, 6])
  (by decide) (by decide)

theorem prefixRun_eq {k p : Bytes} (hk : comparerPrefix k = some p) (l : List (Bytes × Bytes)) (hs : SortedKV l)
    (hl : ∀ e ∈ l, (comparerPrefix e.1).isSome) (hge : ∀ e ∈ l, ble k e.1 = true) :
    prefixRun p l = some (l.filter (fun e => comparerPrefix e.1 == some p)) := by
  induction l with
  | nil => rfl
  | cons e l ih =>
    obtain ⟨hs1, hs2⟩ := List.pairwise_cons.1 hs
    have ih' := ih hs2 (fun e' he' => hl e' (by simp [he'])) (fun e' he' => hge e' (by simp [he']))
    obtain ⟨q, hq⟩ := Option.isSome_iff_exists.1 (hl e (by simp))
    simp only [prefixRun, hq]
    by_cases h : q = p
    · subst h
      rw [if_pos rfl, ih', List.filter_cons_of_pos (by simp [hq])]
      rfl
    · rw [if_neg h, List.filter_eq_nil_iff.2]
      intro e' he' hp
      have hp : comparerPrefix e'.1 = some p := by simpa using hp
      rcases List.mem_cons.1 he' with rfl | he'
      · rw [hq] at hp; exact h (by simpa using hp)
      · have h1 := (C98_contract hk hq).2.2.1 (hge e (by simp))
        have h2 := (C98_contract hq hp).2.2.1 (ble_of_blt (hs1 e' he'))
        exact h (ble_antisymm h2 h1)

/-- C98 (SeekPrefixGE): in a database whose keys are framed, an iterator positioned with SeekPrefixGE and moved with Next visits
exactly the entries with the prefix of the key that are not below the key, in order, and then ends. -/
theorem C98_seek {s : KV} (hs : ∀ e ∈ s.l, (comparerPrefix e.1).isSome) {k p : Bytes} (hk : comparerPrefix k = some p) :
    s.seekPrefixGE k = some (s.l.filter (fun e => ble k e.1 && comparerPrefix e.1 == some p)) := by
  have hdrop : ∀ l : List (Bytes × Bytes), SortedKV l → l.dropWhile (fun e => blt e.1 k) = l.filter (fun e => ble k e.1) := by
    intro l hl
    induction l with
    | nil => rfl
    | cons e l ih =>
      obtain ⟨h1, h2⟩ := List.pairwise_cons.1 hl
      by_cases h : blt e.1 k = true
      · rw [List.dropWhile_cons_of_pos (p := fun e : Bytes × Bytes => blt e.1 k) h, ih h2, List.filter_cons_of_neg (by rw [Bool.not_eq_true, ble, h]; rfl)]
      · have hle : ble k e.1 = true := (not_blt_iff _ _).1 (by simpa using h)
        rw [List.dropWhile_cons_of_neg (p := fun e : Bytes × Bytes => blt e.1 k) h, List.filter_eq_self.2]
        intro e' he'
        rcases List.mem_cons.1 he' with rfl | he'
        · exact hle
        · exact ble_trans hle (ble_of_blt (h1 e' he'))
  unfold KV.seekPrefixGE
  rw [hk, Option.bind_some, hdrop _ s.sorted, prefixRun_eq hk _ (s.sorted.filter _) (fun e he => hs e (List.mem_filter.1 he).1)
    (fun e he => (List.mem_filter.1 he).2), List.filter_filter]
  congr 2
  funext e
  rw [Bool.and_comm]

/-- the theorem at the entries of group 5 in the test database -/
example := C98_seek (s := exDB) (by decide) (k := keyPrefix 7 1 [5]) (p := [7, 1, 0, 0, 0, 1, 5]) (by decide)

/-- C98 (for a table): the entries with the prefix of a bound are the index entries of the rows with that index value. -/
theorem C98_rows {t : Table T F} (wf : t.WF) {db : KV} {m : Rows T} (hH : Holds t db m) {idx : Index T} (hi : idx ∈ t.indexes) (p : T)
    (k : Bytes) :
    ((db.get k).isSome ∧ comparerPrefix k = comparerPrefix (keyPrefix t.id idx.id (idx.key p))) ↔
      ∃ x, Indexed t idx m x ∧ idx.key x = idx.key p ∧ k = t.indexKey idx x := by
  have hb : comparerPrefix (keyPrefix t.id idx.id (idx.key p)) = some (keyPrefix t.id idx.id (idx.key p)) :=
    comparerPrefix_eq ⟨_, _, _, wf.klen idx hi p, rfl, List.prefix_rfl⟩
  have hx : ∀ x, comparerPrefix (t.indexKey idx x) = some (keyPrefix t.id idx.id (idx.key x)) := fun x =>
    comparerPrefix_eq ⟨_, _, _, wf.klen idx hi x, rfl, ⟨_, by
      unfold Table.indexKey; rw [keyPrefix_eq, encodeIndexKey_eq]; simp only [List.append_assoc]; rfl⟩⟩
  rw [hb]
  constructor
  · rintro ⟨h1, h2⟩
    obtain ⟨v, hv⟩ := Option.isSome_iff_exists.1 h1
    have hin : InSpace t.id idx.id k := by
      obtain ⟨_, _, _, _, _, r, hr⟩ := framed_iff.2 h2
      rw [keyPrefix_eq] at hr
      exact ⟨_, hr.symm⟩
    obtain ⟨_, pk, x, hm, hf, hk⟩ := (hH.index idx hi k v hin).1 hv
    have hpk := hH.row_pk pk x hm
    subst hpk
    refine ⟨x, ⟨hm, hf⟩, ?_, hk⟩
    rw [hk, hx] at h2
    have h2 := Option.some.inj h2
    rw [keyPrefix_eq, keyPrefix_eq] at h2
    exact (List.append_inj h2 (by simp only [List.length_append, beBytes_length, List.length_cons, List.length_nil])).2
  · rintro ⟨x, ⟨hm, hf⟩, he, rfl⟩
    refine ⟨?_, by rw [hx, he]⟩
    have := (hH.index idx hi (t.indexKey idx x) [] (inSpace_indexKey t idx x)).2 ⟨rfl, t.pk x, x, hm, hf, rfl⟩
    rw [this]; rfl

/-- the index entries of group 5, read with SeekPrefixGE -/
example : (∀ e ∈ exDB.l, (comparerPrefix e.1).isSome) ∧
    exDB.seekPrefixGE (keyPrefix 7 1 [5]) = some [(exTable.indexKey exIndex (1, 5), [])] ∧
    LibraryKey (keyPrefix 7 1 [5]) := by
  refine ⟨by decide, by decide, .bound _ _ _ (by decide)⟩

/-- C98 is false for raw keys of a user (DB.Set, Batch.Set): on a key shorter than six bytes, or with a length beyond its end, Split
panics or is beyond the key; one such key among the entries is enough for SeekPrefixGE of a library key to panic. -/
theorem C98_refuted :
    comparerPrefix [1, 2, 3] = none ∧ keyPrefixSplit [8, 0, 0, 0, 1, 0, 9] = some 262 ∧ comparerPrefix [8, 0, 0, 0, 1, 0, 9] = none ∧
    (KV.empty.set [7, 2] [0]).seekPrefixGE (keyPrefix 7 1 [5]) = none := by
  decide

end Bond
