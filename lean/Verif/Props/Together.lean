import Verif.TogetherLemmas
import Verif.Props.Bloom
import Verif.Props.Writes
/-
Property C92: filters, tables, user keys and the version record in one database.
-/
namespace Bond
open Spec
variable {T F : Type}

/-! ## C92 Filters, tables and the database's own records stay apart

Full statement: several filters, tables, the version record and keys of the user in one database do not disturb each other:
what one of them stores is never changed by calls on another one. False for filters with the same key prefix, which is what
`NewBloomFilter` gives them by default, for prefixes of which one begins with the other, for tables with number 0, and for
filters with prefixes that are not keys of table 0. -/

/-- neither begins with the other -/
def Spec.Apart (p q : Bytes) : Prop := ¬ p <+: q ∧ ¬ q <+: p

theorem Spec.Apart.symm {p q : Bytes} (h : Apart p q) : Apart q p := ⟨h.2, h.1⟩

theorem apart_no_common {p q k : Bytes} (h : Apart p q) (hp : p <+: k) : ¬ q <+: k := by
  intro hq
  rcases Nat.le_total p.length q.length with hl | hl
  · exact h.1 (List.prefix_of_prefix_length_le hp hq hl)
  · exact h.2 (List.prefix_of_prefix_length_le hq hp hl)

theorem storeAfter_exists (s : FStore) (hs : ∃ db : KV, ∀ k, db.get k = s k) {ops : List WOp} {s' : FStore} (h : StoreAfter s ops s') :
    ∃ db : KV, ∀ k, db.get k = s' k := by
  obtain ⟨db, hd⟩ := hs
  exact ⟨_, h db hd⟩

theorem fcall_other {h : BloomHash} {c : BFCodec} {f : BloomFilter} {p : Bytes} (ha : Apart p f.keyPrefix) {s : FStore}
    (hs : ∃ db : KV, ∀ k, db.get k = s k) (call : FCall) : AgreeOn p (call.run h c f s).2.1 s := by
  obtain ⟨ops, h1, h2⟩ := call.run_writes h c f s
  obtain ⟨db, hd⟩ := hs
  intro k hk
  rw [← h2 db hd k, get_apply_of_not_touch db ops k (fun o ho ht => apart_no_common ha hk (h1 o ho k ht)), hd]

/-- C92 for filters with key prefixes of which none begins with another: in any sequence of calls on any number of filters,
every filter ends as it would if it were alone with the store, all its calls give the same results, and the same is stored
for it.
Missing for the full C92: see `C92_refuted_default`, `C92_refuted_related`, `C92_refuted_table0`, `C92_refuted_raw`. -/
theorem C92_filters_partial (h : BloomHash) (c : BFCodec) (db : KV) (fs : Nat → BloomFilter)
    (hp : ∀ i j, i ≠ j → Apart (fs i).keyPrefix (fs j).keyPrefix) (calls : List (Nat × FCall)) (i : Nat) :
    let all := runFilters h c fs db.get calls
    let alone := runFilter h c (fs i) db.get ((calls.filter (fun e => e.1 == i)).map Prod.snd)
    all.1 i = alone.1 ∧ (all.2.2.filter (fun e => e.1 == i)).map Prod.snd = alone.2.2 ∧
    ∀ k, (fs i).keyPrefix <+: k → all.2.1 k = alone.2.1 k := by
  have key : ∀ (calls : List (Nat × FCall)) (fs : Nat → BloomFilter) (s s' : FStore), (∃ db : KV, ∀ k, db.get k = s k) →
      (∀ i j, i ≠ j → Apart (fs i).keyPrefix (fs j).keyPrefix) → AgreeOn (fs i).keyPrefix s s' →
      let all := runFilters h c fs s calls
      let alone := runFilter h c (fs i) s' ((calls.filter (fun e => e.1 == i)).map Prod.snd)
      all.1 i = alone.1 ∧ (all.2.2.filter (fun e => e.1 == i)).map Prod.snd = alone.2.2 ∧ AgreeOn (fs i).keyPrefix all.2.1 alone.2.1 := by
    intro calls
    induction calls with
    | nil => intro fs s s' _ _ ha; exact ⟨rfl, rfl, ha⟩
    | cons e calls ih =>
      intro fs s s' hs hp ha
      obtain ⟨j, call⟩ := e
      have hs1 : ∃ db : KV, ∀ k, db.get k = (call.run h c (fs j) s).2.1 k := by
        obtain ⟨ops, _, h2⟩ := call.run_writes h c (fs j) s
        exact storeAfter_exists s hs h2
      have hpre : ∀ x, (if x = j then (call.run h c (fs j) s).1 else fs x).keyPrefix = (fs x).keyPrefix := by
        intro x
        split
        · rename_i e; rw [e]; exact call.run_keyPrefix h c _ _
        · rfl
      have hp1 : ∀ a b, a ≠ b → Apart ((fun x => if x = j then (call.run h c (fs j) s).1 else fs x) a).keyPrefix
          ((fun x => if x = j then (call.run h c (fs j) s).1 else fs x) b).keyPrefix := by
        intro a b hab
        simp only [hpre]
        exact hp a b hab
      by_cases hj : j = i
      · subst hj
        obtain ⟨a1, a2, a3⟩ := FCall.run_agree (h := h) (c := c) ha call
        have := ih (fun x => if x = j then (call.run h c (fs j) s).1 else fs x) _ (call.run h c (fs j) s').2.1 hs1 hp1
          (by simp only [if_true]; rw [call.run_keyPrefix]; exact a3)
        simp only [if_true] at this
        rw [call.run_keyPrefix] at this
        simp only [runFilters, List.filter_cons, beq_self_eq_true, if_true, List.map_cons, runFilter]
        rw [a1] at this
        refine ⟨?_, ?_, ?_⟩
        · rw [a1]; exact this.1
        · rw [a1, a2, this.2.1]
        · rw [a1]; exact this.2.2
      · have hne : (j == i) = false := by simpa using hj
        have hsame := fcall_other (h := h) (c := c) (hp i j (fun e => hj e.symm)) hs call
        have := ih (fun x => if x = j then (call.run h c (fs j) s).1 else fs x) _ s' hs1 hp1
          (by simp only [if_neg (fun e => hj (Eq.symm e) : ¬ i = j)]; intro k hk; rw [hsame k hk, ha k hk])
        simp only [if_neg (fun e => hj (Eq.symm e) : ¬ i = j)] at this
        simp only [runFilters, List.filter_cons, hne, Bool.false_eq_true, if_false]
        exact this
  exact key calls fs db.get db.get ⟨db, fun _ => rfl⟩ hp (fun _ _ => rfl)

example : Apart (defaultBloomPrefix ++ [1]) (defaultBloomPrefix ++ [2]) := by unfold Apart; decide

/-! ### Filters and tables -/

theorem outside_of_id {t : Table T F} {k : Bytes} {b : UInt8} (h : [b] <+: k) (hb : b ≠ t.id) : Outside t k := by
  obtain ⟨r, rfl⟩ := h
  refine ⟨?_, fun idx _ => ?_⟩
  · rintro ⟨r', e⟩
    simp only [List.cons_append, List.nil_append, List.cons.injEq] at e
    exact hb e.1
  · rintro ⟨r', e⟩
    simp only [List.cons_append, List.nil_append, List.cons.injEq] at e
    exact hb e.1

/-- C92 for tables with a number other than 0 and filters whose key prefix is a key of table 0 (as the default is): a call on the
filter that uses the database as its store changes no row and no index entry of the table, and nothing that does not begin with
the prefix. -/
theorem C92_tables {t : Table T F} (ht : t.id ≠ 0) {f : BloomFilter} (hf : [0] <+: f.keyPrefix) (h : BloomHash) (c : BFCodec)
    (db : KV) (call : FCall) :
    ∃ db' : KV, (∀ k, db'.get k = (call.run h c f db.get).2.1 k) ∧ SameInside t db db' ∧ (∀ m, Holds t db m → Holds t db' m) ∧
      ∀ k, ¬ f.keyPrefix <+: k → db'.get k = db.get k := by
  obtain ⟨ops, h1, h2⟩ := call.run_writes h c f db.get
  have hother : ∀ k, ¬ f.keyPrefix <+: k → (db.apply ops).get k = db.get k :=
    fun k hk => get_apply_of_not_touch db ops k (fun o ho ht => hk (h1 o ho k ht))
  have hin : SameInside t db (db.apply ops) :=
    fun k hk => hother k (fun hp => hk (outside_of_id (hf.trans hp) (fun e => ht e.symm)))
  exact ⟨db.apply ops, h2 db (fun _ => rfl), hin, fun m hm => hm.congr hin, hother⟩

/-- hypotheses of `C92_tables` and `C92_writes`: the example table and the default prefix -/
example : exTable.id ≠ 0 ∧ [0] <+: (BloomFilter.new 8 1 1 defaultBloomPrefix).keyPrefix := by decide

/-- C92 the other way round: after a write call on a table with a number other than 0, with any outcome, all calls on such a filter
do what they would have done before. -/
theorem C92_writes {t : Table T F} (ht : t.id ≠ 0) {env : Env T} (ok : env.OK t) {f : BloomFilter} (hf : [0] <+: f.keyPrefix)
    (h : BloomHash) (c : BFCodec) (db : KV) (filt : F) (ob : Option Batch) (wc : WCall T) (call : FCall) :
    let db' := (t.run env db filt ob wc).db
    (call.run h c f db'.get).1 = (call.run h c f db.get).1 ∧ (call.run h c f db'.get).2.2 = (call.run h c f db.get).2.2 ∧
    ∀ k, f.keyPrefix <+: k → (call.run h c f db'.get).2.1 k = (call.run h c f db.get).2.1 k := by
  intro db'
  have ha : AgreeOn f.keyPrefix db'.get db.get := by
    intro k hk
    exact (C22_outside ok db filt ob wc).1 k (outside_of_id (hf.trans hk) (fun e => ht e.symm))
  exact FCall.run_agree ha call

/-- a filter saved after a row was inserted -/
example : let db := (exTable.insert (stdEnv exTable) KV.empty () none [(1, 5)]).db
    let s := (FCall.save (fun _ => true)).run exHash exCodec (BloomFilter.new 8 1 1 defaultBloomPrefix) db.get
    s.2.2 = .ok ∧ (db.get (dataKey 7 [1])).isSome = true ∧ (s.2.1 (bloomNumKey defaultBloomPrefix)).isSome = true := by
  decide +kernel

/-- C92 for keys of the user and the version record: they belong to no table with a number other than 0, differ from each other,
and do not begin with the default prefix of filters. -/
theorem C92_keys (key : Bytes) (hk : key ≠ []) :
    newUserKey key ≠ bondDataVersionKey ∧ ¬ defaultBloomPrefix <+: newUserKey key ∧ ¬ defaultBloomPrefix <+: bondDataVersionKey ∧
    (∀ key', newUserKey key = newUserKey key' → key' ≠ [] → key = key') ∧
    ∀ (t : Table T F), t.id ≠ 0 → Outside t (newUserKey key) ∧ Outside t bondDataVersionKey := by
  have e : ∀ key : Bytes, key ≠ [] → newUserKey key = 0 :: 255 :: (beBytes 4 0 ++ (beBytes 4 0 ++ key)) := by
    intro key hk
    unfold newUserKey
    rw [keyEncode_eq _ (by simpa using hk), encodeIndexKey_eq]
    simp [bondDataTableID, bondUserSpaceIndexID]
  have ev : ∃ r, bondDataVersionKey = 0 :: 0 :: r := ⟨_, rfl⟩
  have ed : ∃ r, defaultBloomPrefix = 0 :: 0 :: r := ⟨_, rfl⟩
  refine ⟨?_, ?_, by decide, ?_, ?_⟩
  · obtain ⟨r, hr⟩ := ev
    rw [e key hk, hr]
    intro h; simp at h
  · obtain ⟨r, hr⟩ := ed
    rw [e key hk, hr, List.cons_prefix_cons, List.cons_prefix_cons]
    intro h; exact absurd h.2.1 (by decide)
  · intro key' h hk'
    rw [e key hk, e key' hk'] at h
    simpa using h
  · intro t ht
    refine ⟨outside_of_id (b := 0) ⟨255 :: (beBytes 4 0 ++ (beBytes 4 0 ++ key)), by rw [e key hk]; rfl⟩ (fun h => ht h.symm), ?_⟩
    obtain ⟨r, hr⟩ := ev
    exact outside_of_id (b := 0) ⟨0 :: r, by rw [hr]; rfl⟩ (fun h => ht h.symm)

/-! ### What is false -/

/-- as `exBloomTable`, table 8 -/
def exBloomTable8 : Table Rec BloomFilter := { exBloomTable with id := 8 }

/-- C92 is false for two filters made without giving a key prefix: two tables get one each, a row is inserted into each of them, both
filters are saved without error, first that of table 7. After reopening both are initialised without error, and the row of
table 7 is not found. -/
theorem C92_refuted_default :
    let f0 := BloomFilter.new 8 1 1 defaultBloomPrefix
    let w7 := exBloomTable.insert (stdEnv exBloomTable) KV.empty f0 none [(1, 5)]
    let w8 := exBloomTable8.insert (stdEnv exBloomTable8) w7.db f0 none [(2, 6)]
    let s7 := w7.filt.save exCodec (fun _ => true) w8.db.get
    let s8 := w8.filt.save exCodec (fun _ => true) s7.2.1
    let r7 := filterInitialize exHash exCodec true f0 s8.2.1 [⟨[dataKey 7 [1]], true⟩]
    w7.err = none ∧ w8.err = none ∧ s7.2.2 = .ok ∧ s8.2.2 = .ok ∧ r7.2.2 = .ok ∧
    (w8.db.get (dataKey 7 [1])).isSome = true ∧ exBloomTable.getOne w7.filt w8.db none (1, 0) = .ok [(1, 5)] ∧
    exBloomTable.getOne r7.1 w8.db none (1, 0) = .error .notFound := by
  decide +kernel

/-- C92 is false for a key prefix that begins with another one: "bf_" with 11 buckets and "bf_1" with one bucket. Bucket 10 of the
first and bucket 0 of the second are stored under the same key; after both are saved the first one loads without error and
denies a key that was added to it. -/
theorem C92_refuted_related :
    let a := (BloomFilter.new 8 1 11 defaultBloomPrefix).add exHash [10] |>.getD (BloomFilter.new 8 1 11 defaultBloomPrefix)
    let b := (BloomFilter.new 8 1 1 (defaultBloomPrefix ++ [49])).add exHash [3] |>.getD (BloomFilter.new 8 1 1 (defaultBloomPrefix ++ [49]))
    let s := a.save exCodec (fun _ => true) (fun _ => none)
    let s' := b.save exCodec (fun _ => true) s.2.1
    let r := (BloomFilter.new 8 1 11 defaultBloomPrefix).load exCodec s'.2.1
    a.mayContain exHash [10] = some true ∧ s.2.2 = .ok ∧ s'.2.2 = .ok ∧ r.2 = .ok ∧ r.1.mayContain exHash [10] = some false := by
  decide +kernel

/-- as `exTable`, table 0 -/
def exTable0 : Table Rec Unit := { exTable with id := 0 }

/-- a database as Open leaves it: only the version record, "1" (version.go:28-32) -/
def exOpened : KV := KV.empty.set bondDataVersionKey [49]

/-- C92 is false for tables with number 0, which NewTable accepts: a table with one row cannot be scanned, because the version record
is taken for a row of it. -/
theorem C92_refuted_table0 :
    let w := exTable0.insert (stdEnv exTable0) exOpened () none [(1, 5)]
    w.err = none ∧ exTable0.scan (stdEnv exTable0) () w.db none false 9 [] = some ⟨[(1, 5)], some .deser⟩ := by
  decide +kernel

/-- as `exTable`, table 98 with index 102 -/
def exTable98 : Table Rec Unit := { exTable with id := 98, indexes := [{ exIndex with id := 102 }] }

/-- C92 is false for filters with a key prefix that is not a key of table 0: with the prefix "bf_" the filter is stored among the entries
of index 102 of table 98. -/
theorem C92_refuted_raw :
    let f := BloomFilter.new 8 1 1 [98, 102, 95]
    (f.save exCodec (fun _ => true) KV.empty.get).2.2 = .ok ∧ Holds exTable98 KV.empty (fun _ => none) ∧
    ∀ db', (∀ k, db'.get k = (f.save exCodec (fun _ => true) KV.empty.get).2.1 k) → ¬ ∃ m, Holds exTable98 db' m := by
  refine ⟨by decide +kernel, holds_none (fun k _ => rfl), ?_⟩
  rintro db' hdb ⟨m, hm⟩
  have h1 : db'.get [98, 102, 95, 98, 110] = some (beBytes 8 1) := by
    rw [hdb]; decide +kernel
  have h2 := (hm.index { exIndex with id := 102 } (by simp [exTable98]) [98, 102, 95, 98, 110] (beBytes 8 1) ⟨_, rfl⟩).1 h1
  exact absurd h2.1 (by decide)

end Bond
