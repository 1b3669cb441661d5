import Verif.PrefetchLemmas
import Verif.IterLemmas
import Verif.SuccLemmas
/-
The rows visited by a scan.
-/
namespace Bond
open Spec
variable {T F σ : Type}

theorem Spec.IsIndex.klen {t : Table T F} (wf : t.WF) {idx : Index T} (h : IsIndex t idx) (x : T) : (idx.key x).length < 2 ^ 32 := by
  rcases h with h | rfl
  · exact wf.klen idx h x
  · simp [Table.primaryIndex]

theorem Spec.IsIndex.olen {t : Table T F} (wf : t.WF) {idx : Index T} (h : IsIndex t idx) (x : T) : (idx.ord x).length < 2 ^ 32 := by
  rcases h with h | rfl
  · exact wf.olen idx h x
  · simp [Table.primaryIndex]

theorem Spec.IsIndex.id {t : Table T F} (wf : t.WF) {idx : Index T} (h : IsIndex t idx) :
    (idx.id = primaryIndexID ∧ idx = t.primaryIndex) ∨ (idx.id ≠ primaryIndexID ∧ idx ∈ t.indexes) := by
  rcases h with h | rfl
  · exact Or.inr ⟨wf.nz idx h, h⟩
  · exact Or.inl ⟨rfl, rfl⟩

theorem indexKey_lt {t : Table T F} (wf : t.WF) {idx : Index T} (h : IsIndex t idx) (x y : T) :
    blt (t.indexKey idx x) (t.indexKey idx y) = true ↔ IdxLt t idx x y :=
  encodeIndexKey_lt t.id idx.id (h.klen wf x) (h.olen wf x) (h.klen wf y) (h.olen wf y)

theorem indexKey_le {t : Table T F} (wf : t.WF) {idx : Index T} (h : IsIndex t idx) (x y : T) :
    ble (t.indexKey idx x) (t.indexKey idx y) = true ↔ IdxLe t idx x y := by
  unfold IdxLe; rw [← indexKey_lt wf h]; simp [ble]

theorem indexKey_primary (t : Table T F) (x : T) : t.indexKey t.primaryIndex x = t.key x := by
  unfold Table.indexKey Table.key Table.primaryIndex
  rw [dataKey_eq_index]; rfl

theorem toDataKey_indexKey {t : Table T F} (wf : t.WF) {idx : Index T} (h : IsIndex t idx) (x : T) :
    toDataKeyBytes (t.indexKey idx x) = some (t.key x) := by
  unfold Table.indexKey Table.key
  rw [toDataKeyBytes_index _ _ _ _ _ _ (h.klen wf x) (h.olen wf x)]; rfl

theorem idxLt_trans {t : Table T F} (wf : t.WF) {idx : Index T} (h : IsIndex t idx) {x y z : T}
    (h1 : IdxLt t idx x y) (h2 : IdxLt t idx y z) : IdxLt t idx x z := by
  rw [← indexKey_lt wf h] at *; exact blt_trans h1 h2

theorem idxLt_irrefl {t : Table T F} (wf : t.WF) {idx : Index T} (h : IsIndex t idx) (x : T) : ¬ IdxLt t idx x x := by
  rw [← indexKey_lt wf h, blt_irrefl]; simp

theorem Spec.IsRows.unique {t : Table T F} (wf : t.WF) {idx : Index T} (h : IsIndex t idx) {m : Rows T} {P : T → Prop}
    {a b : List T} (ha : IsRows t idx m P a) (hb : IsRows t idx m P b) : a = b := by
  have nd : ∀ l : List T, l.Pairwise (IdxLt t idx) → l.Nodup := fun l hl => hl.imp (fun {x y} hxy e => by
    subst e; exact idxLt_irrefl wf h x hxy)
  have hp : a.Perm b := (List.perm_ext_iff_of_nodup (nd a ha.1) (nd b hb.1)).2 (fun x => by rw [ha.2, hb.2])
  exact hp.eq_of_pairwise (fun x y _ _ h1 h2 => absurd (idxLt_trans wf h h1 h2) (idxLt_irrefl wf h x)) ha.1 hb.1

/-- the database entry of a row in an index -/
def entryOf (t : Table T F) (idx : Index T) (x : T) : Bytes × Bytes :=
  (t.indexKey idx x, if idx.id = primaryIndexID then (t.ser x).getD [] else [])

theorem exists_map_of_forall {α β : Type} (g : β → α) (P : β → Prop) (l : List α) (h : ∀ a ∈ l, ∃ b, a = g b ∧ P b) :
    ∃ bs : List β, l = bs.map g ∧ ∀ b ∈ bs, P b := by
  induction l with
  | nil => exact ⟨[], rfl, by simp⟩
  | cons a l ih =>
    obtain ⟨b, hb, hP⟩ := h a (by simp)
    obtain ⟨bs, hbs, hPs⟩ := ih (fun a ha => h a (by simp [ha]))
    exact ⟨b :: bs, by rw [hb, hbs]; rfl, by simpa using ⟨hP, hPs⟩⟩

theorem mem_entries {t : Table T F} (wf : t.WF) {idx : Index T} (hi : IsIndex t idx) {V : KV} {m : Rows T}
    (hH : Holds t V m) {k v : Bytes} (hs : InSpace t.id idx.id k) :
    V.get k = some v ↔ ∃ x, (k, v) = entryOf t idx x ∧ Indexed t idx m x := by
  rcases hi.id wf with ⟨hid, rfl⟩ | ⟨hid, hmem⟩
  · constructor
    · intro hg
      obtain ⟨pk, rfl⟩ := hH.only_data k v hg hs
      cases hm : m pk with
      | none => rw [hH.absent pk hm] at hg; simp at hg
      | some x =>
        obtain ⟨b, hb, hg'⟩ := hH.present pk x hm
        have hpk := hH.row_pk pk x hm
        refine ⟨x, ?_, by rw [hpk]; exact hm, rfl⟩
        rw [hg'] at hg; simp at hg
        unfold entryOf
        rw [if_pos hid, hb, indexKey_primary, Table.key, hpk, ← hg]; rfl
    · rintro ⟨x, he, hm, _⟩
      unfold entryOf at he
      rw [if_pos hid, indexKey_primary] at he
      obtain ⟨b, hb, hg⟩ := hH.present _ x hm
      rw [hb] at he
      simp only [Prod.mk.injEq] at he
      rw [he.1, he.2]; exact hg
  · rw [hH.index idx hmem k v hs]
    constructor
    · rintro ⟨rfl, pk, x, hm, hf, rfl⟩
      exact ⟨x, by unfold entryOf; rw [if_neg hid], by rw [hH.row_pk pk x hm]; exact hm, hf⟩
    · rintro ⟨x, he, hm, hf⟩
      unfold entryOf at he
      rw [if_neg hid] at he
      simp only [Prod.mk.injEq] at he
      exact ⟨he.2, _, x, hm, hf, he.1⟩

/-- bounds that stay inside the key space of an index -/
def InBounds (t : Table T F) (idx : Index T) (b : Bytes × Bytes) : Prop :=
  ∀ k, ble b.1 k = true → blt k b.2 = true → InSpace t.id idx.id k

/-- the entries between two bounds are those of the rows between them -/
theorem scan_rows {t : Table T F} (wf : t.WF) {idx : Index T} (hi : IsIndex t idx) {V : KV} {m : Rows T} (hH : Holds t V m)
    {b : Bytes × Bytes} (hb : InBounds t idx b) :
    ∃ rows, V.scan b.1 b.2 = rows.map (entryOf t idx) ∧
      IsRows t idx m (fun x => ble b.1 (t.indexKey idx x) = true ∧ blt (t.indexKey idx x) b.2 = true) rows := by
  obtain ⟨rows, hrows, hmem⟩ := exists_map_of_forall (entryOf t idx) (Indexed t idx m) (V.scan b.1 b.2) (by
    rintro ⟨k, v⟩ hkv
    rw [KV.mem_scan] at hkv
    exact (mem_entries wf hi hH (hb k hkv.2.1 hkv.2.2)).1 hkv.1)
  refine ⟨rows, hrows, ?_, ?_⟩
  · have hs := KV.scan_sorted V b.1 b.2
    rw [hrows] at hs
    unfold SortedKV at hs
    rw [List.pairwise_map] at hs
    exact hs.imp (fun h => (indexKey_lt wf hi _ _).1 h)
  · intro x
    constructor
    · intro hx
      have he : entryOf t idx x ∈ V.scan b.1 b.2 := by rw [hrows]; exact List.mem_map_of_mem hx
      have := (KV.mem_scan V b.1 b.2 _ _).1 he
      exact ⟨hmem x hx, this.2⟩
    · rintro ⟨hx, h1, h2⟩
      have he : entryOf t idx x ∈ V.scan b.1 b.2 := by
        rw [show entryOf t idx x = ((entryOf t idx x).1, (entryOf t idx x).2) from rfl, KV.mem_scan]
        exact ⟨(mem_entries wf hi hH (hb _ h1 h2)).2 ⟨x, rfl, hx⟩, h1, h2⟩
      rw [hrows, List.mem_map] at he
      obtain ⟨y, hy, hxy⟩ := he
      have hk : t.indexKey idx y = t.indexKey idx x := congrArg Prod.fst hxy
      have hpk : t.pk y = t.pk x := (encodeIndexKey_inj (hi.klen wf y) (hi.olen wf y) (hi.klen wf x) (hi.olen wf x) hk).2.2.2.2
      have h1 := (hmem y hy).1
      rw [hpk, hx.1] at h1
      simp at h1
      rw [h1]; exact hy

/-- condition expressed by bounds -/
def BoundP (t : Table T F) (idx : Index T) (b : Bytes × Bytes) : T → Prop :=
  fun x => ble b.1 (t.indexKey idx x) = true ∧ blt (t.indexKey idx x) b.2 = true

theorem scan_parts {t : Table T F} (wf : t.WF) {idx : Index T} (hi : IsIndex t idx) {V : KV} {m : Rows T} (hH : Holds t V m)
    (bs : List (Bytes × Bytes)) (hb : ∀ b ∈ bs, InBounds t idx b) :
    ∃ parts, bs.map (fun b => V.scan b.1 b.2) = parts.map (fun rows => rows.map (entryOf t idx)) ∧
      IsParts t idx m (bs.map (BoundP t idx)) parts := by
  induction bs with
  | nil => exact ⟨[], rfl, .nil⟩
  | cons b bs ih =>
    obtain ⟨parts, h1, h2⟩ := ih (fun b' hb' => hb b' (by simp [hb']))
    obtain ⟨rows, h3, h4⟩ := scan_rows wf hi hH (hb b (by simp))
    exact ⟨rows :: parts, by simp [h1, h3], .cons h4 h2⟩

theorem Spec.IsParts.indexed {t : Table T F} {idx : Index T} {m : Rows T} {Ps : List (T → Prop)} {parts : List (List T)}
    (h : IsParts t idx m Ps parts) : ∀ x ∈ parts.flatten, Indexed t idx m x := by
  induction h with
  | nil => simp
  | cons h1 _ ih =>
    intro x hx
    rw [List.flatten_cons, List.mem_append] at hx
    rcases hx with hx | hx
    · exact ((h1.2 x).1 hx).1
    · exact ih x hx

theorem Spec.IsParts.unique {t : Table T F} (wf : t.WF) {idx : Index T} (hi : IsIndex t idx) {m : Rows T} {Ps : List (T → Prop)}
    {a b : List (List T)} (ha : IsParts t idx m Ps a) (hb : IsParts t idx m Ps b) : a = b := by
  induction ha generalizing b with
  | nil => cases hb; rfl
  | cons h _ ih =>
    cases hb with
    | cons h' hb' => rw [IsRows.unique wf hi h h', ih hb']

theorem walk_map (t : Table T F) (idx : Index T) (parts : List (List T)) (reverse : Bool) :
    walk (parts.map (fun rows => rows.map (entryOf t idx))) reverse = (dir reverse parts.flatten).map (entryOf t idx) := by
  unfold walk dir
  have : (parts.map (fun rows => rows.map (entryOf t idx))).flatten = parts.flatten.map (entryOf t idx) := by
    rw [List.map_flatten]
  rw [this]
  cases reverse <;> simp

theorem mem_dir {α : Type} (reverse : Bool) (l : List α) (x : α) : x ∈ dir reverse l ↔ x ∈ l := by
  unfold dir; cases reverse <;> simp

theorem length_dir {α : Type} (reverse : Bool) (l : List α) : (dir reverse l).length = l.length := by
  unfold dir; cases reverse <;> simp

/-- the primary scan calls the callback once per entry -/
theorem scanPrimaryLoop_eq {t : Table T F} (rt : t.RoundTripFresh) {done : Nat → Bool} (hd : ∀ n, done n = false)
    (f : σ → Bytes → Cb σ T) (rows : List T) (hser : ∀ x ∈ rows, (t.ser x).isSome) (clock : Nat) (s : σ) :
    t.scanPrimaryLoop done f (rows.map (entryOf t t.primaryIndex)) clock s = runRows f (seen t t.primaryIndex rows) s := by
  induction rows generalizing clock s with
  | nil => rfl
  | cons x rows ih =>
    obtain ⟨b, hb⟩ := Option.isSome_iff_exists.1 (hser x (by simp))
    have hdec : t.decode ((t.ser x).getD []) = .ok x := by
      rw [hb]; simp only [Option.getD_some, Table.decode, rt x b hb]
    have hent : entryOf t t.primaryIndex x = (t.indexKey t.primaryIndex x, (t.ser x).getD []) := by
      simp [entryOf, Table.primaryIndex]
    rw [List.map_cons, hent, Table.scanPrimaryLoop]
    simp only [hd, Bool.false_eq_true, if_false, hdec]
    simp only [seen, List.map_cons, runRows]
    split
    · rfl
    · exact ih (fun y hy => hser y (by simp [hy])) _ _

/-- every scan calls the callback once per selected row, in order -/
theorem scanIndexForEach_eq {t : Table T F} (wf : t.WF) (rt : t.RoundTripFresh) {env : Env T} (ok : env.OK t)
    (hd : ∀ n, env.done n = false) {filt : F} {view : σ → KV × Option Batch} (hp : 0 < t.prefetch) {idx : Index T}
    (hi : IsIndex t idx) {V : KV} {m : Rows T} (hH : Holds t V m) {sel : Selector T} {bs : List (Bytes × Bytes)}
    (hsel : t.iterBounds idx sel = some bs) (hb : ∀ b ∈ bs, InBounds t idx b) {f : σ → Bytes → Cb σ T}
    {s : σ} (hr : readable (view s).1 (view s).2 = some V) {reverse : Bool}
    {parts : List (List T)} (hparts : IsParts t idx m (bs.map (BoundP t idx)) parts)
    {fetched : σ → Prop} {inv : List (Bytes × T) → σ → Prop}
    (hcb : idx.id = primaryIndexID ∨ (FetchesAll f fetched ∧ KeepsRows t filt view f inv ∧
      inv (seen t idx (dir reverse parts.flatten)) s)) {fuel : Nat} (hfuel : parts.flatten.length ≤ fuel) :
    t.scanIndexForEach env filt view idx sel f reverse fuel s = some (runRows f (seen t idx (dir reverse parts.flatten)) s) := by
  obtain ⟨parts', h1, h2⟩ := scan_parts wf hi hH bs hb
  have huniq : parts' = parts := h2.unique wf hi hparts
  subst huniq
  unfold Table.scanIndexForEach Table.iterParts
  rw [hsel]
  have hents : bs.map (fun b => iterEntries (view s).1 (view s).2 b.1 b.2) = parts'.map (fun rows => rows.map (entryOf t idx)) := by
    rw [← h1]; unfold iterEntries; rw [hr]
  simp only [Option.map_some, hents, walk_map]
  have hser : ∀ x ∈ dir reverse parts'.flatten, (t.ser x).isSome := by
    intro x hx
    rw [mem_dir] at hx
    obtain ⟨b, hb, _⟩ := hH.present _ x (h2.indexed x hx).1
    simp [hb]
  rcases hi.id wf with ⟨hid, rfl⟩ | ⟨hid, hmem⟩
  · rw [if_pos hid, scanPrimaryLoop_eq rt hd f _ hser]
  · rw [if_neg hid]
    rcases hcb with h | ⟨hf, hk, hinv⟩
    · exact absurd h hid
    have hent : (dir reverse parts'.flatten).map (entryOf t idx) =
        (seen t idx (dir reverse parts'.flatten)).map (fun r => (r.1, (fun _ => []) r)) := by
      unfold seen
      rw [List.map_map]
      apply List.map_congr_left
      intro x _
      simp [entryOf, hid]
    rw [hent]
    apply outerLoop_eq rt ok hd hp hf hk (fun _ => []) fuel fuel (seen t idx (dir reverse parts'.flatten)) _ 0 s hinv
    · simp [seen, length_dir]; simpa using hfuel
    · simp [seen, length_dir]; simpa using hfuel
    · intro r hr'
      obtain ⟨x, _, rfl⟩ := List.mem_map.1 hr'
      exact toDataKey_indexKey wf hi x

/-- a callback that does not change the database keeps all rows readable -/
theorem keeps_const {t : Table T F} {filt : F} {db : KV} {ob : Option Batch} (f : σ → Bytes → Cb σ T) :
    KeepsRows t filt (fun _ => (db, ob)) f (fun rows _ => ∀ s : σ, Sees t filt (fun _ => (db, ob)) s rows) where
  sees := fun _ _ _ _ s0 _ h _ => h s0
  step := fun _ _ _ _ h _ s r hr => h s r (by simp [hr])

theorem sees_of_holds {t : Table T F} {filt : F} {db V : KV} {ob : Option Batch} (hr : readable db ob = some V)
    {m : Rows T} (hH : Holds t V m) (hF : FilterCovers t filt m) {idx : Index T} {l : List T}
    (h : ∀ x ∈ l, Indexed t idx m x) (s : σ) : Sees t filt (fun _ => (db, ob)) s (seen t idx l) := by
  intro r hr'
  obtain ⟨x, hx, rfl⟩ := List.mem_map.1 hr'
  have hm := (h x hx).1
  obtain ⟨b, hb, hg⟩ := hH.present _ x hm
  exact ⟨b, hb, by simp only [Table.key]; rw [lookup_eq hr hH hF]; exact hg⟩

theorem scanIndexCb_fetches : FetchesAll (scanIndexCb (T := T)) (fun _ => True) where
  once := by
    intro s k; right
    refine ⟨s, _, rfl, ?_⟩
    intro r; cases r
    · exact ⟨_, _, _, rfl⟩
    · exact ⟨_, _, _, rfl⟩
  after := by
    intro s k _
    refine ⟨s, _, rfl, ?_⟩
    intro r; cases r
    · exact ⟨_, _, _, rfl⟩
    · exact ⟨_, _, _, rfl⟩
  stays := fun _ _ _ _ _ => trivial

theorem runRows_scanIndexCb (rows : List (Bytes × T)) (tr : List T) :
    runRows scanIndexCb rows tr = ⟨tr ++ rows.map Prod.snd, none⟩ := by
  induction rows generalizing tr with
  | nil => simp [runRows]
  | cons r rows ih =>
    obtain ⟨k, x⟩ := r
    rw [runRows_cons_go (s' := tr ++ [x]) (cont := true) (err := none) rfl (by simp), ih]
    simp

theorem seen_snd (t : Table T F) (idx : Index T) (rows : List T) : (seen t idx rows).map Prod.snd = rows := by
  unfold seen; rw [List.map_map]; exact List.map_id rows

/-- scans that do not write: the rows visited -/
theorem scanConst_eq {t : Table T F} (wf : t.WF) (rt : t.RoundTripFresh) {env : Env T} (ok : env.OK t)
    (hd : ∀ n, env.done n = false) {filt : F} (hp : 0 < t.prefetch) {idx : Index T}
    (hi : IsIndex t idx) {db V : KV} {ob : Option Batch} (hr : readable db ob = some V) {m : Rows T} (hH : Holds t V m)
    (hF : FilterCovers t filt m) {sel : Selector T} {bs : List (Bytes × Bytes)}
    (hsel : t.iterBounds idx sel = some bs) (hb : ∀ b ∈ bs, InBounds t idx b) {f : σ → Bytes → Cb σ T}
    {fetched : σ → Prop} (hf : idx.id = primaryIndexID ∨ FetchesAll f fetched)
    {parts : List (List T)} (hparts : IsParts t idx m (bs.map (BoundP t idx)) parts)
    (reverse : Bool) (s : σ) {fuel : Nat} (hfuel : parts.flatten.length ≤ fuel) :
    t.scanIndexForEach env filt (fun _ => (db, ob)) idx sel f reverse fuel s =
      some (runRows f (seen t idx (dir reverse parts.flatten)) s) := by
  apply scanIndexForEach_eq wf rt ok hd hp hi hH hsel hb hr hparts (fetched := fetched)
    (inv := fun rows _ => ∀ s : σ, Sees t filt (fun _ => (db, ob)) s rows) _ hfuel
  rcases hf with h | hf
  · exact Or.inl h
  · right
    refine ⟨hf, keeps_const f, ?_⟩
    intro s
    exact sees_of_holds hr hH hF (fun x hx => hparts.indexed x ((mem_dir _ _ _).1 hx)) s

theorem scanIndex_eq {t : Table T F} (wf : t.WF) (rt : t.RoundTripFresh) {env : Env T} (ok : env.OK t)
    (hd : ∀ n, env.done n = false) {filt : F} (hp : 0 < t.prefetch) {idx : Index T}
    (hi : IsIndex t idx) {db V : KV} {ob : Option Batch} (hr : readable db ob = some V) {m : Rows T} (hH : Holds t V m)
    (hF : FilterCovers t filt m) {sel : Selector T} {bs : List (Bytes × Bytes)}
    (hsel : t.iterBounds idx sel = some bs) (hb : ∀ b ∈ bs, InBounds t idx b)
    {parts : List (List T)} (hparts : IsParts t idx m (bs.map (BoundP t idx)) parts)
    (reverse : Bool) (tr : List T) {fuel : Nat} (hfuel : parts.flatten.length ≤ fuel) :
    t.scanIndex env filt db ob idx sel reverse fuel tr = some ⟨tr ++ dir reverse parts.flatten, none⟩ := by
  unfold Table.scanIndex
  rw [scanConst_eq wf rt ok hd hp hi hr hH hF hsel hb (Or.inr scanIndexCb_fetches) hparts reverse tr hfuel,
    runRows_scanIndexCb, seen_snd]

/-! ### bounds of selectors -/

theorem split_indexKey {t : Table T F} (wf : t.WF) {idx : Index T} (hi : IsIndex t idx) (p : T) :
    keyPrefixSplit (t.indexKey idx p) = some (6 + (idx.key p).length) ∧
    slice (t.indexKey idx p) 0 (6 + (idx.key p).length) = some (keyPrefix t.id idx.id (idx.key p)) := by
  have hk : t.indexKey idx p = [t.id, idx.id] ++ beBytes 4 (idx.key p).length ++
      (idx.key p ++ (beBytes 4 (idx.ord p).length ++ (idx.ord p ++ t.pk p))) := by
    unfold Table.indexKey; rw [encodeIndexKey_eq]; simp only [List.append_assoc]
  have hk2 : t.indexKey idx p = [] ++ keyPrefix t.id idx.id (idx.key p) ++ (beBytes 4 (idx.ord p).length ++ (idx.ord p ++ t.pk p)) := by
    rw [hk, keyPrefix_eq]; simp only [List.append_assoc, List.nil_append]
  constructor
  · unfold keyPrefixSplit
    have s1 : slice (t.indexKey idx p) 2 6 = some (beBytes 4 (idx.key p).length) := by
      rw [hk]; exact slice_mid' _ _ _ _ _ rfl (by rw [beBytes_length]; rfl)
    rw [s1, Option.map_some, beNat_beBytes4 (hi.klen wf p)]
  · rw [hk2]
    apply slice_mid' _ _ _ _ _ rfl
    rw [keyPrefix_eq]; simp; omega

theorem pointBounds_eq {t : Table T F} (wf : t.WF) {idx : Index T} (hi : IsIndex t idx) (p : T) :
    t.pointBounds idx p = some (t.indexKey idx p, keySuccessor (keyPrefix t.id idx.id (idx.key p))) := by
  unfold Table.pointBounds
  simp [(split_indexKey wf hi p).1, (split_indexKey wf hi p).2]

theorem indexKey_prefix (t : Table T F) (idx : Index T) (x : T) :
    t.indexKey idx x = keyPrefix t.id idx.id (idx.key x) ++ (beBytes 4 (idx.ord x).length ++ (idx.ord x ++ t.pk x)) := by
  unfold Table.indexKey; rw [encodeIndexKey_eq, keyPrefix_eq]; simp only [List.append_assoc]

/-- bounds between two keys of one space stay in it -/
theorem inBounds_of {t : Table T F} {idx : Index T} {lo hi : Bytes} (h1 : InSpace t.id idx.id lo) (h2 : InSpace t.id idx.id hi) :
    InBounds t idx (lo, hi) := fun _ ha hb => C09_contiguous h1 h2 ha (ble_of_blt hb)

theorem pointBounds_in {t : Table T F} {idx : Index T} (p : T)
    (hl : (idx.key p).length < 2 ^ 32 - 1) :
    InBounds t idx (t.indexKey idx p, keySuccessor (keyPrefix t.id idx.id (idx.key p))) := by
  apply inBounds_of (inSpace_indexKey t idx p)
  obtain ⟨r, hr⟩ := keySuccessor_keyPrefix t.id idx.id (idx.key p) hl
  exact ⟨r, hr⟩

theorem any_ne_of_keyPrefix {t i : UInt8} {k : Bytes} (hl : k.length < 2 ^ 32 - 1) : (keyPrefix t i k).any (· != 0xFF) = true := by
  apply Classical.byContradiction
  intro hc
  have hall : ∀ x ∈ keyPrefix t i k, x = 0xFF := by
    intro x hx
    apply Classical.byContradiction
    intro hne
    exact hc (List.any_eq_true.2 ⟨x, hx, by simpa using hne⟩)
  have e : beBytes 4 k.length = [0xFF, 0xFF, 0xFF, 0xFF] := by
    have hl : (beBytes 4 k.length).length = 4 := beBytes_length _ _
    have hall : ∀ x ∈ beBytes 4 k.length, x = 0xFF := fun x hx => hall x (by rw [keyPrefix_eq]; simp [hx])
    revert hl hall
    generalize beBytes 4 k.length = l
    intro hl hall
    match l, hl with
    | [a, b, c, d], _ => simp at hall; simp [hall]
  have := beNat_beBytes4 (v := k.length) (by omega)
  rw [e] at this
  have h2 : beNat [0xFF, 0xFF, 0xFF, 0xFF] = 2 ^ 32 - 1 := by decide
  omega

/-- a row with the index value of the point lies below the upper bound -/
theorem point_upper {t : Table T F} {idx : Index T} {p x : T} (hl : (idx.key p).length < 2 ^ 32 - 1)
    (h : idx.key x = idx.key p) : blt (t.indexKey idx x) (keySuccessor (keyPrefix t.id idx.id (idx.key p))) = true := by
  rw [indexKey_prefix, h]
  exact lt_keySuccessor _ _ (any_ne_of_keyPrefix hl)

theorem ble_prefix_indexKey (t : Table T F) (idx : Index T) (p : T) :
    ble (keyPrefix t.id idx.id (idx.key p)) (t.indexKey idx p) = true := by
  rw [indexKey_prefix]; exact ble_append_right_self _ _

theorem keyPrefix_snoc (t i : UInt8) {k : Bytes} (h : NoTrailingFF k) (hl : k.length < 2 ^ 32 - 1) :
    ∃ a b, keyPrefix t i k = a ++ [b] ∧ b ≠ 0xFF := by
  cases hk : k.getLast? with
  | none =>
    have : k = [] := by simpa using hk
    subst this
    exact ⟨[t, i, 0, 0, 0], 0, by rw [keyPrefix_eq]; simp [beBytes4_zero], by decide⟩
  | some b =>
    obtain ⟨a, rfl⟩ := List.getLast?_eq_some_iff.1 hk
    refine ⟨[t, i] ++ beBytes 4 (a ++ [b]).length ++ a, b, by rw [keyPrefix_eq]; simp, ?_⟩
    intro e; subst e; exact h hk

/-- a row between the bounds of a point has the index value of the point (unless that ends with 0xFF) -/
theorem point_only {t : Table T F} (wf : t.WF) {idx : Index T} (hi : IsIndex t idx) {p x : T}
    (hn : NoTrailingFF (idx.key p)) (hl : (idx.key p).length < 2 ^ 32 - 1)
    (h1 : ble (t.indexKey idx p) (t.indexKey idx x) = true)
    (h2 : blt (t.indexKey idx x) (keySuccessor (keyPrefix t.id idx.id (idx.key p))) = true) : idx.key x = idx.key p := by
  obtain ⟨a, b, hab, hb⟩ := keyPrefix_snoc t.id idx.id hn hl
  have h1' := ble_trans (ble_prefix_indexKey t idx p) h1
  rw [hab] at h1' h2
  obtain ⟨r, hr⟩ := (between_succ hb _).1 ⟨h1', h2⟩
  rw [← hab, indexKey_prefix, keyPrefix_eq, keyPrefix_eq] at hr
  have e1 : [t.id, idx.id] ++ (beBytes 4 (idx.key x).length ++ (idx.key x ++ (beBytes 4 (idx.ord x).length ++ (idx.ord x ++ t.pk x)))) =
      [t.id, idx.id] ++ (beBytes 4 (idx.key p).length ++ (idx.key p ++ r)) := by
    simpa only [List.append_assoc] using hr
  have e2 := List.append_inj (List.append_cancel_left e1) (by simp)
  have e3 := beBytes_inj (n := 4) (hi.klen wf x) (hi.klen wf p) e2.1
  exact (List.append_inj e2.2 e3).1

/-! ### every accepted selector -/

theorem rangeBounds_in {t : Table T F} {idx : Index T} (lo hi : T) (hl : (idx.key hi).length < 2 ^ 32 - 1) :
    InBounds t idx (t.rangeBounds idx lo hi) := by
  apply inBounds_of (inSpace_indexKey t idx lo)
  have hk : t.indexKey idx hi = [t.id, idx.id] ++ (beBytes 4 (idx.key hi).length ++
      (idx.key hi ++ (beBytes 4 (idx.ord hi).length ++ (idx.ord hi ++ t.pk hi)))) := by
    rw [indexKey_prefix, keyPrefix_eq]; simp only [List.append_assoc]
  have hany : (beBytes 4 (idx.key hi).length ++
      (idx.key hi ++ (beBytes 4 (idx.ord hi).length ++ (idx.ord hi ++ t.pk hi)))).any (· != 0xFF) = true := by
    rw [List.any_append, Bool.or_eq_true]
    left
    apply Classical.byContradiction
    intro hc
    have hall : ∀ x ∈ beBytes 4 (idx.key hi).length, x = 0xFF := by
      intro x hx
      apply Classical.byContradiction
      intro hne
      exact hc (List.any_eq_true.2 ⟨x, hx, by simpa using hne⟩)
    have e : beBytes 4 (idx.key hi).length = [0xFF, 0xFF, 0xFF, 0xFF] := by
      have hl : (beBytes 4 (idx.key hi).length).length = 4 := beBytes_length _ _
      revert hl hall
      generalize beBytes 4 (idx.key hi).length = l
      intro hall hl
      match l, hl with
      | [a, b, c, d], _ => simp at hall; simp [hall]
    have := beNat_beBytes4 (v := (idx.key hi).length) (by omega)
    rw [e] at this
    have h2 : beNat [0xFF, 0xFF, 0xFF, 0xFF] = 2 ^ 32 - 1 := by decide
    omega
  rw [hk, keySuccessor_append _ hany]
  exact ⟨_, rfl⟩

theorem lt_succ_indexKey {t : Table T F} {idx : Index T} (hi : T) (hl : (idx.key hi).length < 2 ^ 32 - 1) (x : Bytes) :
    blt (t.indexKey idx hi ++ x) (keySuccessor (t.indexKey idx hi)) = true := by
  apply lt_keySuccessor
  rw [indexKey_prefix, List.any_append, any_ne_of_keyPrefix hl]; rfl

theorem pointsBounds_eq {t : Table T F} (wf : t.WF) {idx : Index T} (hi : IsIndex t idx) (p : T) :
    t.pointsBounds idx p = some (if idx.id = primaryIndexID then t.rangeBounds idx p p else
      (t.indexKey idx p, keySuccessor (keyPrefix t.id idx.id (idx.key p)))) := by
  unfold Table.pointsBounds
  rw [pointBounds_eq wf hi]
  simp only [Option.bind_eq_bind, Option.bind_some]
  split <;> rfl

theorem mapM_some {α β : Type} (g : α → Option β) (h : α → β) (l : List α) (hg : ∀ a, g a = some (h a)) :
    l.mapM g = some (l.map h) := by
  induction l with
  | nil => rfl
  | cons a l ih => rw [List.mapM_cons, hg a, ih]; rfl

/-- bounds of all the parts of an accepted selector -/
def boundsOf (t : Table T F) (idx : Index T) : Selector T → List (Bytes × Bytes)
  | .point p => [(t.indexKey idx p, keySuccessor (keyPrefix t.id idx.id (idx.key p)))]
  | .points ps => ps.map (fun p => if idx.id = primaryIndexID then t.rangeBounds idx p p else
      (t.indexKey idx p, keySuccessor (keyPrefix t.id idx.id (idx.key p))))
  | .range lo hi => [t.rangeBounds idx lo hi]
  | .ranges rs => rs.map (fun r => t.rangeBounds idx r.1 r.2)

theorem iterBounds_eq {t : Table T F} (wf : t.WF) {idx : Index T} (hi : IsIndex t idx) {sel : Selector T} (hs : sel.OK idx) :
    t.iterBounds idx sel = some (boundsOf t idx sel) ∧ ∀ b ∈ boundsOf t idx sel, InBounds t idx b := by
  obtain ⟨hne, hl⟩ := hs
  cases sel with
  | point p =>
    refine ⟨by rw [Table.iterBounds, pointBounds_eq wf hi]; rfl, ?_⟩
    intro b hb
    simp only [boundsOf, List.mem_singleton] at hb
    subst hb
    exact pointBounds_in p (hl p (by simp [Selector.elems]))
  | points ps =>
    refine ⟨?_, ?_⟩
    · rw [Table.iterBounds, if_neg (by simpa [Selector.elems] using hne), mapM_some _ _ ps (pointsBounds_eq wf hi)]; rfl
    · intro b hb
      simp only [boundsOf, List.mem_map] at hb
      obtain ⟨p, hp, rfl⟩ := hb
      have := hl p (by simpa [Selector.elems] using hp)
      split
      · exact rangeBounds_in p p this
      · exact pointBounds_in p this
  | range lo hi' =>
    refine ⟨rfl, ?_⟩
    intro b hb
    simp only [boundsOf, List.mem_singleton] at hb
    subst hb
    exact rangeBounds_in lo hi' (hl hi' (by simp [Selector.elems]))
  | ranges rs =>
    have hrs : rs ≠ [] := by intro e; subst e; simp [Selector.elems] at hne
    refine ⟨by rw [Table.iterBounds, if_neg hrs]; rfl, ?_⟩
    intro b hb
    simp only [boundsOf, List.mem_map] at hb
    obtain ⟨r, hr, rfl⟩ := hb
    refine rangeBounds_in r.1 r.2 (hl r.2 ?_)
    simp only [Selector.elems, List.mem_flatMap]
    exact ⟨r, hr, by simp⟩

theorem Setting.parts {t : Table T F} {env : Env T} {filt : F} {db : KV} {ob : Option Batch} {m : Rows T}
    (S : Setting t env filt db ob m) {idx : Index T} (hi : IsIndex t idx) {sel : Selector T} (hs : sel.OK idx) :
    ∃ parts, IsParts t idx m ((boundsOf t idx sel).map (BoundP t idx)) parts ∧
      (∀ reverse, Yields t env filt db ob idx sel reverse (dir reverse parts.flatten)) ∧
      ∀ {σ : Type} (reverse : Bool) (f : σ → Bytes → Cb σ T) (fetched : σ → Prop), (idx.id = primaryIndexID ∨ FetchesAll f fetched) →
        Visits t env filt db ob idx sel reverse f (dir reverse parts.flatten) := by
  obtain ⟨V, hr, hH⟩ := S.content
  obtain ⟨h1, h2⟩ := iterBounds_eq S.wf hi hs
  obtain ⟨parts, _, hp⟩ := scan_parts S.wf hi hH _ h2
  refine ⟨parts, hp, ?_, ?_⟩
  · intro reverse
    exact ⟨parts.flatten.length, fun fuel hf tr =>
      scanIndex_eq S.wf S.rt S.ok S.alive S.prefetch hi hr hH S.covers h1 h2 hp reverse tr hf⟩
  · intro σ reverse f fetched hf
    exact ⟨parts.flatten.length, fun fuel hfu s =>
      scanConst_eq S.wf S.rt S.ok S.alive S.prefetch hi hr hH S.covers h1 h2 hf hp reverse s hfu⟩

theorem Yields.unique {t : Table T F} {env : Env T} {filt : F} {db : KV} {ob : Option Batch} {idx : Index T}
    {sel : Selector T} {reverse : Bool} {a b : List T} (ha : Yields t env filt db ob idx sel reverse a)
    (hb : Yields t env filt db ob idx sel reverse b) : a = b := by
  obtain ⟨N, hN⟩ := ha
  obtain ⟨M, hM⟩ := hb
  have h1 := hN (N + M) (by omega) []
  rw [hM (N + M) (by omega) []] at h1
  simpa using h1.symm

theorem Spec.IsRows.congr {t : Table T F} {idx : Index T} {m : Rows T} {P Q : T → Prop} {rows : List T}
    (h : IsRows t idx m P rows) (he : ∀ x, Indexed t idx m x → (P x ↔ Q x)) : IsRows t idx m Q rows :=
  ⟨h.1, fun x => by rw [h.2]; exact ⟨fun hh => ⟨hh.1, (he x hh.1).1 hh.2⟩, fun hh => ⟨hh.1, (he x hh.1).2 hh.2⟩⟩⟩

/-- single-part selectors -/
theorem Setting.single {t : Table T F} {env : Env T} {filt : F} {db : KV} {ob : Option Batch} {m : Rows T}
    (S : Setting t env filt db ob m) {idx : Index T} (hi : IsIndex t idx) {sel : Selector T} (hs : sel.OK idx)
    {b : Bytes × Bytes} (hb : boundsOf t idx sel = [b]) :
    ∃ rows, IsRows t idx m (BoundP t idx b) rows ∧
      (∀ reverse, Yields t env filt db ob idx sel reverse (dir reverse rows)) ∧
      ∀ {σ : Type} (reverse : Bool) (f : σ → Bytes → Cb σ T) (fetched : σ → Prop), (idx.id = primaryIndexID ∨ FetchesAll f fetched) →
        Visits t env filt db ob idx sel reverse f (dir reverse rows) := by
  obtain ⟨parts, h1, h2, h3⟩ := S.parts hi hs
  rw [hb] at h1
  cases h1 with
  | cons a c =>
    cases c
    simp only [List.flatten_cons, List.flatten_nil, List.append_nil] at h2 h3
    exact ⟨_, a, h2, h3⟩

/-- the bound of a point selector -/
theorem boundP_point {t : Table T F} (wf : t.WF) {idx : Index T} (hi : IsIndex t idx) {p : T}
    (hn : NoTrailingFF (idx.key p)) (hl : (idx.key p).length < 2 ^ 32 - 1) (x : T) :
    BoundP t idx (t.indexKey idx p, keySuccessor (keyPrefix t.id idx.id (idx.key p))) x ↔
      idx.key x = idx.key p ∧ IdxLe t idx p x := by
  unfold BoundP
  rw [← indexKey_le wf hi]
  exact ⟨fun h => ⟨point_only wf hi hn hl h.1 h.2, h.1⟩, fun h => ⟨h.2, point_upper hl h.1⟩⟩

/-- `x` has the index value and order of `y` and its primary key extends that of `y` -/
def Extends (t : Table T F) (idx : Index T) (x y : T) : Prop :=
  idx.key x = idx.key y ∧ idx.ord x = idx.ord y ∧ ∃ r, t.pk x = t.pk y ++ r

/-- the bound of a range selector -/
theorem boundP_range {t : Table T F} (wf : t.WF) {idx : Index T} (hi : IsIndex t idx) {lo up : T}
    (hne : t.pk up ≠ []) (hn : NoTrailingFF (t.pk up)) (hl : (idx.key up).length < 2 ^ 32 - 1) (x : T) :
    BoundP t idx (t.rangeBounds idx lo up) x ↔ IdxLe t idx lo x ∧ (IdxLe t idx x up ∨ Extends t idx x up) := by
  unfold BoundP Table.rangeBounds
  rw [← indexKey_le wf hi, ← indexKey_le wf hi]
  have hext : Extends t idx x up ↔ ∃ r, t.indexKey idx x = t.indexKey idx up ++ r := by
    constructor
    · rintro ⟨h1, h2, r, h3⟩
      exact ⟨r, by rw [indexKey_prefix, indexKey_prefix, h1, h2, h3]; simp only [List.append_assoc]⟩
    · rintro ⟨r, hr⟩
      have : t.indexKey idx x = encodeIndexKey t.id idx.id (idx.key up) (idx.ord up) (t.pk up ++ r) := by
        rw [hr, encodeIndexKey_eq, indexKey_prefix, keyPrefix_eq]; simp only [List.append_assoc]
      have := encodeIndexKey_inj (hi.klen wf x) (hi.olen wf x) (hi.klen wf up) (hi.olen wf up) this
      exact ⟨this.2.2.1, this.2.2.2.1, r, this.2.2.2.2⟩
  rw [hext]
  obtain ⟨b, hb⟩ : ∃ b, (t.pk up).getLast? = some b := by
    cases h : (t.pk up).getLast? with
    | none => exact absurd (by simpa using h) hne
    | some b => exact ⟨b, rfl⟩
  obtain ⟨a, ha⟩ := List.getLast?_eq_some_iff.1 hb
  have hbn : b ≠ 0xFF := by intro e; subst e; exact hn hb
  obtain ⟨a', ha'⟩ : ∃ a', t.indexKey idx up = a' ++ [b] :=
    ⟨keyPrefix t.id idx.id (idx.key up) ++ (beBytes 4 (idx.ord up).length ++ (idx.ord up ++ a)), by
      rw [indexKey_prefix, ha]; simp only [List.append_assoc]⟩
  constructor
  · rintro ⟨h1, h2⟩
    refine ⟨h1, ?_⟩
    by_cases hle : ble (t.indexKey idx up) (t.indexKey idx x) = true
    · right
      rw [ha'] at hle h2 ⊢
      exact (between_succ hbn _).1 ⟨hle, h2⟩
    · left
      apply ble_of_blt
      simpa [ble] using hle
  · rintro ⟨h1, h2 | ⟨r, hr⟩⟩
    · refine ⟨h1, blt_of_ble_of_blt h2 ?_⟩
      have := lt_succ_indexKey (t := t) up hl []
      rwa [List.append_nil] at this
    · refine ⟨h1, ?_⟩
      simp only
      rw [hr]; exact lt_succ_indexKey up hl r

theorem boundP_range_mem {t : Table T F} (wf : t.WF) {idx : Index T} (hi : IsIndex t idx) {lo up : T}
    (hl : (idx.key up).length < 2 ^ 32 - 1) {x : T} (h1 : IdxLe t idx lo x) (h2 : IdxLe t idx x up) :
    BoundP t idx (t.rangeBounds idx lo up) x := by
  rw [← indexKey_le wf hi] at h1 h2
  refine ⟨h1, blt_of_ble_of_blt h2 ?_⟩
  have := lt_succ_indexKey (t := t) up hl []
  rwa [List.append_nil] at this

end Bond
