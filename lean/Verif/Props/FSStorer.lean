import Verif.FSStorer
import Verif.Props.Bloom
/-
C57: the file based filter storer. C65: a Save to files that is cut short.
-/
namespace Bond

/-- keys made of letters, digits, '_' and '.' only, other than the empty key, "." and ".." -/
structure PlainKey (k : Bytes) : Prop where
  chars : ∀ c ∈ k, (65 ≤ c ∧ c ≤ 90) ∨ (97 ≤ c ∧ c ≤ 122) ∨ (48 ≤ c ∧ c ≤ 57) ∨ c = 95 ∨ c = 46
  ne0 : k ≠ []
  ne1 : k ≠ [46]
  ne2 : k ≠ [46, 46]

theorem fsAllowed_iff (c : UInt8) :
    fsAllowed c = true ↔ (65 ≤ c ∧ c ≤ 90) ∨ (97 ≤ c ∧ c ≤ 122) ∨ (48 ≤ c ∧ c ≤ 57) ∨ c = 95 ∨ c = 46 := by
  simp [fsAllowed, or_assoc]

theorem PlainKey.sanitize {k : Bytes} (h : PlainKey k) : fsSanitize k = k :=
  List.filter_eq_self.2 fun c hc => (fsAllowed_iff c).2 (h.chars c hc)

theorem PlainKey.name {k : Bytes} (h : PlainKey k) : fsName k = some k := by
  simp [fsName, h.sanitize, h.ne0, h.ne1, h.ne2]

theorem PlainKey.above {k : Bytes} (h : PlainKey k) : ble k [46] = false := by
  match k, h with
  | [], h => exact absurd rfl h.ne0
  | c :: cs, h =>
    have hc := h.chars c (by simp)
    have h46 : (46 : UInt8) ≤ c := by
      rcases hc with ⟨h1, _⟩ | ⟨h1, _⟩ | ⟨h1, _⟩ | h1 | h1 <;> (first | subst h1 | skip) <;>
        first | decide | (simp only [UInt8.le_iff_toNat_le] at h1 ⊢; exact Nat.le_trans (by decide) h1)
    by_cases he : c = 46
    · subst he
      cases cs with
      | nil => exact absurd rfl h.ne1
      | cons d ds => simp [ble, blt]
    · have : (46 : UInt8) < c := by
        simp only [UInt8.le_iff_toNat_le, UInt8.lt_iff_toNat_lt] at h46 ⊢
        rcases Nat.lt_or_eq_of_le h46 with h | h
        · exact h
        · exact absurd (UInt8.toNat_inj.1 h).symm he
      simp [ble, blt, this]

theorem fsRemoveLoop_get (start : Bytes) (l : List (Bytes × Bytes)) : ∀ (n : Nat) (files : KV),
    (fsRemoveLoop (fun _ => true) start l n files).2 = true ∧
    ∀ name, (fsRemoveLoop (fun _ => true) start l n files).1.get name =
      if ble start name = true ∧ name ∈ l.map Prod.fst then none else files.get name := by
  induction l with
  | nil => intro n files; simp [fsRemoveLoop]
  | cons e l ih =>
    obtain ⟨nm, v⟩ := e
    intro n files
    have hm : ∀ name, name ∈ ((nm, v) :: l).map Prod.fst ↔ name = nm ∨ name ∈ l.map Prod.fst := by intro name; simp
    unfold fsRemoveLoop
    by_cases hb : ble start nm = true
    · simp only [hb, if_true]
      refine ⟨(ih _ _).1, fun name => ?_⟩
      rw [(ih _ _).2, KV.get_del]
      simp only [hm]
      by_cases hn : name = nm
      · subst hn; simp [hb]
      · simp only [hn, if_false, false_or]
    · rw [if_neg hb]
      refine ⟨(ih _ _).1, fun name => ?_⟩
      rw [(ih _ _).2]
      simp only [hm]
      by_cases hn : name = nm
      · subst hn; simp [hb]
      · simp only [hn, false_or]

/-! ## C57 FS filter storer is a faithful store -/

/-- On plain keys, Set and Get are those of a map: different keys do not share a file. -/
theorem C57_set_partial (files : KV) {k : Bytes} (hk : PlainKey k) (v : Bytes) :
    ((⟨some files⟩ : FSDir).set k v).2 = true ∧ ((⟨some files⟩ : FSDir).set k v).1.get k = some v ∧
    ∀ k', PlainKey k' → k' ≠ k → ((⟨some files⟩ : FSDir).set k v).1.get k' = (⟨some files⟩ : FSDir).get k' := by
  refine ⟨?_, ?_, fun k' hk' hne => ?_⟩
  · simp [FSDir.set, FSDir.setTorn, hk.name]
  · simp [FSDir.set, FSDir.setTorn, FSDir.get, hk.name, KV.get_set]
  · simp [FSDir.set, FSDir.setTorn, FSDir.get, hk.name, hk'.name, KV.get_set, hne]

/-- the theorem at a directory with one file -/
example := C57_set_partial (KV.empty.set [97] [1]) (k := [98]) (by constructor <;> decide) [2]

/-- DeleteRange removes what it should, keeps everything below the range, and keeps nothing above it. -/
theorem C57_delete_partial (files : KV) {lo : Bytes} (hlo : PlainKey lo) (hi : Bytes) :
    ((⟨some files⟩ : FSDir).deleteRange (fun _ => true) lo hi).2 = true ∧
    ∀ k, PlainKey k → ((⟨some files⟩ : FSDir).deleteRange (fun _ => true) lo hi).1.get k =
      if ble lo k = true then none else (⟨some files⟩ : FSDir).get k := by
  have hl := fsRemoveLoop_get lo files.l 0 files
  simp only [FSDir.deleteRange, hlo.sanitize, hlo.above, Bool.false_eq_true, if_false]
  refine ⟨hl.1, fun k hk => ?_⟩
  simp only [FSDir.get, hk.name]
  rw [hl.2]
  by_cases hb : ble lo k = true
  · simp only [hb, true_and, if_true]
    by_cases hm : k ∈ files.l.map Prod.fst
    · simp [hm]
    · rw [if_neg hm, KV.get_eq_none_iff]
      intro v hv
      exact hm (List.mem_map.2 ⟨_, hv, rfl⟩)
  · simp [hb]

/-- the theorem at a directory with two files -/
example := C57_delete_partial ((KV.empty.set [97] [1]).set [99] [2]) (lo := [98]) (by constructor <;> decide) [100]

/-- C57 for directories without keys at or above the end of the range: DeleteRange removes exactly the keys in the range. Together with
`C57_set_partial`: what is missing is keys with other characters, which share files (`C57_collision`), and keys above the range, which are lost
(`C57_refuted_delete`). -/
theorem C57_partial (files : KV) {lo hi : Bytes} (hlo : PlainKey lo)
    (hno : ∀ k, PlainKey k → ble hi k = true → (⟨some files⟩ : FSDir).get k = none) :
    ∀ k, PlainKey k → ((⟨some files⟩ : FSDir).deleteRange (fun _ => true) lo hi).1.get k =
      if ble lo k = true ∧ blt k hi = true then none else (⟨some files⟩ : FSDir).get k := by
  intro k hk
  rw [(C57_delete_partial files hlo hi).2 k hk]
  by_cases hb : ble lo k = true
  · by_cases hh : blt k hi = true
    · simp [hb, hh]
    · have := hno k hk ((not_blt_iff _ _).1 (by simpa using hh))
      simp [hb, hh, this]
  · simp [hb]

/-- the keys "f0" and "fbn" of a filter with prefix "f", and "e0" of another one below it -/
example : PlainKey [102, 48] ∧ PlainKey [101, 48] ∧ PlainKey [102] ∧ PlainKey [103] ∧
    (let d : KV := (KV.empty.set [101, 48] [1]).set [102, 48] [2]
     (∀ k, PlainKey k → ble [103] k = true → (⟨some d⟩ : FSDir).get k = none) ∧
     (⟨some d⟩ : FSDir).get [102, 48] = some [2] ∧
     ((⟨some d⟩ : FSDir).deleteRange (fun _ => true) [102] [103]).1.get [102, 48] = none ∧
     ((⟨some d⟩ : FSDir).deleteRange (fun _ => true) [102] [103]).1.get [101, 48] = some [1]) := by
  refine ⟨⟨by decide, by decide, by decide, by decide⟩, ⟨by decide, by decide, by decide, by decide⟩,
    ⟨by decide, by decide, by decide, by decide⟩, ⟨by decide, by decide, by decide, by decide⟩, ?_, by decide, by decide, by decide⟩
  intro k hk hb
  simp only [FSDir.get, hk.name, KV.get_set]
  have e1 : k ≠ [102, 48] := by rintro rfl; exact absurd hb (by decide)
  have e2 : k ≠ [101, 48] := by rintro rfl; exact absurd hb (by decide)
  simp [e1, e2, KV.empty, KV.get, KV.getL]

/-- What the results of Set mean, for any key, any directory and any failure: if it returns no error, Get returns the value; if it returns
one, the files of all other names are as before. -/
theorem C57_set_result (openOk : Bool) (written : Nat) (d : FSDir) (k v : Bytes) :
    ((d.setTorn openOk written k v).2 = true → (d.setTorn openOk written k v).1.get k = some v) ∧
    ∀ k', fsSanitize k' ≠ fsSanitize k → (d.setTorn openOk written k v).1.get k' = d.get k' := by
  unfold FSDir.setTorn
  cases hd : d.dir with
  | none => simp
  | some files =>
    cases hn : fsName k with
    | none => simp
    | some n =>
      have hnk : n = fsSanitize k := by
        unfold fsName at hn
        simp only at hn
        split at hn
        · cases hn
        · simpa using hn.symm
      cases openOk with
      | false => simp
      | true =>
        simp only [if_true, decide_eq_true_eq]
        refine ⟨fun h => by simp [FSDir.get, hn, KV.get_set, List.take_of_length_le h], fun k' hk' => ?_⟩
        simp only [FSDir.get, hd]
        cases hn' : fsName k' with
        | none => rfl
        | some n' =>
          have hnk' : n' = fsSanitize k' := by
            unfold fsName at hn'
            simp only at hn'
            split at hn'
            · cases hn'
            · simpa using hn'.symm
          simp [KV.get_set, hnk, hnk', hk']

/-- the theorem at a write that stops after one of two bytes -/
example := C57_set_result true 1 ⟨some (KV.empty.set [97] [1])⟩ [98] [2, 3]

/-- Keys without a file ("", ".", ".." after removing other characters) are refused by Set and Get. -/
theorem C57_no_file (openOk : Bool) (written : Nat) (d : FSDir) (k v : Bytes)
    (hk : fsSanitize k = [] ∨ fsSanitize k = [46] ∨ fsSanitize k = [46, 46]) :
    (d.setTorn openOk written k v).2 = false ∧ (d.setTorn openOk written k v).1.dir = d.dir ∧ d.get k = none := by
  have hn : fsName k = none := by simp [fsName, hk]
  cases hd : d.dir <;> simp [FSDir.setTorn, FSDir.get, hn, hd]

/-- "-." -/
example : fsSanitize [45, 46] = [46] := by decide

theorem fsRemoveLoop_ok (rmOk : Nat → Bool) (start : Bytes) (l : List (Bytes × Bytes)) : ∀ (n : Nat) (files : KV),
    (fsRemoveLoop rmOk start l n files).2 = true →
    fsRemoveLoop rmOk start l n files = fsRemoveLoop (fun _ => true) start l n files := by
  induction l with
  | nil => intro n files _; rfl
  | cons e l ih =>
    obtain ⟨nm, v⟩ := e
    intro n files h
    unfold fsRemoveLoop at h ⊢
    by_cases hb : ble start nm = true
    · rw [if_pos hb] at h ⊢
      by_cases hr : rmOk n = true
      · rw [if_pos hr] at h ⊢
        rw [if_pos hb, if_pos rfl]
        exact ih _ _ h
      · rw [if_neg hr] at h; simp at h
    · rw [if_neg hb] at h ⊢
      rw [if_neg hb]
      exact ih _ _ h

/-- If DeleteRange returns no error, whatever could have failed, every plain key not below the start is gone. -/
theorem C57_delete_result (rmOk : Nat → Bool) (files : KV) {lo : Bytes} (hlo : PlainKey lo) (hi : Bytes)
    (hok : ((⟨some files⟩ : FSDir).deleteRange rmOk lo hi).2 = true) :
    ∀ k, PlainKey k → ((⟨some files⟩ : FSDir).deleteRange rmOk lo hi).1.get k =
      if ble lo k = true then none else (⟨some files⟩ : FSDir).get k := by
  have e : (⟨some files⟩ : FSDir).deleteRange rmOk lo hi = (⟨some files⟩ : FSDir).deleteRange (fun _ => true) lo hi := by
    simp only [FSDir.deleteRange, hlo.sanitize, hlo.above, Bool.false_eq_true, if_false] at hok ⊢
    rw [fsRemoveLoop_ok rmOk lo _ _ _ hok]
  rw [e]
  exact (C57_delete_partial files hlo hi).2

/-- the second removal fails: an error; with no failure: none -/
example : (let d : FSDir := ⟨some ((KV.empty.set [97] [1]).set [98] [2])⟩
    (d.deleteRange (fun n => n == 0) [97] [99]).2 = false ∧ (d.deleteRange (fun n => n < 2) [97] [99]).2 = true) := by decide

/-- DeleteRange from a key of which nothing or a single dot is left in the file name always returns an error and
changes no value. -/
theorem C57_delete_bad (rmOk : Nat → Bool) (d : FSDir) (lo hi : Bytes) (hlo : fsSanitize lo = [] ∨ fsSanitize lo = [46]) :
    (d.deleteRange rmOk lo hi).2 = false ∧ ∀ k, (d.deleteRange rmOk lo hi).1.get k = d.get k := by
  have hb : ble (fsSanitize lo) [46] = true := by rcases hlo with h | h <;> rw [h] <;> decide
  obtain ⟨dir⟩ := d
  simp only [FSDir.deleteRange, if_pos hb]
  cases dir with
  | none => exact ⟨rfl, fun _ => rfl⟩
  | some files =>
    simp only
    split
    · rename_i he
      refine ⟨rfl, fun k => ?_⟩
      unfold FSDir.get
      cases hn : fsName k with
      | none => simp
      | some nm =>
        simp only
        obtain ⟨l, hl⟩ := files
        obtain ⟨he, _⟩ := he
        simp only at he
        subst he
        rfl
    · exact ⟨rfl, fun _ => rfl⟩

example : fsSanitize [45] = [] ∧ ((⟨none⟩ : FSDir).deleteRange (fun _ => true) [45] [46]).2 = false ∧
    ((⟨some (KV.empty.set [97] [1])⟩ : FSDir).deleteRange (fun _ => true) [45] [46]).2 = false := by decide

/-- Different keys share a file: every key with a character outside the set shares the file of the key without these characters, in every
directory; writing one changes the other. -/
theorem C57_collision (files : KV) (k : Bytes) (hk : fsSanitize k ≠ k) (hn : fsName k ≠ none) (v : Bytes) :
    fsSanitize k ≠ k ∧ ((⟨some files⟩ : FSDir).set k v).1.get (fsSanitize k) = some v := by
  refine ⟨hk, ?_⟩
  have hid : fsSanitize (fsSanitize k) = fsSanitize k := by simp [fsSanitize, List.filter_filter]
  have hnm : fsName (fsSanitize k) = fsName k := by simp [fsName, hid]
  cases hc : fsName k with
  | none => exact absurd hc hn
  | some n => simp [FSDir.set, FSDir.setTorn, FSDir.get, hnm, hc, KV.get_set]

/-- "f-1" and "f1" -/
example : fsSanitize [102, 45, 49] ≠ [102, 45, 49] ∧ fsName [102, 45, 49] ≠ none := by decide

/-- C57 is false for the files of other filters: clearing the filter with prefix "a" (DeleteRange from "a" to "b") removes the file of the
filter with prefix "b". -/
theorem C57_refuted_delete :
    let d : FSDir := ⟨some ((KV.empty.set [97, 48] [1]).set [98, 48] [2])⟩
    d.get [98, 48] = some [2] ∧ ble [98] [98, 48] = true ∧
    (d.deleteRange (fun _ => true) [97] [98]).2 = true ∧ (d.deleteRange (fun _ => true) [97] [98]).1.get [98, 48] = none := by
  decide

/-- A prefix without any allowed character, for example a single byte 0: Clear does not remove anything and returns an error as soon as the
directory has a file, so Initialize cannot rebuild the filter. -/
theorem C57_refuted_prefix :
    let d : FSDir := ⟨some (KV.empty.set [98, 110] [0, 0, 0, 0, 0, 0, 0, 5])⟩
    (d.deleteRange (fun _ => true) [0] [1]).2 = false ∧ (d.deleteRange (fun _ => true) [0] [1]).1.get [98, 110] = d.get [98, 110] ∧ (d.get [98, 110]).isSome = true := by
  decide

/-- the letters, digits, '_' and '.' of a key -/
def Spec.plainPart (k : Bytes) : Bytes :=
  k.filter (fun c => (65 ≤ c && c ≤ 90) || (97 ≤ c && c ≤ 122) || (48 ≤ c && c ≤ 57) || c == 95 || c == 46)

/-- What calls do to the values of the keys: keys with the same plain part are one key; Set of a key without a usable plain part does nothing;
DeleteRange removes everything from its start on, whatever its end is. -/
def Spec.fsEffect (f : Bytes → Option Bytes) : FSCall → Bytes → Option Bytes
  | .set k v, k' =>
    if Spec.plainPart k' = Spec.plainPart k ∧ Spec.plainPart k ≠ [] ∧ Spec.plainPart k ≠ [46] ∧ Spec.plainPart k ≠ [46, 46] then some v else f k'
  | .del lo _, k' => if ble (Spec.plainPart lo) (Spec.plainPart k') = true then none else f k'

theorem plainPart_above {k : Bytes} (h0 : fsSanitize k ≠ []) (h1 : fsSanitize k ≠ [46]) : ble (fsSanitize k) [46] = false := by
  by_cases h2 : fsSanitize k = [46, 46]
  · rw [h2]; decide
  · exact PlainKey.above ⟨fun c hc => (fsAllowed_iff c).1 (List.mem_filter.1 hc).2, h0, h1, h2⟩

theorem FSDir.call_exact (files : KV) (c : FSCall) (hc : ∀ lo hi, c = .del lo hi → Spec.plainPart lo ≠ [] ∧ Spec.plainPart lo ≠ [46]) :
    ∃ files', ((⟨some files⟩ : FSDir).call c).1 = ⟨some files'⟩ ∧
      ∀ k, (⟨some files'⟩ : FSDir).get k = Spec.fsEffect (fun k => (⟨some files⟩ : FSDir).get k) c k := by
  have hpp : ∀ k, Spec.plainPart k = fsSanitize k := fun _ => rfl
  cases c with
  | set k v =>
    simp only [FSDir.call, FSDir.set, FSDir.setTorn, Spec.fsEffect, hpp]
    by_cases hn : fsSanitize k = [] ∨ fsSanitize k = [46] ∨ fsSanitize k = [46, 46]
    · have : fsName k = none := by simp [fsName, hn]
      refine ⟨files, by simp [this], fun k' => ?_⟩
      rw [if_neg]
      rintro ⟨_, h0, h1, h2⟩
      rcases hn with h | h | h <;> contradiction
    · have hnm : fsName k = some (fsSanitize k) := by simp [fsName, hn]
      refine ⟨files.set (fsSanitize k) v, by simp [hnm], fun k' => ?_⟩
      by_cases he : fsSanitize k' = fsSanitize k
      · have hnm' : fsName k' = some (fsSanitize k) := by simp [fsName, he, hn]
        rw [if_pos ⟨he, fun h => hn (Or.inl h), fun h => hn (Or.inr (Or.inl h)), fun h => hn (Or.inr (Or.inr h))⟩]
        simp [FSDir.get, hnm', KV.get_set]
      · rw [if_neg (fun h => he h.1)]
        unfold FSDir.get
        simp only
        cases hk' : fsName k' with
        | none => rfl
        | some n =>
          have : n = fsSanitize k' := by
            unfold fsName at hk'
            simp only at hk'
            split at hk' <;> simp_all
          simp only [KV.get_set]
          rw [if_neg (by rw [this]; exact he)]
  | del lo hi =>
    obtain ⟨h0, h1⟩ := hc lo hi rfl
    rw [hpp] at h0 h1
    have hl := fsRemoveLoop_get (fsSanitize lo) files.l 0 files
    refine ⟨(fsRemoveLoop (fun _ => true) (fsSanitize lo) files.l 0 files).1, ?_, fun k => ?_⟩
    · simp [FSDir.call, FSDir.deleteRange, plainPart_above h0 h1]
    · simp only [Spec.fsEffect, hpp]
      unfold FSDir.get
      simp only
      cases hk : fsName k with
      | none => simp
      | some n =>
        have : n = fsSanitize k := by
          unfold fsName at hk
          simp only at hk
          split at hk <;> simp_all
        subst this
        simp only
        rw [hl.2]
        by_cases hb : ble (fsSanitize lo) (fsSanitize k) = true
        · simp only [hb, true_and, if_true]
          split
          · rfl
          · rename_i hm
            rw [KV.get_eq_none_iff]
            intro v hv
            exact hm (List.mem_map.2 ⟨_, hv, rfl⟩)
        · simp [hb]

/-- C57, exactly: after every sequence of Set and DeleteRange calls, with any keys and ranges (the starts of ranges having a plain part other
than "."), on any directory, every Get returns what the sequence says if keys with the same plain part count as one and ranges have no end.
So the storer is faithful as long as no two keys in use have the same plain part and nothing is stored above the ranges deleted. -/
theorem C57_exact (files : KV) (cs : List FSCall) (hc : ∀ lo hi, FSCall.del lo hi ∈ cs → Spec.plainPart lo ≠ [] ∧ Spec.plainPart lo ≠ [46]) (k : Bytes) :
    (cs.foldl (fun d c => (d.call c).1) (⟨some files⟩ : FSDir)).get k =
      cs.foldl Spec.fsEffect (fun k => (⟨some files⟩ : FSDir).get k) k := by
  induction cs generalizing files with
  | nil => rfl
  | cons c cs ih =>
    obtain ⟨files', e, hg⟩ := FSDir.call_exact files c (fun lo hi h => hc lo hi (h ▸ List.mem_cons_self))
    simp only [List.foldl_cons, e]
    rw [ih files' (fun lo hi h => hc lo hi (List.mem_cons_of_mem _ h))]
    rw [funext hg]

/-- Set "f-1", Set "f1", Set "a", DeleteRange "b" "c": only "a" is left -/
example : (let cs : List FSCall := [.set [102, 45, 49] [1], .set [102, 49] [2], .set [97] [3], .del [98] [99]]
    (∀ lo hi, FSCall.del lo hi ∈ cs → Spec.plainPart lo ≠ [] ∧ Spec.plainPart lo ≠ [46]) ∧
    cs.foldl Spec.fsEffect (fun _ => none) [97] = some [3] ∧ cs.foldl Spec.fsEffect (fun _ => none) [102, 45, 49] = none) := by
  refine ⟨fun lo hi h => ?_, by decide, by decide⟩
  simp only [List.mem_cons, List.not_mem_nil, or_false, reduceCtorEq, false_or, FSCall.del.injEq] at h
  obtain ⟨rfl, rfl⟩ := h
  decide

/-! ## C65 A Save to files that is cut short does not prevent the next start -/

/-- C65 for data files: whatever is left of the file of bucket 0, Load does not panic as long as the file with the number of buckets is
whole. -/
theorem C65_partial (c : BFCodec) (f : BloomFilter) (d : FSDir) (v : Bytes) (hv : d.store (bloomNumKey f.keyPrefix) = some v)
    (h8 : 8 ≤ v.length) : (f.load c d.store).2 ≠ .panic := by
  have hloop : ∀ (bs : List FBucket), (loadLoop c d.store f.keyPrefix bs).2 ≠ .panic := by
    intro bs
    induction bs with
    | nil => simp [loadLoop]
    | cons b bs ih =>
      unfold loadLoop
      split
      · simp
      · split
        · simp
        · split
          · simp
          · exact ih
  unfold BloomFilter.load
  rw [hv]
  simp only
  split
  · omega
  · split
    · simp
    · exact hloop _

/-- C65 is false: the process dies in the first Save after the file with the number of buckets was opened and before it was written. The
next Initialize panics, and so does every later one. -/
theorem C65_refuted :
    let f := BloomFilter.new 8 1 1 [98]
    let d : FSDir := ((⟨some KV.empty⟩ : FSDir).setTorn true 0 (bloomNumKey [98]) (beBytes 8 1)).1
    (filterInitialize exHash exCodec true f d.store [⟨[[1]], true⟩]).2.2 = .panic := by
  decide

/-- a torn bucket file: Load refuses it, Initialize rebuilds -/
example :
    let f := BloomFilter.new 8 1 1 [98]
    let d1 : FSDir := ((⟨some KV.empty⟩ : FSDir).set (bloomNumKey [98]) (beBytes 8 1)).1
    let d : FSDir := (d1.setTorn true 1 (bloomKey [98] 0) (exCodec.enc (BF.new 8 1))).1
    (∃ v, d.store (bloomNumKey f.keyPrefix) = some v ∧ 8 ≤ v.length) ∧ (f.load exCodec d.store).2 = .err := by
  exact ⟨⟨_, rfl, by decide⟩, by decide⟩

end Bond
