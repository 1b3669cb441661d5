import Verif.Spec.Inspect
/-
Lemmas about the inspect package: conversions, the filter function, `setFields`.
-/
namespace Bond
open Spec
variable {T : Type}

theorem roundF_small {n : Int} (h : n.natAbs ≤ 2 ^ 53) : roundF n = n := by
  unfold roundF round53
  rw [if_pos h]
  split <;> omega

theorem truncF_zero (m : Int) : truncF m 0 = m := by simp [truncF]

theorem wrap_holds {s : IntSize} {b : Bool} {n : Int} (h : s.holds b n = true) : s.wrap b n = n := by
  unfold IntSize.holds at h
  unfold IntSize.wrap
  cases b <;> cases s <;>
    simp only [IntSize.bits, if_true, if_false, Bool.false_eq_true, Nat.reduceSub, Int.reducePow, Int.reduceNeg, true_and,
      false_and] at h ⊢ <;> have h := of_decide_eq_true h <;> (try split) <;> omega

theorem lowest_terms_aux {m m' : Int} {e e' : Nat} (h' : e' = 0 ∨ m' % 2 = 1) (hle : e ≤ e')
    (h : m * 2 ^ e' = m' * 2 ^ e) : m = m' ∧ e = e' := by
  obtain ⟨d, rfl⟩ := Nat.le.dest hle
  rw [Int.pow_add, Int.mul_comm (2 ^ e), ← Int.mul_assoc] at h
  have h2 : m * 2 ^ d = m' := Int.eq_of_mul_eq_mul_right (Int.pow_ne_zero (by decide)) h
  cases d with
  | zero => simp at h2; exact ⟨h2, rfl⟩
  | succ d =>
    rw [Int.pow_succ, ← Int.mul_assoc] at h2
    rcases h' with h' | h'
    · omega
    · omega

theorem lowest_terms {m m' : Int} {e e' : Nat} (h1 : e = 0 ∨ m % 2 = 1) (h2 : e' = 0 ∨ m' % 2 = 1)
    (h : m * 2 ^ e' = m' * 2 ^ e) : m = m' ∧ e = e' := by
  rcases Nat.le_total e e' with hle | hle
  · exact lowest_terms_aux h2 hle h
  · have := lowest_terms_aux h1 hle h.symm
    exact ⟨this.1.symm, this.2.symm⟩

/-- for data that fit, equality as the code tests it is equality -/
theorem Data.eq_iff {a b : Data} {k : GoKind} (ha : fits a k = true) (hb : fits b k = true) : Data.eq a b = true ↔ a = b := by
  cases k <;> cases a <;> simp only [fits, Bool.false_eq_true] at ha <;> cases b <;> simp only [fits, Bool.false_eq_true] at hb <;>
    simp only [Data.eq, beq_iff_eq]
  simp only [Bool.or_eq_true, beq_iff_eq] at ha hb
  constructor
  · intro h
    obtain ⟨rfl, rfl⟩ := lowest_terms ha hb h
    rfl
  · intro h
    injection h with h1 h2
    rw [h1, h2]

/-- for data of one kind, being the same value is equality -/
theorem sameValue_iff {a b : Data} {k : GoKind} (ha : fits a k = true) (hb : fits b k = true) : SameValue a b ↔ a = b := by
  cases k <;> cases a <;> simp only [fits, Bool.false_eq_true] at ha <;> cases b <;> simp only [fits, Bool.false_eq_true] at hb <;>
    simp only [SameValue, number, Data.int.injEq] <;> (try omega)
  simp only [Bool.or_eq_true, beq_iff_eq] at ha hb
  constructor
  · intro h
    obtain ⟨rfl, rfl⟩ := lowest_terms ha hb h
    rfl
  · intro h
    injection h with h1 h2
    rw [h1, h2]

/-- A plain value of another kind is converted to the same value, or cannot be converted and is no value of the type. -/
theorem convert_plain (oor : OutOfRange) {v : TVal} {t : GoType} (hv : fits v.data v.type.kind = true)
    (hk : v.type.kind.same t.kind = false) (hp : Plain v t) {x : Data} (hx : fits x t.kind = true) :
    (∃ w, convert oor v t = some w ∧ fits w.data t.kind = true ∧ (SameValue v.data x ↔ w.data = x)) ∨
      (convert oor v t = none ∧ ¬ SameValue v.data x) := by
  obtain ⟨⟨vk, vn⟩, vd⟩ := v
  obtain ⟨tk, tn⟩ := t
  unfold Plain at hp
  rw [hk] at hp
  simp only [Bool.false_eq_true, if_false] at hp
  cases vd <;> cases tk <;> cases vk <;> simp only [fits, Bool.false_eq_true] at hv <;>
    simp [GoKind.same] at hk <;> cases x <;> simp only [fits, Bool.false_eq_true] at hx <;> simp only at hp <;>
    first
      | (refine Or.inr ⟨rfl, ?_⟩; simp [SameValue, number]; done)
      | (refine Or.inl ⟨_, rfl, rfl, ?_⟩; simp [SameValue, number]; done)
      | (refine Or.inl ⟨_, rfl, ?_, ?_⟩
         · first
             | (show IntSize.holds _ _ (IntSize.wrap _ _ _) = true; rw [wrap_holds hp]; exact hp)
             | rfl
             | (simp only [hp.1, truncF_zero, if_pos hp.2, fits]; exact hp.2)
         · first
             | (simp only [SameValue, number, wrap_holds hp, Data.int.injEq]; omega)
             | (simp only [SameValue, number, hp.1, truncF_zero, if_pos hp.2, Data.int.injEq]; omega)
             | (simp only [SameValue, number, roundF_small hp]
                rw [Data.flt.injEq]
                simp only [Bool.or_eq_true, beq_iff_eq] at hx
                exact ⟨fun h => lowest_terms (Or.inl rfl) hx h, fun h => by rw [h.1, ← h.2]⟩))


/-! ## the filter function -/

theorem find_key {d : Desc T} (h : d.OK) {f : GoField} (hf : f ∈ d.fields) : d.fields.find? (fun g => g.key == f.key) = some f := by
  have hn := h.names
  have hk := h.keys
  revert hn hk hf
  generalize d.fields = l
  intro hf hn hk
  induction l with
  | nil => cases hf
  | cons g l ih =>
    rw [List.find?_cons]
    by_cases he : g.key = f.key
    · rw [beq_iff_eq.2 he]
      simp only
      rw [List.map_cons, List.nodup_cons] at hn
      rcases List.mem_cons.1 hf with rfl | hf'
      · rfl
      · exfalso
        apply hn.1
        rw [List.mem_map]
        refine ⟨f, hf', ?_⟩
        rw [← hk f hf, ← he, hk g (by simp)]
    · rw [beq_eq_false_iff_ne.2 he]
      simp only
      rcases List.mem_cons.1 hf with rfl | hf'
      · exact absurd rfl he
      · rw [List.map_cons, List.nodup_cons] at hn
        exact ih hf' hn.2 (fun f hf => hk f (by simp [hf]))

theorem find_name {d : Desc T} (h : d.OK) {f : GoField} (hf : f ∈ d.fields) : d.fields.find? (fun g => g.name == f.key) = some f := by
  have := find_key h hf
  rw [← this]
  have hk := h.keys
  revert hk
  generalize d.fields = l
  intro hk
  induction l with
  | nil => rfl
  | cons g l ih =>
    rw [List.find?_cons, List.find?_cons, hk g (by simp), ih (fun f hf => hk f (by simp [hf]))]

/-- one field has one key -/
theorem key_unique {d : Desc T} (h : d.OK) {f g : GoField} (hf : f ∈ d.fields) (hg : g ∈ d.fields) (he : f.key = g.key) : f = g := by
  have h1 := find_key h hf
  rw [he, find_key h hg] at h1
  exact (Option.some.inj h1).symm

theorem rowMatches_iff {d : Desc T} (h : d.OK) (oor : OutOfRange) (x : T) {m : GoMap} (hm : PlainMap d m) :
    ∃ b, d.rowMatches oor x m = some b ∧ (b = true ↔ Matches d m x) := by
  induction m with
  | nil => exact ⟨true, rfl, by simp [Matches]⟩
  | cons p rest ih =>
    obtain ⟨k, v⟩ := p
    obtain ⟨b, hb, hiff⟩ := ih (fun k v hkv => hm k v (by simp [hkv]))
    obtain ⟨tv, rfl, hfit, hpl⟩ := hm k v (by simp)
    have hcons : Matches d ((k, some tv) :: rest) x ↔
        (∃ f ∈ d.fields, f.key = k ∧ SameValue tv.data (d.get x f.name)) ∧ Matches d rest x := by
      constructor
      · intro hM
        refine ⟨?_, fun k v hkv => hM k v (by simp [hkv])⟩
        obtain ⟨f, hf, hk, tv', he, hs⟩ := hM k (some tv) (by simp)
        cases he
        exact ⟨f, hf, hk, hs⟩
      · rintro ⟨⟨f, hf, hk, hs⟩, hM⟩ k' v' hkv
        rcases List.mem_cons.1 hkv with he | hkv
        · cases he
          exact ⟨f, hf, hk, tv, rfl, hs⟩
        · exact hM k' v' hkv
    rw [Desc.rowMatches]
    by_cases hex : ∃ f ∈ d.fields, f.key = k
    · obtain ⟨f, hf, rfl⟩ := hex
      rw [find_key h hf]
      have hsame : (∃ g ∈ d.fields, g.key = f.key ∧ SameValue tv.data (d.get x g.name)) ↔ SameValue tv.data (d.get x f.name) := by
        constructor
        · rintro ⟨g, hg, he, hs⟩
          rw [key_unique h hg hf he] at hs
          exact hs
        · exact fun hs => ⟨f, hf, rfl, hs⟩
      rw [hsame] at hcons
      have hx := h.fits x f hf
      have hp := hpl f hf rfl
      simp only
      cases hk : tv.type.kind.same f.type.kind with
      | true =>
        have hty : tv.type = f.type := by unfold Plain at hp; rwa [hk, if_pos rfl] at hp
        rw [if_pos rfl, hcons, sameValue_iff (by rw [← hty]; exact hfit) hx, ← Data.eq_iff (by rw [← hty]; exact hfit) hx]
        by_cases he : Data.eq tv.data (d.get x f.name) = true
        · rw [if_pos ⟨hty, he⟩]
          exact ⟨b, hb, by rw [hiff]; simp [he]⟩
        · rw [if_neg (fun hc => he hc.2)]
          exact ⟨false, rfl, by simp [he]⟩
      | false =>
        rw [if_neg (by simp)]
        rcases convert_plain oor hfit hk hp hx with ⟨w, hw, hwf, hs⟩ | ⟨hw, hs⟩
        · rw [hw, hcons, hs, ← Data.eq_iff hwf hx]
          simp only
          by_cases he : Data.eq w.data (d.get x f.name) = true
          · rw [if_pos he]
            exact ⟨b, hb, by rw [hiff]; simp [he]⟩
          · rw [if_neg he]
            exact ⟨false, rfl, by simp [he]⟩
        · rw [hw, hcons]
          exact ⟨false, rfl, by simp [hs]⟩
    · have hnone : d.fields.find? (fun f => f.key == k) = none := by
        rw [List.find?_eq_none]
        intro f hf he
        exact hex ⟨f, hf, beq_iff_eq.1 he⟩
      rw [hnone, hcons]
      refine ⟨false, rfl, ?_⟩
      simp only [Bool.false_eq_true, false_iff, not_and]
      rintro ⟨f, hf, he, _⟩
      exact absurd ⟨f, hf, he⟩ hex

theorem Spec.PlainMap.perm {d : Desc T} {m m' : GoMap} (hp : m'.Perm m) (h : PlainMap d m) : PlainMap d m' :=
  fun k v hkv => h k v (hp.mem_iff.1 hkv)

theorem matches_perm {d : Desc T} {m m' : GoMap} (hp : m'.Perm m) (x : T) : Matches d m' x ↔ Matches d m x :=
  ⟨fun h k v hkv => h k v (hp.mem_iff.2 hkv), fun h k v hkv => h k v (hp.mem_iff.1 hkv)⟩

/-! ## setFields -/

theorem setFields_ok {d : Desc T} (h : d.OK) (oor : OutOfRange) {m : GoMap} (hm : PlainRecord d m) (zero : T) :
    ∃ x, d.setFields oor m zero = .ok x ∧ IsRecord d zero m x := by
  induction m generalizing zero with
  | nil => exact ⟨zero, rfl, fun f _ => ⟨by simp, fun _ => rfl⟩⟩
  | cons p rest ih =>
    obtain ⟨k, v⟩ := p
    obtain ⟨hnd, hpm, hfld⟩ := hm
    rw [List.map_cons, List.nodup_cons] at hnd
    obtain ⟨tv, rfl, hfit, hpl⟩ := hpm k v (by simp)
    obtain ⟨f, hf, rfl, tv', y, he, hy, hs⟩ := hfld k (some tv) (by simp)
    cases he
    have ih := ih ⟨hnd.2, fun k v hkv => hpm k v (by simp [hkv]), fun k v hkv => hfld k v (by simp [hkv])⟩
    have hp := hpl f hf rfl
    have main : ∀ w, fits w f.type.kind = true → SameValue tv.data w → ∃ x, d.setFields oor rest (d.set zero f.name w) = .ok x ∧
        IsRecord d zero ((f.key, some tv) :: rest) x := by
      intro w hw hsw
      obtain ⟨x, hx, hr⟩ := ih (d.set zero f.name w)
      refine ⟨x, hx, fun g hg => ?_⟩
      have := hr g hg
      by_cases hgf : g = f
      · subst hgf
        have h2 : d.get x g.name = w := by
          rw [this.2 (fun v hv => hnd.1 (List.mem_map.2 ⟨_, hv, rfl⟩)), h.get_set _ _ _ hg hw]
        refine ⟨fun tv' htv' => ?_, fun hno => absurd (List.mem_cons_self) (hno _)⟩
        rcases List.mem_cons.1 htv' with he | hin
        · cases he; rw [h2]; exact hsw
        · exact absurd (List.mem_map.2 ⟨_, hin, rfl⟩) hnd.1
      · have hne : g.key ≠ f.key := fun he => hgf (key_unique h hg hf he)
        refine ⟨fun tv' htv' => ?_, fun hno => ?_⟩
        · rcases List.mem_cons.1 htv' with he | hin
          · exact absurd (congrArg Prod.fst he) hne
          · exact this.1 tv' hin
        · rw [this.2 (fun v hv => hno v (by simp [hv])), h.get_other _ _ _ _ hf (by rw [← h.keys g hg, ← h.keys f hf]; exact hne)]
    have hany : d.fields.any (fun g => g.key == f.key) = true := List.any_eq_true.2 ⟨f, hf, beq_self_eq_true _⟩
    unfold Desc.setFields
    rw [if_pos hany, find_name h hf]
    simp only
    cases hk : tv.type.kind.same f.type.kind with
    | true =>
      have hty : tv.type = f.type := by unfold Plain at hp; rwa [hk, if_pos rfl] at hp
      rw [if_pos rfl, if_pos (by simp [assignable, hty])]
      exact main _ (by rw [← hty]; exact hfit) ((sameValue_iff hfit hfit).2 rfl)
    | false =>
      rw [if_neg (by simp)]
      rcases convert_plain oor hfit hk hp hy with ⟨w, hw, hwf, hs'⟩ | ⟨hw, hs'⟩
      · rw [hw]
        have : w.data = y := hs'.1 hs
        exact main _ hwf (by rw [this]; exact hs)
      · exact absurd hs hs'

theorem Spec.PlainRecord.perm {d : Desc T} {m m' : GoMap} (hp : m'.Perm m) (h : PlainRecord d m) : PlainRecord d m' :=
  ⟨((hp.map _).nodup_iff).2 h.1, h.2.1.perm hp, fun k v hkv => h.2.2 k v (hp.mem_iff.1 hkv)⟩

theorem isRecord_perm {d : Desc T} {m m' : GoMap} (hp : m'.Perm m) {zero x : T} (h : IsRecord d zero m' x) : IsRecord d zero m x :=
  fun f hf => ⟨fun tv htv => (h f hf).1 tv (hp.mem_iff.2 htv), fun hno => (h f hf).2 (fun v hv => hno v (hp.mem_iff.1 hv))⟩

theorem setFields_cons {d : Desc T} (oor : OutOfRange) (k : String) (v : GoAny) (rest : GoMap) (x : T) :
    d.setFields oor ((k, v) :: rest) x = match d.setFields oor [(k, v)] x with
      | .ok y => d.setFields oor rest y
      | o => o := by
  rw [Desc.setFields.eq_def, Desc.setFields.eq_def d oor [(k, v)]]
  simp only
  split
  · split
    · split
      · split
        · rw [Desc.setFields.eq_def d oor []]
        · rfl
      · split
        · rfl
        · rw [Desc.setFields.eq_def d oor []]
    · rfl
  · rfl

theorem setFields_noField {d : Desc T} (h : d.OK) (oor : OutOfRange) {m : GoMap}
    (hm : ∀ k v, (k, v) ∈ m → (∀ f ∈ d.fields, f.key ≠ k) ∨ PlainRecord d [(k, v)])
    {k : String} {v : GoAny} (hk : (k, v) ∈ m) (hno : ∀ f ∈ d.fields, f.key ≠ k) (x : T) : d.setFields oor m x = .noField := by
  induction m generalizing x with
  | nil => cases hk
  | cons p rest ih =>
    obtain ⟨k', v'⟩ := p
    rw [setFields_cons]
    by_cases hall : ∀ f ∈ d.fields, f.key ≠ k'
    · have : d.setFields oor [(k', v')] x = .noField := by
        unfold Desc.setFields
        rw [if_neg]
        rw [List.any_eq_true]
        rintro ⟨f, hf, e⟩
        exact hall f hf (beq_iff_eq.1 e)
      rw [this]
    · rcases hm k' v' (by simp) with h' | h'
      · exact absurd h' hall
      · obtain ⟨y, hy, _⟩ := setFields_ok h oor h' x
        rw [hy]
        refine ih (fun a b hab => hm a b (by simp [hab])) ?_ y
        rcases List.mem_cons.1 hk with e | e
        · cases e
          exact absurd hno hall
        · exact e

end Bond
