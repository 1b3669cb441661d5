import Verif.Cond
/-
Property C50: condition combinators.
-/
namespace Bond

variable {R V : Type}

/-- what the operators of an ordered type mean -/
structure Spec.LawfulOps (ops : CondOps V) (less : V → V → Prop) : Prop where
  eq : ∀ x y, ops.objectsAreEqual x y = true ↔ x = y
  gt : ∀ x y, ops.gt x y = true ↔ less y x
  ge : ∀ x y, ops.ge x y = true ↔ less y x ∨ x = y
  lt : ∀ x y, ops.lt x y = true ↔ less x y
  le : ∀ x y, ops.le x y = true ↔ less x y ∨ x = y

/-- The formula a condition stands for, and what happens on a panic.
`Means lt r c true`: the formula holds for `r`; `Means lt r c false`: it does not. Conjunctions are read from the left: members after the
first false one do not matter (they may be nil or panic); dually for disjunctions. -/
inductive Spec.Means (lt : V → V → Prop) (r : R) : Cond R V → Bool → Prop
  | func (f : R → Option Bool) (b : Bool) : f r = some b → Spec.Means lt r (.func f) b
  | eqT (get : R → Option V) (v x : V) : get r = some x → x = v → Spec.Means lt r (.eq get v) true
  | eqF (get : R → Option V) (v x : V) : get r = some x → x ≠ v → Spec.Means lt r (.eq get v) false
  | gtT (get : R → Option V) (v x : V) : get r = some x → lt v x → Spec.Means lt r (.gt get v) true
  | gtF (get : R → Option V) (v x : V) : get r = some x → ¬ lt v x → Spec.Means lt r (.gt get v) false
  | gteT (get : R → Option V) (v x : V) : get r = some x → lt v x ∨ x = v → Spec.Means lt r (.gte get v) true
  | gteF (get : R → Option V) (v x : V) : get r = some x → ¬ (lt v x ∨ x = v) → Spec.Means lt r (.gte get v) false
  | ltT (get : R → Option V) (v x : V) : get r = some x → lt x v → Spec.Means lt r (.lt get v) true
  | ltF (get : R → Option V) (v x : V) : get r = some x → ¬ lt x v → Spec.Means lt r (.lt get v) false
  | lteT (get : R → Option V) (v x : V) : get r = some x → lt x v ∨ x = v → Spec.Means lt r (.lte get v) true
  | lteF (get : R → Option V) (v x : V) : get r = some x → ¬ (lt x v ∨ x = v) → Spec.Means lt r (.lte get v) false
  | andNil : Spec.Means lt r (.and []) true
  | andF (c : Cond R V) (cs : List (Cond R V)) : Spec.Means lt r c false → Spec.Means lt r (.and (c :: cs)) false
  | andT (c : Cond R V) (cs : List (Cond R V)) (b : Bool) : Spec.Means lt r c true → Spec.Means lt r (.and cs) b → Spec.Means lt r (.and (c :: cs)) b
  | orNil : Spec.Means lt r (.or []) false
  | orT (c : Cond R V) (cs : List (Cond R V)) : Spec.Means lt r c true → Spec.Means lt r (.or (c :: cs)) true
  | orF (c : Cond R V) (cs : List (Cond R V)) (b : Bool) : Spec.Means lt r c false → Spec.Means lt r (.or cs) b → Spec.Means lt r (.or (c :: cs)) b
  | not (c : Cond R V) (b : Bool) : Spec.Means lt r c b → Spec.Means lt r (.not c) (!b)

theorem andLoop_false (ops : CondOps V) (r : R) : ∀ cs : List (Cond R V), Cond.andLoop ops r false cs = some false
  | [] => by simp [Cond.andLoop]
  | c :: cs => by simp [Cond.andLoop, andLoop_false ops r cs]

theorem orLoop_true (ops : CondOps V) (r : R) : ∀ cs : List (Cond R V), Cond.orLoop ops r true cs = some true
  | [] => by simp [Cond.orLoop]
  | c :: cs => by simp [Cond.orLoop, orLoop_true ops r cs]

theorem cmp_means {get : R → Option V} {op : V → V → Bool} {v : V} {r : R} {P : V → Prop} (h : ∀ x, op x v = true ↔ P x) {b : Bool} :
    ((get r).map fun x => op x v) = some b ↔ ∃ x, get r = some x ∧ (P x ↔ b = true) := by
  cases hg : get r with
  | none => simp
  | some x =>
    simp only [Option.map_some, Option.some.injEq]
    constructor
    · intro he; exact ⟨x, rfl, by rw [← h x, he]⟩
    · rintro ⟨y, hy, hp⟩
      cases hy
      have := h x
      cases hb : op x v <;> cases b <;> simp_all

mutual
theorem eval_means {ops : CondOps V} {lt : V → V → Prop} (hops : Spec.LawfulOps ops lt) (r : R) :
    ∀ (c : Cond R V) (b : Bool), c.eval ops r = some b ↔ Spec.Means lt r c b
  | .func f, b => by
    simp only [Cond.eval]
    exact ⟨fun h => .func f b h, fun h => by cases h; assumption⟩
  | .eq get v, b => by
    rw [Cond.eval, cmp_means (P := fun x => x = v) (fun x => hops.eq x v)]
    constructor
    · rintro ⟨x, hx, h⟩
      cases b with
      | true => exact .eqT _ _ x hx (h.2 rfl)
      | false => exact .eqF _ _ x hx (fun he => by simpa using h.1 he)
    · intro h
      cases h with
      | eqT _ _ x h1 h2 => exact ⟨x, h1, by simp [h2]⟩
      | eqF _ _ x h1 h2 => exact ⟨x, h1, by simp [h2]⟩
  | .gt get v, b => by
    rw [Cond.eval, cmp_means (P := fun x => lt v x) (fun x => hops.gt x v)]
    constructor
    · rintro ⟨x, hx, h⟩
      cases b with
      | true => exact .gtT _ _ x hx (h.2 rfl)
      | false => exact .gtF _ _ x hx (fun he => by simpa using h.1 he)
    · intro h
      cases h with
      | gtT _ _ x h1 h2 => exact ⟨x, h1, by simp [h2]⟩
      | gtF _ _ x h1 h2 => exact ⟨x, h1, by simp [h2]⟩
  | .gte get v, b => by
    rw [Cond.eval, cmp_means (P := fun x => lt v x ∨ x = v) (fun x => hops.ge x v)]
    constructor
    · rintro ⟨x, hx, h⟩
      cases b with
      | true => exact .gteT _ _ x hx (h.2 rfl)
      | false => exact .gteF _ _ x hx (fun he => by simpa using h.1 he)
    · intro h
      cases h with
      | gteT _ _ x h1 h2 => exact ⟨x, h1, by simp [h2]⟩
      | gteF _ _ x h1 h2 => exact ⟨x, h1, by simp [h2]⟩
  | .lt get v, b => by
    rw [Cond.eval, cmp_means (P := fun x => lt x v) (fun x => hops.lt x v)]
    constructor
    · rintro ⟨x, hx, h⟩
      cases b with
      | true => exact .ltT _ _ x hx (h.2 rfl)
      | false => exact .ltF _ _ x hx (fun he => by simpa using h.1 he)
    · intro h
      cases h with
      | ltT _ _ x h1 h2 => exact ⟨x, h1, by simp [h2]⟩
      | ltF _ _ x h1 h2 => exact ⟨x, h1, by simp [h2]⟩
  | .lte get v, b => by
    rw [Cond.eval, cmp_means (P := fun x => lt x v ∨ x = v) (fun x => hops.le x v)]
    constructor
    · rintro ⟨x, hx, h⟩
      cases b with
      | true => exact .lteT _ _ x hx (h.2 rfl)
      | false => exact .lteF _ _ x hx (fun he => by simpa using h.1 he)
    · intro h
      cases h with
      | lteT _ _ x h1 h2 => exact ⟨x, h1, by simp [h2]⟩
      | lteF _ _ x h1 h2 => exact ⟨x, h1, by simp [h2]⟩
  | .and cs, b => by rw [Cond.eval]; exact and_means hops r cs b
  | .or cs, b => by rw [Cond.eval]; exact or_means hops r cs b
  | .not c, b => by
    rw [Cond.eval]
    have ih := eval_means hops r c
    constructor
    · intro h
      cases hc : c.eval ops r with
      | none => rw [hc] at h; cases h
      | some b' =>
        rw [hc] at h
        cases h
        exact .not c b' ((ih b').1 hc)
    · intro h
      cases h with
      | not _ b' h => rw [(ih b').2 h]; rfl
  | .nilCond, b => by
    rw [Cond.eval]
    constructor
    · intro h; cases h
    · intro h; cases h
theorem and_means {ops : CondOps V} {lt : V → V → Prop} (hops : Spec.LawfulOps ops lt) (r : R) :
    ∀ (cs : List (Cond R V)) (b : Bool), Cond.andLoop ops r true cs = some b ↔ Spec.Means lt r (.and cs) b
  | [], b => by
    rw [Cond.andLoop]
    constructor
    · intro h; cases h; exact .andNil
    · intro h; cases h; rfl
  | c :: cs, b => by
    rw [Cond.andLoop]
    have ihc := eval_means hops r c
    have ihs := and_means hops r cs
    cases hc : c.eval ops r with
    | none =>
      simp only [if_true]
      constructor
      · intro h; cases h
      · intro h
        cases h with
        | andF _ _ h => rw [(ihc _).2 h] at hc; cases hc
        | andT _ _ _ h _ => rw [(ihc _).2 h] at hc; cases hc
    | some b' =>
      simp only [if_true]
      cases b' with
      | true =>
        rw [ihs b]
        constructor
        · intro h; exact .andT c cs b ((ihc _).1 hc) h
        · intro h
          cases h with
          | andF _ _ h => rw [(ihc _).2 h] at hc; cases hc
          | andT _ _ _ _ h => exact h
      | false =>
        rw [andLoop_false]
        constructor
        · intro h; cases h; exact .andF c cs ((ihc _).1 hc)
        · intro h
          cases h with
          | andF _ _ h => rfl
          | andT _ _ _ h _ => rw [(ihc _).2 h] at hc; cases hc
theorem or_means {ops : CondOps V} {lt : V → V → Prop} (hops : Spec.LawfulOps ops lt) (r : R) :
    ∀ (cs : List (Cond R V)) (b : Bool), Cond.orLoop ops r false cs = some b ↔ Spec.Means lt r (.or cs) b
  | [], b => by
    rw [Cond.orLoop]
    constructor
    · intro h; cases h; exact .orNil
    · intro h; cases h; rfl
  | c :: cs, b => by
    rw [Cond.orLoop]
    have ihc := eval_means hops r c
    have ihs := or_means hops r cs
    cases hc : c.eval ops r with
    | none =>
      simp only [Bool.false_eq_true, if_false]
      constructor
      · intro h; cases h
      · intro h
        cases h with
        | orT _ _ h => rw [(ihc _).2 h] at hc; cases hc
        | orF _ _ _ h _ => rw [(ihc _).2 h] at hc; cases hc
    | some b' =>
      simp only [Bool.false_eq_true, if_false]
      cases b' with
      | false =>
        rw [ihs b]
        constructor
        · intro h; exact .orF c cs b ((ihc _).1 hc) h
        · intro h
          cases h with
          | orT _ _ h => rw [(ihc _).2 h] at hc; cases hc
          | orF _ _ _ _ h => exact h
      | true =>
        rw [orLoop_true]
        constructor
        · intro h; cases h; exact .orT c cs ((ihc _).1 hc)
        · intro h
          cases h with
          | orT _ _ h => rfl
          | orF _ _ _ h _ => rw [(ihc _).2 h] at hc; cases hc
end

/-- C50: every condition, however nested, evaluates to `b` exactly when its formula has the truth value `b` (read from the left, panics
of unreached members not counting). -/
theorem C50 {ops : CondOps V} {lt : V → V → Prop} (hops : Spec.LawfulOps ops lt) (r : R) (c : Cond R V) (b : Bool) :
    c.eval ops r = some b ↔ Spec.Means lt r c b := eval_means hops r c b

/-- the classical formula of a condition without nil and with functions and getters that do not panic -/
inductive Spec.Total (r : R) : Cond R V → Prop
  | func (f : R → Option Bool) : f r ≠ none → Spec.Total r (.func f)
  | eq (get : R → Option V) (v : V) : get r ≠ none → Spec.Total r (.eq get v)
  | gt (get : R → Option V) (v : V) : get r ≠ none → Spec.Total r (.gt get v)
  | gte (get : R → Option V) (v : V) : get r ≠ none → Spec.Total r (.gte get v)
  | lt (get : R → Option V) (v : V) : get r ≠ none → Spec.Total r (.lt get v)
  | lte (get : R → Option V) (v : V) : get r ≠ none → Spec.Total r (.lte get v)
  | and (cs : List (Cond R V)) : (∀ c ∈ cs, Spec.Total r c) → Spec.Total r (.and cs)
  | or (cs : List (Cond R V)) : (∀ c ∈ cs, Spec.Total r c) → Spec.Total r (.or cs)
  | not (c : Cond R V) : Spec.Total r c → Spec.Total r (.not c)

mutual
theorem total_eval (ops : CondOps V) (r : R) : ∀ c : Cond R V, Spec.Total r c → ∃ b, c.eval ops r = some b
  | .func f, h => by cases h with | func _ h => cases hf : f r with | none => exact absurd hf h | some b => exact ⟨b, by simp [Cond.eval, hf]⟩
  | .eq get v, h => by cases h with | eq _ _ h => cases hf : get r with | none => exact absurd hf h | some b => exact ⟨_, by simp [Cond.eval, hf]; rfl⟩
  | .gt get v, h => by cases h with | gt _ _ h => cases hf : get r with | none => exact absurd hf h | some b => exact ⟨_, by simp [Cond.eval, hf]; rfl⟩
  | .gte get v, h => by cases h with | gte _ _ h => cases hf : get r with | none => exact absurd hf h | some b => exact ⟨_, by simp [Cond.eval, hf]; rfl⟩
  | .lt get v, h => by cases h with | lt _ _ h => cases hf : get r with | none => exact absurd hf h | some b => exact ⟨_, by simp [Cond.eval, hf]; rfl⟩
  | .lte get v, h => by cases h with | lte _ _ h => cases hf : get r with | none => exact absurd hf h | some b => exact ⟨_, by simp [Cond.eval, hf]; rfl⟩
  | .and cs, h => by cases h with | and _ h => rw [Cond.eval]; exact (total_and ops r cs h true).imp fun b hb => hb.1
  | .or cs, h => by cases h with | or _ h => rw [Cond.eval]; exact (total_or ops r cs h false).imp fun b hb => hb.1
  | .not c, h => by
    cases h with
    | not _ h =>
      obtain ⟨b, hb⟩ := total_eval ops r c h
      exact ⟨!b, by simp [Cond.eval, hb]⟩
  | .nilCond, h => by cases h
theorem total_and (ops : CondOps V) (r : R) : ∀ cs : List (Cond R V), (∀ c ∈ cs, Spec.Total r c) → ∀ e,
    ∃ b, Cond.andLoop ops r e cs = some b ∧ (b = true ↔ e = true ∧ ∀ c ∈ cs, c.eval ops r = some true)
  | [], _, e => ⟨e, by simp [Cond.andLoop], by simp⟩
  | c :: cs, h, e => by
    obtain ⟨b, hb⟩ := total_eval ops r c (h c (by simp))
    cases e with
    | false => exact ⟨false, andLoop_false ops r _, by simp⟩
    | true =>
      obtain ⟨b2, h1, h2⟩ := total_and ops r cs (fun c hc => h c (by simp [hc])) b
      refine ⟨b2, by rw [Cond.andLoop, hb]; simpa using h1, ?_⟩
      rw [h2]; simp [hb]
theorem total_or (ops : CondOps V) (r : R) : ∀ cs : List (Cond R V), (∀ c ∈ cs, Spec.Total r c) → ∀ e,
    ∃ b, Cond.orLoop ops r e cs = some b ∧ (b = true ↔ e = true ∨ ∃ c ∈ cs, c.eval ops r = some true)
  | [], _, e => ⟨e, by simp [Cond.orLoop], by simp⟩
  | c :: cs, h, e => by
    obtain ⟨b, hb⟩ := total_eval ops r c (h c (by simp))
    cases e with
    | true => exact ⟨true, orLoop_true ops r _, by simp⟩
    | false =>
      obtain ⟨b2, h1, h2⟩ := total_or ops r cs (fun c hc => h c (by simp [hc])) b
      refine ⟨b2, by rw [Cond.orLoop, hb]; simpa using h1, ?_⟩
      rw [h2]; simp [hb]
end

/-- C50: conditions that do not panic always evaluate; And is "all", Or is "some", Not is "not", of the members' values. -/
theorem C50_total (ops : CondOps V) (r : R) :
    (∀ c : Cond R V, Spec.Total r c → ∃ b, c.eval ops r = some b) ∧
    (∀ cs : List (Cond R V), (∀ c ∈ cs, Spec.Total r c) →
      ((Cond.and cs).eval ops r = some true ↔ ∀ c ∈ cs, c.eval ops r = some true) ∧
      ((Cond.or cs).eval ops r = some true ↔ ∃ c ∈ cs, c.eval ops r = some true)) ∧
    (∀ c : Cond R V, Spec.Total r c → ((Cond.not c).eval ops r = some true ↔ ¬ c.eval ops r = some true)) := by
  refine ⟨total_eval ops r, ?_, ?_⟩
  · intro cs h
    obtain ⟨b1, h1, h2⟩ := total_and ops r cs h true
    obtain ⟨b3, h3, h4⟩ := total_or ops r cs h false
    rw [Cond.eval, Cond.eval, h1, h3]
    simp at h2 h4 ⊢
    exact ⟨h2, h4⟩
  · intro c h
    obtain ⟨b, hb⟩ := total_eval ops r c h
    rw [Cond.eval, hb]
    cases b <;> simp

/-- the operators of Go's integer types -/
def intOps : CondOps Int :=
  ⟨fun x y => decide (x = y), fun x y => decide (x > y), fun x y => decide (x ≥ y), fun x y => decide (x < y), fun x y => decide (x ≤ y)⟩

theorem intOps_lawful : Spec.LawfulOps intOps (· < ·) := by
  constructor <;> intro x y <;> simp [intOps] <;> omega

/-- `C50` over the integers -/
example (r : Rec) (c : Cond Rec Int) (b : Bool) : c.eval intOps r = some b ↔ Spec.Means (· < ·) r c b := C50 intOps_lawful r c b

/-- hypotheses are met, for a nested condition with a panicking member behind a decided one -/
example : Spec.LawfulOps intOps (· < ·) ∧
    (Cond.and [.gt (fun r : Int => some r) 3, .not (.or [.eq some 5, .lte some 4, .func fun _ => none]), .lt some 9] : Cond Int Int).eval intOps 5 =
      some false := ⟨intOps_lawful, by decide⟩

end Bond
