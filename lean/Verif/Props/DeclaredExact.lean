import Verif.Spec.DeclaredExact
import Verif.Props.Declared
/-
C101, exact: scans and queries of builder-made keys return the rows in the exact order of the declared fields, without a condition on descending
fields that hold the smallest integer.
-/
namespace Bond
open Spec
variable {T F : Type}

theorem shown_lt_exact {d : OrderType} {f g : Field} (hk : f.kind = g.kind) (hf : f.kind.fixed = true) :
    ((shown (d, f)).lt (shown (d, g)) ↔ if d = DESC then f.descLt g else f.lt g) ∧ (shown (d, f) = shown (d, g) ↔ f = g) := by
  unfold shown
  by_cases hd : d = DESC
  · simp only [hd, if_true]
    exact ⟨flip_lt_exact hk hf, flip_inj_fixed hk hf, fun h => by rw [h]⟩
  · simp only [hd, if_false]
    exact ⟨trivial, trivial⟩

theorem orderLt_shown_exact : ∀ {l l' : List (OrderType × Field)}, l.map (fun p => (p.1, p.2.kind)) = l'.map (fun p => (p.1, p.2.kind)) →
    (∀ p ∈ l, p.2.kind.fixed = true) → (tupleLt (l.map shown) (l'.map shown) ↔ orderLtX l l') ∧ (l.map shown = l'.map shown ↔ l = l')
  | [], [], _, _ => ⟨Iff.rfl, by simp⟩
  | [], _ :: _, h, _ => by simp at h
  | _ :: _, [], h, _ => by simp at h
  | (d, f) :: l, (d', g) :: l', h, hf => by
    simp only [List.map_cons, List.cons.injEq, Prod.mk.injEq] at h
    obtain ⟨⟨rfl, hk⟩, h⟩ := h
    obtain ⟨a1, a2⟩ := shown_lt_exact (d := d) hk (hf (d, f) (by simp))
    obtain ⟨b1, b2⟩ := orderLt_shown_exact h (fun p hp => hf p (by simp [hp]))
    refine ⟨?_, ?_⟩
    · simp only [List.map_cons, tupleLt, orderLtX, a1, a2, b1]
    · simp only [List.map_cons, List.cons.injEq, a2, b2, Prod.mk.injEq, true_and]

/-- where no descending field holds the smallest integer, this is the order of C101 -/
theorem orderLtX_eq : ∀ {l l' : List (OrderType × Field)}, (∀ p ∈ l, p.1 = DESC → p.2.minInt = false) → (∀ p ∈ l', p.1 = DESC → p.2.minInt = false) →
    l.map (fun p => (p.1, p.2.kind)) = l'.map (fun p => (p.1, p.2.kind)) → (orderLtX l l' ↔ orderLt l l')
  | [], [], _, _, _ => Iff.rfl
  | [], _ :: _, _, _, h => by simp at h
  | _ :: _, [], _, _, h => by simp at h
  | (d, f) :: l, (d', g) :: l', h1, h2, h => by
    simp only [List.map_cons, List.cons.injEq, Prod.mk.injEq] at h
    obtain ⟨⟨rfl, hk⟩, h⟩ := h
    have := orderLtX_eq (fun p hp => h1 p (by simp [hp])) (fun p hp => h2 p (by simp [hp])) h
    simp only [orderLtX, orderLt, this]
    by_cases hd : d = DESC
    · simp [hd, Field.descLt, h1 (d, f) (by simp) hd, h2 (d, g) (by simp) hd]
    · simp [hd]

namespace DeclaredAny
variable {t : Table T F} {idx : Index T} {pkF keyF : T → List Field} {ordF : T → List (OrderType × Field)} {A : T → Prop}

theorem mono (D : DeclaredAny t idx pkF keyF ordF A) {B : T → Prop} (h : ∀ x, B x → A x) : DeclaredAny t idx pkF keyF ordF B :=
  ⟨fun x hx => D.pk x (h x hx), fun x hx => D.key x (h x hx), fun x hx => D.ord x (h x hx), fun x y hx hy => D.pkKind x y (h x hx) (h y hy),
    fun x y hx hy => D.keyKind x y (h x hx) (h y hy), fun x y hx hy => D.ordKind x y (h x hx) (h y hy), fun x hx => D.pkFixed x (h x hx),
    fun x hx => D.keyOne x (h x hx), fun x hx => D.ordFixed x (h x hx)⟩

theorem pkLt (D : DeclaredAny t idx pkF keyF ordF A) {x y : T} (hx : A x) (hy : A y) :
    (blt (t.pk x) (t.pk y) = true ↔ tupleLt (pkF x) (pkF y)) := by
  obtain ⟨b, h1, h2⟩ := D.pk x hx
  obtain ⟨b', g1, g2⟩ := D.pk y hy
  rw [← h2, ← g2]
  exact C03 _ _ _ _ _ (D.pkKind x y hx hy) (D.pkFixed x hx) h1 g1

theorem keyEq (D : DeclaredAny t idx pkF keyF ordF A) {x y : T} (hx : A x) (hy : A y) : idx.key x = idx.key y ↔ keyF x = keyF y := by
  obtain ⟨b, h1, h2⟩ := D.key x hx
  obtain ⟨b', g1, g2⟩ := D.key y hy
  constructor
  · intro h
    exact C04_partial _ _ _ _ _ (D.keyKind x y hx hy) (D.keyOne x hx) h1 g1 (by rw [h2, g2, h])
  · intro h
    rw [h, g1] at h1
    cases h1
    rw [← h2, ← g2]

theorem ordLt (D : DeclaredAny t idx pkF keyF ordF A) {x y : T} (hx : A x) (hy : A y) :
    (idx.ord x).length = (idx.ord y).length ∧ (blt (idx.ord x) (idx.ord y) = true ↔ orderLtX (ordF x) (ordF y)) ∧
    (idx.ord x = idx.ord y ↔ ordF x = ordF y) := by
  obtain ⟨o, h1, h2⟩ := D.ord x hx
  obtain ⟨o', g1, g2⟩ := D.ord y hy
  obtain ⟨p, h3, h4⟩ := addFields_enc (orderFields_eq _ h1)
  obtain ⟨q, g3, g4⟩ := addFields_enc (orderFields_eq _ g1)
  have hp : idx.ord x = p := by rw [← h2]; exact h4
  have hq : idx.ord y = q := by rw [← g2]; exact g4
  have hk : ((ordF x).map shown).map Field.kind = ((ordF y).map shown).map Field.kind := by
    have := congrArg (List.map Prod.snd) (D.ordKind x y hx hy)
    simpa [List.map_map, Function.comp_def, shown_kind] using this
  have hfix : ∀ f ∈ (ordF x).map shown, f.kind.fixed = true := by
    intro f hf
    obtain ⟨r, hr, rfl⟩ := List.mem_map.1 hf
    rw [shown_kind]
    exact D.ordFixed x hx r hr
  obtain ⟨s1, s2⟩ := orderLt_shown_exact (D.ordKind x y hx hy) (D.ordFixed x hx)
  rw [hp, hq]
  refine ⟨encFields_length_fixed hk hfix h3 g3, ?_, ?_⟩
  · rw [encFields_lt hk (by rw [List.all_eq_true]; exact fun f hf => hfix f ((List.dropLast_sublist _).subset hf)) h3 g3, s1]
  · rw [← s2]
    constructor
    · intro h
      subst h
      refine encFields_inj hk ?_ h3 g3
      rw [List.filter_eq_nil_iff.2 (fun f hf => by simp [hfix f hf])]
      exact Nat.zero_le _
    · intro h
      have : some p = some q := by
        rw [← h3, ← g3]; exact congrArg _ h
      exact Option.some.inj this

theorem idxLt (D : DeclaredAny t idx pkF keyF ordF A) {x y : T} (hx : A x) (hy : A y) (hk : keyF x = keyF y) :
    IdxLt t idx x y ↔ RowLtX ordF pkF x y := by
  obtain ⟨a, b, c⟩ := D.ordLt hx hy
  have hk := (D.keyEq hx hy).2 hk
  simp only [IdxLt, RowLtX, hk, a, b, c, blt_irrefl, D.pkLt hx hy, Nat.lt_irrefl, false_or, true_and, Bool.false_eq_true]

theorem keyLt (D : DeclaredAny t idx pkF keyF ordF A) (hfix : ∀ x, A x → ∀ f ∈ keyF x, f.kind.fixed = true) {x y : T} (hx : A x) (hy : A y) :
    (idx.key x).length = (idx.key y).length ∧ (blt (idx.key x) (idx.key y) = true ↔ tupleLt (keyF x) (keyF y)) := by
  obtain ⟨b, h1, h2⟩ := D.key x hx
  obtain ⟨b', g1, g2⟩ := D.key y hy
  obtain ⟨p, h3, h4⟩ := addFields_enc h1
  obtain ⟨q, g3, g4⟩ := addFields_enc g1
  rw [← h2, ← g2, h4, g4]
  exact ⟨by simpa using encFields_length_fixed (D.keyKind x y hx hy) (hfix x hx) h3 g3, by
    rw [blt_append_left, encFields_lt (D.keyKind x y hx hy) (by rw [List.all_eq_true]; exact fun f hf => hfix x hx f ((List.dropLast_sublist _).subset hf)) h3 g3]⟩

theorem entryLt (D : DeclaredAny t idx pkF keyF ordF A) (hfix : ∀ x, A x → ∀ f ∈ keyF x, f.kind.fixed = true) {x y : T} (hx : A x) (hy : A y) :
    IdxLt t idx x y ↔ EntryLtX keyF ordF pkF x y := by
  obtain ⟨a, b⟩ := D.keyLt hfix hx hy
  obtain ⟨c, d, e⟩ := D.ordLt hx hy
  simp only [IdxLt, EntryLtX, RowLtX, a, b, c, d, e, D.keyEq hx hy, D.pkLt hx hy, Nat.lt_irrefl, false_or, true_and]

end DeclaredAny

/-- C101 (point, exact): also where descending fields hold the smallest integer (such rows sort first): a scan for a record `p` returns the rows that have the index fields of `p` and are not before `p`, once each, sorted by the
declared order fields, ascending or descending as declared, then by the fields of the primary key; a reverse scan the other way round.
Hypothesis: the index value of `p` does not end with 0xFF (see C24). -/
theorem C101_point_exact {t : Table T F} {env : Env T} {filt : F} {db : KV} {ob : Option Batch} {m : Rows T}
    (S : Setting t env filt db ob m) {idx : Index T} (hi : IsIndex t idx) {pkF keyF : T → List Field} {ordF : T → List (OrderType × Field)} {p : T}
    (D : DeclaredAny t idx pkF keyF ordF (fun x => x = p ∨ m (t.pk x) = some x)) (hn : NoTrailingFF (idx.key p)) (hl : (idx.key p).length < 2 ^ 32 - 1) :
    ∃ rows : List T, rows.Pairwise (RowLtX ordF pkF) ∧
      (∀ x, x ∈ rows ↔ m (t.pk x) = some x ∧ idx.filter x = true ∧ keyF x = keyF p ∧ ¬ RowLtX ordF pkF x p) ∧
      ∀ reverse, Yields t env filt db ob idx (.point p) reverse (dir reverse rows) := by
  obtain ⟨rows, ⟨h1, h2⟩, h3⟩ := C24_partial S hi hn hl
  refine ⟨rows, ?_, fun x => ?_, h3⟩
  · refine h1.imp_of_mem (fun {x y} hx hy h => ?_)
    obtain ⟨⟨ax, _⟩, kx, _⟩ := (h2 x).1 hx
    obtain ⟨⟨ay, _⟩, ky, _⟩ := (h2 y).1 hy
    exact (D.idxLt (Or.inr ax) (Or.inr ay) ((D.keyEq (Or.inr ax) (Or.inr ay)).1 (kx.trans ky.symm))).1 h
  · rw [h2]
    constructor
    · rintro ⟨⟨a, b⟩, c, d⟩
      have hk := (D.keyEq (Or.inr a) (Or.inl rfl)).1 c
      exact ⟨a, b, hk, fun h => d ((D.idxLt (Or.inr a) (Or.inl rfl) hk).2 h)⟩
    · rintro ⟨a, b, c, d⟩
      exact ⟨⟨a, b⟩, (D.keyEq (Or.inr a) (Or.inl rfl)).2 c, fun h => d ((D.idxLt (Or.inr a) (Or.inl rfl) c).1 h)⟩

/-- C101 (range, exact): if the index fields are of fixed width, a scan between `lo` and `up` returns the rows between them, both included, sorted by
the index fields, then the order fields, ascending or descending as declared, then the fields of the primary key. Hypotheses: the primary key
is made of fixed-width fields, and the one of `up` does not end with 0xFF (see C27). -/
theorem C101_range_exact {t : Table T F} {env : Env T} {filt : F} {db : KV} {ob : Option Batch} {m : Rows T}
    (S : Setting t env filt db ob m) {idx : Index T} (hi : IsIndex t idx) {pkF keyF : T → List Field} {ordF : T → List (OrderType × Field)} {lo up : T}
    (D : DeclaredAny t idx pkF keyF ordF (fun x => x = lo ∨ x = up ∨ m (t.pk x) = some x))
    (hfix : ∀ x, (x = lo ∨ x = up ∨ m (t.pk x) = some x) → ∀ f ∈ keyF x ++ pkF x, f.kind.fixed = true) (hne : pkF up ≠ [])
    (hn : NoTrailingFF (t.pk up)) (hl : ∀ p ∈ [lo, up], (idx.key p).length < 2 ^ 32 - 1) :
    ∃ rows : List T, rows.Pairwise (EntryLtX keyF ordF pkF) ∧
      (∀ x, x ∈ rows ↔ m (t.pk x) = some x ∧ idx.filter x = true ∧ ¬ EntryLtX keyF ordF pkF x lo ∧ ¬ EntryLtX keyF ordF pkF up x) ∧
      ∀ reverse, Yields t env filt db ob idx (.range lo up) reverse (dir reverse rows) := by
  have hk : ∀ x, (x = lo ∨ x = up ∨ m (t.pk x) = some x) → ∀ f ∈ keyF x, f.kind.fixed = true := fun x hx f hf => hfix x hx f (by simp [hf])
  have hpklen : ∀ x, m (t.pk x) = some x → (t.pk x).length = (t.pk up).length := by
    intro x hx
    obtain ⟨b, h1, h2⟩ := D.pk x (Or.inr (Or.inr hx))
    obtain ⟨b', g1, g2⟩ := D.pk up (Or.inr (Or.inl rfl))
    obtain ⟨p, h3, h4⟩ := addFields_enc h1
    obtain ⟨q, g3, g4⟩ := addFields_enc g1
    rw [← h2, ← g2, h4, g4]
    simpa using encFields_length_fixed (D.pkKind x up (Or.inr (Or.inr hx)) (Or.inr (Or.inl rfl)))
      (fun f hf => hfix x (Or.inr (Or.inr hx)) f (by simp [hf])) h3 g3
  have hne' : t.pk up ≠ [] := by
    obtain ⟨b', g1, g2⟩ := D.pk up (Or.inr (Or.inl rfl))
    obtain ⟨q, g3, g4⟩ := addFields_enc g1
    rw [← g2, g4]
    cases hf : pkF up with
    | nil => exact absurd hf hne
    | cons f fs =>
      rw [hf] at g3
      obtain ⟨pf, ef, _, _, rfl⟩ := encFields_cons g3
      simp
  obtain ⟨V, hV, hH⟩ := S.content
  obtain ⟨rows, ⟨h1, h2⟩, h3⟩ := C27_partial S hi (lo := lo) hne' hn hl (by
    intro pk x hx _ _ r hr
    have hpk := hH.row_pk pk x hx
    have := hpklen x (by rw [hpk]; exact hx)
    rw [hpk, hr, List.length_append] at this
    exact List.length_eq_zero_iff.1 (by omega))
  refine ⟨rows, ?_, fun x => ?_, h3⟩
  · refine h1.imp_of_mem (fun {x y} hx hy h => ?_)
    obtain ⟨⟨ax, _⟩, _⟩ := (h2 x).1 hx
    obtain ⟨⟨ay, _⟩, _⟩ := (h2 y).1 hy
    exact (D.entryLt hk (Or.inr (Or.inr ax)) (Or.inr (Or.inr ay))).1 h
  · rw [h2]
    simp only [Indexed, IdxLe]
    constructor
    · rintro ⟨⟨a, b⟩, c, d⟩
      exact ⟨a, b, fun h => c ((D.entryLt hk (Or.inr (Or.inr a)) (Or.inl rfl)).2 h),
        fun h => d ((D.entryLt hk (Or.inr (Or.inl rfl)) (Or.inr (Or.inr a))).2 h)⟩
    · rintro ⟨a, b, c, d⟩
      exact ⟨⟨a, b⟩, fun h => c ((D.entryLt hk (Or.inr (Or.inr a)) (Or.inl rfl)).1 h),
        fun h => d ((D.entryLt hk (Or.inr (Or.inl rfl)) (Or.inr (Or.inr a))).1 h)⟩

/-- C101 (queries, exact): a query on the index without Order returns a page of the same rows, of those its filter accepts. -/
theorem C101_query_exact {t : Table T F} {env : Env T} {filt : F} {db : KV} {ob : Option Batch} {m : Rows T}
    (S : Setting t env filt db ob m) (srt : (T → T → Bool) → List T → List T) (q : Query T) {p : T} (hsel : q.sel = .point p)
    (hint : q.intersects = []) (hi : IsIndex t q.index) (haft : q.after = none) (hless : q.less = none)
    (ho : q.offset.toNat < 2 ^ 63) (hL : q.limit.toNat < 2 ^ 63) {pkF keyF : T → List Field} {ordF : T → List (OrderType × Field)}
    (D : DeclaredAny t q.index pkF keyF ordF (fun x => x = p ∨ m (t.pk x) = some x)) (hn : NoTrailingFF (q.index.key p))
    (hl : (q.index.key p).length < 2 ^ 32 - 1) :
    ∃ rows : List T, rows.Pairwise (RowLtX ordF pkF) ∧
      (∀ x, x ∈ rows ↔ m (t.pk x) = some x ∧ q.index.filter x = true ∧ keyF x = keyF p ∧ ¬ RowLtX ordF pkF x p) ∧
      Returns t env srt filt db ob q (page q.offset.toNat q.limit.toNat ((dir q.reverse rows).filter (accepts q))) := by
  obtain ⟨rows, h1, h2, h3⟩ := C101_point_exact S hi D hn hl
  refine ⟨rows, h1, h2, ?_⟩
  obtain ⟨rows', g1, g2⟩ := C30 S srt q hint hi (by rw [hsel]; exact ⟨by simp [Selector.elems], by simpa [Selector.elems] using hl⟩) haft hless ho hL
  rw [hsel] at g1
  rwa [g1.unique (h3 q.reverse)] at g2

/-! ## example: accounts, also with the smallest balance -/

/-- C101_point_exact and C101_range_exact speak about the table of accounts, whatever it holds -/
theorem acc_declaredAny : DeclaredAny accTable accIndex (fun x => [.u32 x.1]) (fun x => [.byte x.2.1]) (fun x => [(DESC, .i64 x.2.2)])
    (fun _ => True) where
  pk x _ := ⟨_, rfl, rfl⟩
  key x _ := ⟨_, rfl, rfl⟩
  ord x _ := ⟨_, rfl, rfl⟩
  pkKind _ _ _ _ := rfl
  keyKind _ _ _ _ := rfl
  ordKind _ _ _ _ := rfl
  pkFixed x _ f hf := by simp at hf
  keyOne x _ := by simp [Field.kind, Kind.fixed]
  ordFixed x _ p hp := by simp at hp; subst hp; rfl

/-- a balance that is the smallest integer, and two others -/
def minRows : List Account := [(1, 5, BitVec.intMin 64), (2, 5, -1), (3, 5, 7)]

/-- a database that holds them -/
def minDB : KV := (accTable.insert (stdEnv accTable) KV.empty () none minRows).db

/-- what it holds -/
def minM : Rows Account := Rows.putAll (fun _ => none) accTable.pk minRows

theorem min_setting : Setting accTable (stdEnv accTable) () minDB none minM where
  wf := acc_wf
  rt := acc_rt
  ok := stdEnv_ok accTable
  alive := fun _ => rfl
  prefetch := by decide
  content := ⟨minDB, rfl, by
    have hn : (minRows.map accTable.pk).Nodup := by decide +kernel
    have he : (accTable.insert (stdEnv accTable) KV.empty () none minRows).err = none := by decide +kernel
    exact (insert_view acc_wf (stdEnv_ok accTable) (fun _ h => nomatch h) (by decide : 0 < persistentBatchSize) (ob := none) (f := ())
      (holds_empty accTable) (covers_nofilter rfl _ _) (callReads_none (Or.inl hn)) he).1⟩
  covers := covers_nofilter rfl _ _

/-- a scan from the smallest balance on: it comes first, although declared descending -/
example : accTable.scanIndex (stdEnv accTable) () minDB none accIndex (.point (0, 5, BitVec.intMin 64)) false 30 [] =
    some ⟨[(1, 5, BitVec.intMin 64), (3, 5, 7), (2, 5, -1)], none⟩ := by decide +kernel

/-- C101_point_exact speaks about this scan -/
example : ∃ rows : List Account, rows.Pairwise (RowLtX (fun x => [(DESC, .i64 x.2.2)]) (fun x => [.u32 x.1])) ∧
    (∀ x, x ∈ rows ↔ minM (accTable.pk x) = some x ∧ true = true ∧ [Field.byte x.2.1] = [.byte 5] ∧
      ¬ RowLtX (fun x => [(DESC, .i64 x.2.2)]) (fun x => [.u32 x.1]) x (0, 5, BitVec.intMin 64)) ∧
    ∀ reverse, Yields accTable (stdEnv accTable) () minDB none accIndex (.point (0, 5, BitVec.intMin 64)) reverse (dir reverse rows) :=
  C101_point_exact (p := ((0, 5, BitVec.intMin 64) : Account)) min_setting (Or.inl (by simp [accTable])) (acc_declaredAny.mono (fun _ _ => trivial))
    (by simp [NoTrailingFF, accIndex, KeyBuilder.addByteField, KeyBuilder.putFieldID, KeyBuilder.new, KeyBuilder.bytes])
    (by simp [accIndex, KeyBuilder.addByteField, KeyBuilder.putFieldID, KeyBuilder.new, KeyBuilder.bytes])

/-- C101_range_exact speaks about a range scan of it -/
example : ∃ rows : List Account, rows.Pairwise (EntryLtX (fun x => [.byte x.2.1]) (fun x => [(DESC, .i64 x.2.2)]) (fun x => [.u32 x.1])) ∧
    (∀ x, x ∈ rows ↔ minM (accTable.pk x) = some x ∧ true = true ∧
      ¬ EntryLtX (fun x => [.byte x.2.1]) (fun x => [(DESC, .i64 x.2.2)]) (fun x => [.u32 x.1]) x (0, 5, BitVec.intMin 64) ∧
      ¬ EntryLtX (fun x => [.byte x.2.1]) (fun x => [(DESC, .i64 x.2.2)]) (fun x => [.u32 x.1]) (9, 5, 0) x) ∧
    ∀ reverse, Yields accTable (stdEnv accTable) () minDB none accIndex (.range (0, 5, BitVec.intMin 64) (9, 5, 0)) reverse (dir reverse rows) :=
  C101_range_exact (lo := ((0, 5, BitVec.intMin 64) : Account)) (up := ((9, 5, 0) : Account)) min_setting (Or.inl (by simp [accTable]))
    (acc_declaredAny.mono (fun _ _ => trivial)) (by intro x _ f hf; simp at hf; rcases hf with rfl | rfl <;> rfl) (by simp)
    (by intro h; revert h; decide) (by intro p hp; simp at hp; rcases hp with rfl | rfl <;> decide)

/-- C101_query_exact speaks about a query with Offset, Limit and Filter over it -/
example := C101_query_exact (p := ((0, 5, BitVec.intMin 64) : Account)) min_setting insSort
  { index := accIndex, sel := .point (0, 5, BitVec.intMin 64), filter := some (fun x => x.1 != 3), offset := 1, limit := 1, reverse := true } rfl rfl
  (Or.inl (by simp [accTable])) rfl rfl (by decide) (by decide) (acc_declaredAny.mono (fun _ _ => trivial))
  (by simp [NoTrailingFF, accIndex, KeyBuilder.addByteField, KeyBuilder.putFieldID, KeyBuilder.new, KeyBuilder.bytes])
  (by simp [accIndex, KeyBuilder.addByteField, KeyBuilder.putFieldID, KeyBuilder.new, KeyBuilder.bytes])

/-- orderLtX_eq at a mixed order without smallest integers -/
example : orderLtX [(DESC, .i64 5), (ASC, .u16 3)] [(DESC, .i64 2), (ASC, .u16 1)] ↔
    orderLt [(DESC, .i64 5), (ASC, .u16 3)] [(DESC, .i64 2), (ASC, .u16 1)] :=
  orderLtX_eq (by intro p hp; simp at hp; rcases hp with rfl | rfl <;> decide) (by intro p hp; simp at hp; rcases hp with rfl | rfl <;> decide) rfl

end Bond
