import Verif.Spec.Declared
import Verif.Props.KeyFields
import Verif.Props.Scans
import Verif.Props.Queries
/-
C101: scans return the rows sorted by the declared fields, ascending and descending. C08 for keys made with builders.
-/
namespace Bond
open Spec
variable {T F : Type}

/-- the field that is written (index.go:29-110) -/
def shown (p : OrderType × Field) : Field := if p.1 = DESC then flipField p.2 else p.2

theorem orderFields_eq (l : List (OrderType × Field)) : ∀ {o o' : IndexOrder}, o.orderFields l = some o' →
    o.keyBuilder.addFields (l.map shown) = some o'.keyBuilder := by
  induction l with
  | nil => intro o o' h; cases h; rfl
  | cons p l ih =>
    intro o o' h
    obtain ⟨d, f⟩ := p
    simp only [IndexOrder.orderFields, Option.bind_eq_some_iff] at h
    obtain ⟨o1, h1, h2⟩ := h
    simp only [List.map_cons, KeyBuilder.addFields, Option.bind_eq_some_iff]
    exact ⟨_, orderField_eq o f d h1, ih h2⟩

theorem shown_kind (p : OrderType × Field) : (shown p).kind = p.2.kind := by
  unfold shown; split
  · exact flip_kind _
  · rfl

theorem not_lenDiffer {f g : Field} (h : f.kind.fixed = true) : ¬ f.lenDiffer g := by
  cases f <;> cases g <;> simp_all [Field.lenDiffer, Field.kind, Kind.fixed]

theorem shown_lt {d : OrderType} {f g : Field} (hk : f.kind = g.kind) (hf : f.kind.fixed = true) (h1 : d = DESC → f.minInt = false)
    (h2 : d = DESC → g.minInt = false) : ((shown (d, f)).lt (shown (d, g)) ↔ if d = DESC then g.lt f else f.lt g) ∧
    (shown (d, f) = shown (d, g) ↔ f = g) := by
  have hs : f.kind ≠ .str := by intro h; rw [h] at hf; cases hf
  unfold shown
  by_cases hd : d = DESC
  · simp only [hd, if_true]
    exact ⟨flip_lt hk hs (h1 hd) (h2 hd) (not_lenDiffer hf), flip_inj hk hs (h1 hd) (h2 hd) (not_lenDiffer hf), fun h => by rw [h]⟩
  · simp only [hd, if_false]
    exact ⟨trivial, trivial⟩

theorem orderLt_shown : ∀ {l l' : List (OrderType × Field)}, l.map (fun p => (p.1, p.2.kind)) = l'.map (fun p => (p.1, p.2.kind)) →
    (∀ p ∈ l, p.2.kind.fixed = true) → (∀ p ∈ l, p.1 = DESC → p.2.minInt = false) → (∀ p ∈ l', p.1 = DESC → p.2.minInt = false) →
    (tupleLt (l.map shown) (l'.map shown) ↔ orderLt l l') ∧ (l.map shown = l'.map shown ↔ l = l')
  | [], [], _, _, _, _ => ⟨Iff.rfl, by simp⟩
  | [], _ :: _, h, _, _, _ => by simp at h
  | _ :: _, [], h, _, _, _ => by simp at h
  | (d, f) :: l, (d', g) :: l', h, hf, h1, h2 => by
    simp only [List.map_cons, List.cons.injEq, Prod.mk.injEq] at h
    obtain ⟨⟨rfl, hk⟩, h⟩ := h
    obtain ⟨a1, a2⟩ := shown_lt (d := d) hk (hf (d, f) (by simp)) (h1 (d, f) (by simp)) (h2 (d, g) (by simp))
    obtain ⟨b1, b2⟩ := orderLt_shown h (fun p hp => hf p (by simp [hp])) (fun p hp => h1 p (by simp [hp])) (fun p hp => h2 p (by simp [hp]))
    refine ⟨?_, ?_⟩
    · simp only [List.map_cons, tupleLt, orderLt, a1, a2, b1]
    · simp only [List.map_cons, List.cons.injEq, a2, b2, Prod.mk.injEq, true_and]

theorem addFields_enc {b b' : KeyBuilder} {fs : List Field} (h : b.addFields fs = some b') :
    ∃ p, encFields b.fid fs = some p ∧ b'.bytes = b.buff ++ p := by
  have h1 := addFields_bytes b fs
  rw [h] at h1
  cases hp : encFields b.fid fs with
  | none => simp [hp] at h1
  | some p => simp [hp] at h1; exact ⟨p, rfl, h1⟩

namespace Declared
variable {t : Table T F} {idx : Index T} {pkF keyF : T → List Field} {ordF : T → List (OrderType × Field)} {A : T → Prop}

theorem mono (D : Declared t idx pkF keyF ordF A) {B : T → Prop} (h : ∀ x, B x → A x) : Declared t idx pkF keyF ordF B :=
  ⟨fun x hx => D.pk x (h x hx), fun x hx => D.key x (h x hx), fun x hx => D.ord x (h x hx), fun x y hx hy => D.pkKind x y (h x hx) (h y hy),
    fun x y hx hy => D.keyKind x y (h x hx) (h y hy), fun x y hx hy => D.ordKind x y (h x hx) (h y hy), fun x hx => D.pkFixed x (h x hx),
    fun x hx => D.keyOne x (h x hx), fun x hx => D.ordFixed x (h x hx), fun x hx => D.ordMin x (h x hx)⟩

theorem pkLt (D : Declared t idx pkF keyF ordF A) {x y : T} (hx : A x) (hy : A y) :
    (blt (t.pk x) (t.pk y) = true ↔ tupleLt (pkF x) (pkF y)) := by
  obtain ⟨b, h1, h2⟩ := D.pk x hx
  obtain ⟨b', g1, g2⟩ := D.pk y hy
  rw [← h2, ← g2]
  exact C03 _ _ _ _ _ (D.pkKind x y hx hy) (D.pkFixed x hx) h1 g1

theorem keyEq (D : Declared t idx pkF keyF ordF A) {x y : T} (hx : A x) (hy : A y) : idx.key x = idx.key y ↔ keyF x = keyF y := by
  obtain ⟨b, h1, h2⟩ := D.key x hx
  obtain ⟨b', g1, g2⟩ := D.key y hy
  constructor
  · intro h
    exact C04_partial _ _ _ _ _ (D.keyKind x y hx hy) (D.keyOne x hx) h1 g1 (by rw [h2, g2, h])
  · intro h
    rw [h, g1] at h1
    cases h1
    rw [← h2, ← g2]

theorem ordLt (D : Declared t idx pkF keyF ordF A) {x y : T} (hx : A x) (hy : A y) :
    (idx.ord x).length = (idx.ord y).length ∧ (blt (idx.ord x) (idx.ord y) = true ↔ orderLt (ordF x) (ordF y)) ∧
    (idx.ord x = idx.ord y ↔ ordF x = ordF y) := by
  obtain ⟨o, h1, h2⟩ := D.ord x hx
  obtain ⟨o', g1, g2⟩ := D.ord y hy
  obtain ⟨p, h3, h4⟩ := addFields_enc (orderFields_eq _ h1)
  obtain ⟨q, g3, g4⟩ := addFields_enc (orderFields_eq _ g1)
  have hp : idx.ord x = p := by rw [← h2]; exact h4
  have hq : idx.ord y = q := by rw [← g2]; exact g4
  have hk : ((ordF x).map shown).map Field.kind = ((ordF y).map shown).map Field.kind := by
    have := congrArg (List.map Prod.snd) (D.ordKind x y hx hy)
    simpa [List.map_map, Function.comp_def, shown_kind] using this
  have hfix : ∀ f ∈ (ordF x).map shown, f.kind.fixed = true := by
    intro f hf
    obtain ⟨r, hr, rfl⟩ := List.mem_map.1 hf
    rw [shown_kind]
    exact D.ordFixed x hx r hr
  obtain ⟨s1, s2⟩ := orderLt_shown (D.ordKind x y hx hy) (D.ordFixed x hx) (D.ordMin x hx) (D.ordMin y hy)
  rw [hp, hq]
  refine ⟨encFields_length_fixed hk hfix h3 g3, ?_, ?_⟩
  · rw [encFields_lt hk (by rw [List.all_eq_true]; exact fun f hf => hfix f ((List.dropLast_sublist _).subset hf)) h3 g3, s1]
  · rw [← s2]
    constructor
    · intro h
      subst h
      refine encFields_inj hk ?_ h3 g3
      rw [List.filter_eq_nil_iff.2 (fun f hf => by simp [hfix f hf])]
      exact Nat.zero_le _
    · intro h
      have : some p = some q := by
        rw [← h3, ← g3]; exact congrArg _ h
      exact Option.some.inj this

theorem idxLt (D : Declared t idx pkF keyF ordF A) {x y : T} (hx : A x) (hy : A y) (hk : keyF x = keyF y) :
    IdxLt t idx x y ↔ RowLt ordF pkF x y := by
  obtain ⟨a, b, c⟩ := D.ordLt hx hy
  have hk := (D.keyEq hx hy).2 hk
  simp only [IdxLt, RowLt, hk, a, b, c, blt_irrefl, D.pkLt hx hy, Nat.lt_irrefl, false_or, true_and, Bool.false_eq_true]

theorem keyLt (D : Declared t idx pkF keyF ordF A) (hfix : ∀ x, A x → ∀ f ∈ keyF x, f.kind.fixed = true) {x y : T} (hx : A x) (hy : A y) :
    (idx.key x).length = (idx.key y).length ∧ (blt (idx.key x) (idx.key y) = true ↔ tupleLt (keyF x) (keyF y)) := by
  obtain ⟨b, h1, h2⟩ := D.key x hx
  obtain ⟨b', g1, g2⟩ := D.key y hy
  obtain ⟨p, h3, h4⟩ := addFields_enc h1
  obtain ⟨q, g3, g4⟩ := addFields_enc g1
  rw [← h2, ← g2, h4, g4]
  exact ⟨by simpa using encFields_length_fixed (D.keyKind x y hx hy) (hfix x hx) h3 g3, by
    rw [blt_append_left, encFields_lt (D.keyKind x y hx hy) (by rw [List.all_eq_true]; exact fun f hf => hfix x hx f ((List.dropLast_sublist _).subset hf)) h3 g3]⟩

theorem entryLt (D : Declared t idx pkF keyF ordF A) (hfix : ∀ x, A x → ∀ f ∈ keyF x, f.kind.fixed = true) {x y : T} (hx : A x) (hy : A y) :
    IdxLt t idx x y ↔ EntryLt keyF ordF pkF x y := by
  obtain ⟨a, b⟩ := D.keyLt hfix hx hy
  obtain ⟨c, d, e⟩ := D.ordLt hx hy
  simp only [IdxLt, EntryLt, RowLt, a, b, c, d, e, D.keyEq hx hy, D.pkLt hx hy, Nat.lt_irrefl, false_or, true_and]

end Declared

/-- C101 (point): a scan for a record `p` returns the rows that have the index fields of `p` and are not before `p`, once each, sorted by the
declared order fields, ascending or descending as declared, then by the fields of the primary key; a reverse scan the other way round.
Hypothesis: the index value of `p` does not end with 0xFF (see C24). -/
theorem C101_point {t : Table T F} {env : Env T} {filt : F} {db : KV} {ob : Option Batch} {m : Rows T}
    (S : Setting t env filt db ob m) {idx : Index T} (hi : IsIndex t idx) {pkF keyF : T → List Field} {ordF : T → List (OrderType × Field)} {p : T}
    (D : Declared t idx pkF keyF ordF (fun x => x = p ∨ m (t.pk x) = some x)) (hn : NoTrailingFF (idx.key p)) (hl : (idx.key p).length < 2 ^ 32 - 1) :
    ∃ rows : List T, rows.Pairwise (RowLt ordF pkF) ∧
      (∀ x, x ∈ rows ↔ m (t.pk x) = some x ∧ idx.filter x = true ∧ keyF x = keyF p ∧ ¬ RowLt ordF pkF x p) ∧
      ∀ reverse, Yields t env filt db ob idx (.point p) reverse (dir reverse rows) := by
  obtain ⟨rows, ⟨h1, h2⟩, h3⟩ := C24_partial S hi hn hl
  refine ⟨rows, ?_, fun x => ?_, h3⟩
  · refine h1.imp_of_mem (fun {x y} hx hy h => ?_)
    obtain ⟨⟨ax, _⟩, kx, _⟩ := (h2 x).1 hx
    obtain ⟨⟨ay, _⟩, ky, _⟩ := (h2 y).1 hy
    exact (D.idxLt (Or.inr ax) (Or.inr ay) ((D.keyEq (Or.inr ax) (Or.inr ay)).1 (kx.trans ky.symm))).1 h
  · rw [h2]
    constructor
    · rintro ⟨⟨a, b⟩, c, d⟩
      have hk := (D.keyEq (Or.inr a) (Or.inl rfl)).1 c
      exact ⟨a, b, hk, fun h => d ((D.idxLt (Or.inr a) (Or.inl rfl) hk).2 h)⟩
    · rintro ⟨a, b, c, d⟩
      exact ⟨⟨a, b⟩, (D.keyEq (Or.inr a) (Or.inl rfl)).2 c, fun h => d ((D.idxLt (Or.inr a) (Or.inl rfl) c).1 h)⟩

/-- C101 (range): if the index fields are of fixed width, a scan between `lo` and `up` returns the rows between them, both included, sorted by
the index fields, then the order fields, ascending or descending as declared, then the fields of the primary key. Hypotheses: the primary key
is made of fixed-width fields, and the one of `up` does not end with 0xFF (see C27). -/
theorem C101_range {t : Table T F} {env : Env T} {filt : F} {db : KV} {ob : Option Batch} {m : Rows T}
    (S : Setting t env filt db ob m) {idx : Index T} (hi : IsIndex t idx) {pkF keyF : T → List Field} {ordF : T → List (OrderType × Field)} {lo up : T}
    (D : Declared t idx pkF keyF ordF (fun x => x = lo ∨ x = up ∨ m (t.pk x) = some x))
    (hfix : ∀ x, (x = lo ∨ x = up ∨ m (t.pk x) = some x) → ∀ f ∈ keyF x ++ pkF x, f.kind.fixed = true) (hne : pkF up ≠ [])
    (hn : NoTrailingFF (t.pk up)) (hl : ∀ p ∈ [lo, up], (idx.key p).length < 2 ^ 32 - 1) :
    ∃ rows : List T, rows.Pairwise (EntryLt keyF ordF pkF) ∧
      (∀ x, x ∈ rows ↔ m (t.pk x) = some x ∧ idx.filter x = true ∧ ¬ EntryLt keyF ordF pkF x lo ∧ ¬ EntryLt keyF ordF pkF up x) ∧
      ∀ reverse, Yields t env filt db ob idx (.range lo up) reverse (dir reverse rows) := by
  have hk : ∀ x, (x = lo ∨ x = up ∨ m (t.pk x) = some x) → ∀ f ∈ keyF x, f.kind.fixed = true := fun x hx f hf => hfix x hx f (by simp [hf])
  have hpklen : ∀ x, m (t.pk x) = some x → (t.pk x).length = (t.pk up).length := by
    intro x hx
    obtain ⟨b, h1, h2⟩ := D.pk x (Or.inr (Or.inr hx))
    obtain ⟨b', g1, g2⟩ := D.pk up (Or.inr (Or.inl rfl))
    obtain ⟨p, h3, h4⟩ := addFields_enc h1
    obtain ⟨q, g3, g4⟩ := addFields_enc g1
    rw [← h2, ← g2, h4, g4]
    simpa using encFields_length_fixed (D.pkKind x up (Or.inr (Or.inr hx)) (Or.inr (Or.inl rfl)))
      (fun f hf => hfix x (Or.inr (Or.inr hx)) f (by simp [hf])) h3 g3
  have hne' : t.pk up ≠ [] := by
    obtain ⟨b', g1, g2⟩ := D.pk up (Or.inr (Or.inl rfl))
    obtain ⟨q, g3, g4⟩ := addFields_enc g1
    rw [← g2, g4]
    cases hf : pkF up with
    | nil => exact absurd hf hne
    | cons f fs =>
      rw [hf] at g3
      obtain ⟨pf, ef, _, _, rfl⟩ := encFields_cons g3
      simp
  obtain ⟨V, hV, hH⟩ := S.content
  obtain ⟨rows, ⟨h1, h2⟩, h3⟩ := C27_partial S hi (lo := lo) hne' hn hl (by
    intro pk x hx _ _ r hr
    have hpk := hH.row_pk pk x hx
    have := hpklen x (by rw [hpk]; exact hx)
    rw [hpk, hr, List.length_append] at this
    exact List.length_eq_zero_iff.1 (by omega))
  refine ⟨rows, ?_, fun x => ?_, h3⟩
  · refine h1.imp_of_mem (fun {x y} hx hy h => ?_)
    obtain ⟨⟨ax, _⟩, _⟩ := (h2 x).1 hx
    obtain ⟨⟨ay, _⟩, _⟩ := (h2 y).1 hy
    exact (D.entryLt hk (Or.inr (Or.inr ax)) (Or.inr (Or.inr ay))).1 h
  · rw [h2]
    simp only [Indexed, IdxLe]
    constructor
    · rintro ⟨⟨a, b⟩, c, d⟩
      exact ⟨a, b, fun h => c ((D.entryLt hk (Or.inr (Or.inr a)) (Or.inl rfl)).2 h),
        fun h => d ((D.entryLt hk (Or.inr (Or.inl rfl)) (Or.inr (Or.inr a))).2 h)⟩
    · rintro ⟨a, b, c, d⟩
      exact ⟨⟨a, b⟩, fun h => c ((D.entryLt hk (Or.inr (Or.inr a)) (Or.inl rfl)).1 h),
        fun h => d ((D.entryLt hk (Or.inr (Or.inl rfl)) (Or.inr (Or.inr a))).1 h)⟩

/-- C101 (queries): a query on the index without Order returns a page of the same rows, of those its filter accepts. -/
theorem C101_query {t : Table T F} {env : Env T} {filt : F} {db : KV} {ob : Option Batch} {m : Rows T}
    (S : Setting t env filt db ob m) (srt : (T → T → Bool) → List T → List T) (q : Query T) {p : T} (hsel : q.sel = .point p)
    (hint : q.intersects = []) (hi : IsIndex t q.index) (haft : q.after = none) (hless : q.less = none)
    (ho : q.offset.toNat < 2 ^ 63) (hL : q.limit.toNat < 2 ^ 63) {pkF keyF : T → List Field} {ordF : T → List (OrderType × Field)}
    (D : Declared t q.index pkF keyF ordF (fun x => x = p ∨ m (t.pk x) = some x)) (hn : NoTrailingFF (q.index.key p))
    (hl : (q.index.key p).length < 2 ^ 32 - 1) :
    ∃ rows : List T, rows.Pairwise (RowLt ordF pkF) ∧
      (∀ x, x ∈ rows ↔ m (t.pk x) = some x ∧ q.index.filter x = true ∧ keyF x = keyF p ∧ ¬ RowLt ordF pkF x p) ∧
      Returns t env srt filt db ob q (page q.offset.toNat q.limit.toNat ((dir q.reverse rows).filter (accepts q))) := by
  obtain ⟨rows, h1, h2, h3⟩ := C101_point S hi D hn hl
  refine ⟨rows, h1, h2, ?_⟩
  obtain ⟨rows', g1, g2⟩ := C30 S srt q hint hi (by rw [hsel]; exact ⟨by simp [Selector.elems], by simpa [Selector.elems] using hl⟩) haft hless ho hL
  rw [hsel] at g1
  rwa [g1.unique (h3 q.reverse)] at g2

/-- C101 (Scan): all rows sorted by the fields of the primary key. -/
theorem C101_scan {t : Table T F} {env : Env T} {filt : F} {db : KV} {ob : Option Batch} {m : Rows T}
    (S : Setting t env filt db ob m) {pkF : T → List Field}
    (D : Declared t t.primaryIndex pkF (fun _ => []) (fun _ => []) (fun x => x = t.empty ∨ m (t.pk x) = some x))
    (hlow : ∀ pk x, m pk = some x → ¬ tupleLt (pkF x) (pkF t.empty)) :
    ∃ rows : List T, rows.Pairwise (fun x y => tupleLt (pkF x) (pkF y)) ∧ (∀ x, x ∈ rows ↔ m (t.pk x) = some x) ∧
      ∀ reverse, ∃ N, ∀ fuel, N ≤ fuel → ∀ tr, t.scan env filt db ob reverse fuel tr = some ⟨tr ++ dir reverse rows, none⟩ := by
  obtain ⟨V, _, hH⟩ := S.content
  obtain ⟨rows, h1, h2, h3⟩ := C23_partial S (by
    intro pk x hx
    have hpk := hH.row_pk pk x hx
    have := mt (D.pkLt (Or.inr (by rw [hpk]; exact hx)) (Or.inl rfl)).1 (hlow pk x hx)
    rw [hpk] at this
    simpa [ble] using this)
  refine ⟨rows, h1.imp_of_mem (fun {x y} hx hy h => ?_), h2, h3⟩
  exact (D.pkLt (Or.inr ((h2 x).1 hx)) (Or.inr ((h2 y).1 hy))).1 h

/-! ## the builders inside the encoders -/

/-- the function `func(b []byte) []byte { return keyFunction(NewKeyBuilder(b), tr) }` that the encoders are given (table.go:1230-1232,
index.go:409-411, 417-419), for a key function that adds these fields -/
def built (fs : List Field) (b : Bytes) : Bytes := (((KeyBuilder.new b).addFields fs).map KeyBuilder.bytes).getD b

/-- the same for an index order function (index.go:412-416) -/
def builtOrder (l : List (OrderType × Field)) (b : Bytes) : Bytes :=
  (((IndexOrder.mk (KeyBuilder.new b)).orderFields l).map IndexOrder.bytes).getD b

theorem built_eq {fs : List Field} {k : KeyBuilder} (h : (KeyBuilder.new []).addFields fs = some k) (b : Bytes) : built fs b = b ++ k.bytes := by
  obtain ⟨p, h1, h2⟩ := addFields_enc h
  unfold built
  rw [addFields_bytes]
  have : (KeyBuilder.new b).fid = (KeyBuilder.new []).fid := rfl
  rw [this, h1, h2]
  rfl

theorem orderField_some {o : IndexOrder} {d : OrderType} {f : Field} {o' : IndexOrder} (h : o.orderField d f = some o') (o2 : IndexOrder) :
    (o2.orderField d f).map IndexOrder.keyBuilder = o2.keyBuilder.addField (shown (d, f)) := by
  cases d <;> cases f <;>
    simp [IndexOrder.orderField, IndexOrder.orderInt64, IndexOrder.orderInt32, IndexOrder.orderInt16,
      IndexOrder.orderUint64, IndexOrder.orderUint32, IndexOrder.orderUint16, IndexOrder.orderByte,
      IndexOrder.orderBytes, IndexOrder.orderBigInt, DESC, shown, flipField, KeyBuilder.addField, Function.comp_def] at h ⊢

theorem orderFields_some (l : List (OrderType × Field)) : ∀ {o o' : IndexOrder}, o.orderFields l = some o' → ∀ o2 : IndexOrder,
    (o2.orderFields l).map IndexOrder.keyBuilder = o2.keyBuilder.addFields (l.map shown) := by
  induction l with
  | nil => intro o o' _ o2; rfl
  | cons p l ih =>
    intro o o' h o2
    obtain ⟨d, f⟩ := p
    simp only [IndexOrder.orderFields, Option.bind_eq_some_iff] at h
    obtain ⟨o1, h1, h2⟩ := h
    have e := orderField_some h1 o2
    simp only [IndexOrder.orderFields, List.map_cons, KeyBuilder.addFields, ← e]
    cases o2.orderField d f with
    | none => rfl
    | some o3 => exact ih h2 o3

theorem builtOrder_eq {l : List (OrderType × Field)} {o : IndexOrder} (h : (IndexOrder.mk (KeyBuilder.new [])).orderFields l = some o) (b : Bytes) :
    builtOrder l b = b ++ o.bytes := by
  obtain ⟨p, h1, h2⟩ := addFields_enc (orderFields_eq l h)
  have e := orderFields_some l h ⟨KeyBuilder.new b⟩
  have e2 : ((IndexOrder.mk (KeyBuilder.new b)).orderFields l).map IndexOrder.bytes = some (b ++ o.bytes) := by
    have : (IndexOrder.bytes : IndexOrder → Bytes) = KeyBuilder.bytes ∘ IndexOrder.keyBuilder := rfl
    rw [this, ← Option.map_map, e, addFields_bytes]
    have : (KeyBuilder.new b).fid = (KeyBuilder.new []).fid := rfl
    rw [this, h1]
    have : o.bytes = p := h2
    show some (b ++ p) = some (b ++ o.bytes)
    rw [this]
  unfold builtOrder
  rw [e2]
  rfl

/-- C08 for keys as the library makes them, the builders writing into the buffer of the encoder: the index key is, after what the
buffer held before, the encoding of the three parts each of which a builder makes alone; and so is the data key. -/
theorem C08_built (t i : UInt8) {kf pf : List Field} {l : List (OrderType × Field)} {k p : KeyBuilder} {o : IndexOrder}
    (hk : (KeyBuilder.new []).addFields kf = some k) (ho : (IndexOrder.mk (KeyBuilder.new [])).orderFields l = some o)
    (hp : (KeyBuilder.new []).addFields pf = some p) (buff : Bytes) :
    keyEncodeRaw t i (some (built kf)) (some (builtOrder l)) (some (built pf)) buff = buff ++ encodeIndexKey t i k.bytes o.bytes p.bytes ∧
    keyEncodeRaw t i (some (built kf)) none none = keyPrefix t i k.bytes ∧
    keyEncodeRaw t primaryIndexID none none (some (built pf)) = dataKey t p.bytes := by
  have e1 : built kf = fun b => b ++ k.bytes := funext (built_eq hk)
  have e2 : builtOrder l = fun b => b ++ o.bytes := funext (builtOrder_eq ho)
  have e3 : built pf = fun b => b ++ p.bytes := funext (built_eq hp)
  rw [e1, e2, e3]
  exact ⟨by rw [keyEncodeRaw_full, encodeIndexKey_eq]; simp, rfl, rfl⟩

example : keyEncodeRaw 3 1 (some (built [.byte 9])) (some (builtOrder [(DESC, .i64 5)])) (some (built [.u16 7, .str [65]])) =
    encodeIndexKey 3 1 [1, 9] [1, 0, 255, 255, 255, 255, 255, 255, 255, 250] [1, 0, 7, 2, 65] := by decide

/-! ## example: accounts by type, the largest balance first -/

/-- id, type and balance -/
abbrev Account := BitVec 32 × UInt8 × BitVec 64

/-- accounts by type, the largest balance first -/
def accIndex : Index Account :=
  { id := 1, key := fun x => ((KeyBuilder.new []).addByteField x.2.1).bytes
    ord := fun x => ((IndexOrder.mk (KeyBuilder.new [])).orderInt64 x.2.2 DESC).bytes, filter := fun _ => true }

/-- the table of accounts -/
def accTable : Table Account Unit :=
  { id := 9, pk := fun x => ((KeyBuilder.new []).addUint32Field x.1).bytes, indexes := [accIndex]
    ser := fun x => some (x.2.1 :: (beBytes 4 x.1.toNat ++ beBytes 8 x.2.2.toNat))
    deser := fun _ b => match b with | [] => none | g :: b => some (BitVec.ofNat 32 (beNat (b.take 4)), g, BitVec.ofNat 64 (beNat (b.drop 4)))
    nil := (0, 0, 0), empty := (0, 0, 0), filter := none, prefetch := 100 }

/-- C101 speaks about this table, whatever accounts it holds, except that no balance is the smallest integer -/
theorem acc_declared : Declared accTable accIndex (fun x => [.u32 x.1]) (fun x => [.byte x.2.1]) (fun x => [(DESC, .i64 x.2.2)])
    (fun x => x.2.2 ≠ BitVec.intMin 64) where
  pk x _ := ⟨_, rfl, rfl⟩
  key x _ := ⟨_, rfl, rfl⟩
  ord x _ := ⟨_, rfl, rfl⟩
  pkKind _ _ _ _ := rfl
  keyKind _ _ _ _ := rfl
  ordKind _ _ _ _ := rfl
  pkFixed x _ f hf := by simp at hf
  keyOne x _ := by simp [Field.kind, Kind.fixed]
  ordFixed x _ p hp := by simp at hp; subst hp; rfl
  ordMin x hx p hp _ := by simp at hp; subst hp; simpa [Field.minInt] using hx

theorem acc_wf : accTable.WF where
  ids := by decide
  nz := by intro idx h; simp [accTable] at h; subst h; decide
  klen := by intro idx h x; simp [accTable] at h; subst h; simp [accIndex, KeyBuilder.addByteField, KeyBuilder.putFieldID, KeyBuilder.new, KeyBuilder.bytes]
  olen := by
    intro idx h x; simp [accTable] at h; subst h
    simp only [accIndex, IndexOrder.orderInt64, IndexOrder.bytes, addInt64Field_eq, KeyBuilder.bytes, KeyBuilder.new]
    simp [encSigned_length]

theorem acc_rt : accTable.RoundTripFresh := by
  intro x b h
  simp only [accTable, Option.some.injEq] at h
  subst h
  simp only [accTable]
  rw [List.take_left' (by simp), List.drop_left' (by simp), beNat_beBytes, beNat_beBytes,
    Nat.mod_eq_of_lt (show x.1.toNat < 256 ^ 4 from x.1.isLt), Nat.mod_eq_of_lt (show x.2.2.toNat < 256 ^ 8 from x.2.2.isLt)]
  simp

/-- three accounts of type 5, one of type 6 -/
def accDB : KV := (accTable.insert (stdEnv accTable) KV.empty () none [(1, 5, -3), (2, 5, 700), (3, 6, 9), (4, 5, 20)]).db

example : accTable.scanIndex (stdEnv accTable) () accDB none accIndex (.point (0, 5, 20)) false 30 [] = some ⟨[(4, 5, 20), (1, 5, -3)], none⟩ ∧
    accTable.scanIndex (stdEnv accTable) () accDB none accIndex (.range (0, 5, BitVec.intMax 64) (9, 6, 0)) true 30 [] =
      some ⟨[(3, 6, 9), (1, 5, -3), (4, 5, 20), (2, 5, 700)], none⟩ := by
  decide +kernel

/-- what it holds -/
def accRows : Rows Account := Rows.putAll (fun _ => none) accTable.pk [(1, 5, -3), (2, 5, 700), (3, 6, 9), (4, 5, 20)]

theorem acc_holds : Holds accTable accDB accRows := by
  have hn : (([(1, 5, -3), (2, 5, 700), (3, 6, 9), (4, 5, 20)] : List Account).map accTable.pk).Nodup := by decide +kernel
  have he : (accTable.insert (stdEnv accTable) KV.empty () none [(1, 5, -3), (2, 5, 700), (3, 6, 9), (4, 5, 20)]).err = none := by decide +kernel
  have := insert_view acc_wf (stdEnv_ok accTable) (fun _ h => nomatch h) (by decide : 0 < persistentBatchSize) (ob := none) (f := ())
    (holds_empty accTable) (covers_nofilter rfl _ _) (callReads_none (Or.inl hn)) he
  exact this.1

theorem acc_setting : Setting accTable (stdEnv accTable) () accDB none accRows where
  wf := acc_wf
  rt := acc_rt
  ok := stdEnv_ok accTable
  alive := fun _ => rfl
  prefetch := by decide
  content := ⟨accDB, rfl, acc_holds⟩
  covers := covers_nofilter rfl _ _

/-- C101_point speaks about a scan of this database -/
example : ∃ rows : List Account, rows.Pairwise (RowLt (fun x => [(DESC, .i64 x.2.2)]) (fun x => [.u32 x.1])) ∧
    (∀ x, x ∈ rows ↔ accRows (accTable.pk x) = some x ∧ true = true ∧ [Field.byte x.2.1] = [.byte 5] ∧
      ¬ RowLt (fun x => [(DESC, .i64 x.2.2)]) (fun x => [.u32 x.1]) x (0, 5, 20)) ∧
    ∀ reverse, Yields accTable (stdEnv accTable) () accDB none accIndex (.point (0, 5, 20)) reverse (dir reverse rows) := by
  refine C101_point (p := ((0, 5, 20) : Account)) acc_setting (Or.inl (by simp [accTable])) (acc_declared.mono ?_) ?_ ?_
  · rintro x (rfl | h)
    · decide
    · simp only [accRows, Rows.putAll, List.foldl_cons, List.foldl_nil, Rows.put] at h
      repeat' split at h
      all_goals first | (cases h; decide) | cases h
  · simp [NoTrailingFF, accIndex, KeyBuilder.addByteField, KeyBuilder.putFieldID, KeyBuilder.new, KeyBuilder.bytes]
  · simp [accIndex, KeyBuilder.addByteField, KeyBuilder.putFieldID, KeyBuilder.new, KeyBuilder.bytes]

/-- C101 fails where a descending field holds the smallest integer: that row sorts before all others, and a scan from the
largest balance on does not return it. -/
theorem C101_refuted :
    let db := (accTable.insert (stdEnv accTable) KV.empty () none [(1, 5, BitVec.intMin 64), (2, 5, -1)]).db
    accTable.scanIndex (stdEnv accTable) () db none accIndex (.point (0, 5, BitVec.intMax 64)) false 30 [] =
      some ⟨[(2, 5, -1)], none⟩ := by
  decide +kernel

end Bond
