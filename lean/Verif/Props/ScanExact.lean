import Verif.Props.Scans
import Verif.ScanExactLemmas
/-
Exactly which rows point and range selectors return, also where index values or primary keys end with 0xFF: C23, C24, C26, C27.
-/
namespace Bond
open Spec
variable {T F : Type}

/-! ## C23 -/

/-- C23 for every content: `Scan` returns, once each and in the order of primary keys, the rows whose primary key is not below that of
the table's empty record, and no others; `ScanForEach` calls its callback for the same rows, with their data keys, in the
same order, until the callback asks to stop. -/
theorem C23_exact {t : Table T F} {env : Env T} {filt : F} {db : KV} {ob : Option Batch} {m : Rows T} (S : Setting t env filt db ob m) :
    ∃ rows : List T, rows.Pairwise (fun x y => blt (t.pk x) (t.pk y) = true) ∧
      (∀ x, x ∈ rows ↔ m (t.pk x) = some x ∧ ble (t.pk t.empty) (t.pk x) = true) ∧
      (∀ reverse, ∃ N, ∀ fuel, N ≤ fuel → ∀ tr, t.scan env filt db ob reverse fuel tr = some ⟨tr ++ dir reverse rows, none⟩) ∧
      ∀ {σ : Type} (reverse : Bool) (f : σ → Bytes → Cb σ T), ∃ N, ∀ fuel, N ≤ fuel → ∀ s,
        t.scanForEach env filt (fun _ => (db, ob)) f reverse fuel s =
          some (runRows f ((dir reverse rows).map (fun x => (dataKey t.id (t.pk x), x))) s) := by
  have hi : IsIndex t t.primaryIndex := Or.inr rfl
  have hkey : ∀ x, t.primaryIndex.key x = [] := fun _ => rfl
  have hord : ∀ x, t.primaryIndex.ord x = [] := fun _ => rfl
  have hlt : ∀ x y, IdxLt t t.primaryIndex x y ↔ blt (t.pk x) (t.pk y) = true := by
    intro x y; simp [IdxLt, hkey, hord, blt_irrefl]
  obtain ⟨rows, h1, h2, h3⟩ := S.single hi (sel := .point t.empty) ⟨by simp [Selector.elems], by simp [Selector.elems, hkey]⟩ rfl
  have h1' := h1.congr (fun x hx => boundP_point S.wf hi (p := t.empty) (by simp [NoTrailingFF, hkey]) (by simp [hkey]) x)
  refine ⟨rows, h1'.1.imp (fun h => (hlt _ _).1 h), ?_, h2, fun reverse f => ?_⟩
  case refine_2 =>
    obtain ⟨N, hN⟩ := h3 reverse f (fun _ => True) (Or.inl rfl)
    have hseen : ∀ l : List T, seen t t.primaryIndex l = l.map (fun x => (dataKey t.id (t.pk x), x)) := by
      intro l
      unfold seen
      exact List.map_congr_left (fun x _ => by rw [indexKey_primary]; rfl)
    exact ⟨N, fun fuel hf s => by rw [← hseen]; exact hN fuel hf s⟩
  intro x
  rw [h1'.2]
  have hle : IdxLe t t.primaryIndex t.empty x ↔ ble (t.pk t.empty) (t.pk x) = true := by
    unfold IdxLe
    rw [hlt]
    simp [ble]
  exact ⟨fun h => ⟨h.1.1, hle.1 h.2.2⟩, fun h => ⟨⟨h.1, rfl⟩, rfl, hle.2 h.2⟩⟩

/-- with signed keys: the rows from 0 on -/
example : signedTable.scan (stdEnv signedTable) () (signedTable.insert (stdEnv signedTable) KV.empty () none [-1, 1, 0]).db none false 9 [] =
    some ⟨[0, 1], none⟩ ∧
    signedTable.scanForEach (stdEnv signedTable) () (fun _ => ((signedTable.insert (stdEnv signedTable) KV.empty () none [-1, 1, 0]).db, none))
      scanIndexCb true 9 [] = some ⟨[1, 0], none⟩ := by decide

/-! ## C24, C26 -/

/-- C24 and C26 for every index value: a scan with a point returns, once each and in index order, the rows of the point's group at or
after it and the rows with the index values described by `AlsoSelected` (none unless the index value of the point ends with
0xFF), and no others. -/
theorem C26_exact {t : Table T F} {env : Env T} {filt : F} {db : KV} {ob : Option Batch} {m : Rows T}
    (S : Setting t env filt db ob m) {idx : Index T} (hi : IsIndex t idx) {p : T} (hl : (idx.key p).length < 2 ^ 32 - 1) :
    ∃ rows, IsRows t idx m (fun x => (idx.key x = idx.key p ∧ IdxLe t idx p x) ∨ AlsoSelected (idx.key p) (idx.key x)) rows ∧
      ∀ reverse, Yields t env filt db ob idx (.point p) reverse (dir reverse rows) := by
  obtain ⟨rows, h1, h2, _⟩ := S.single hi (sel := .point p) ⟨by simp [Selector.elems], by simpa [Selector.elems] using hl⟩ rfl
  exact ⟨rows, h1.congr (fun x _ => boundP_point_all S.wf hi hl x), h2⟩

/-- the other value is never that of the point, and there is none if that does not end with 0xFF -/
theorem C26_exact_sane {k v : Bytes} (h : AlsoSelected k v) : v ≠ k ∧ ∃ a, k = a ++ [0xFF] := by
  rcases h with ⟨a, b, j, w, rfl, hb, rfl, hw, hne⟩ | ⟨hk, h⟩
  · constructor
    · intro e
      have := List.append_cancel_left e
      simp only [List.cons.injEq] at this
      exact absurd this.1 (fun e => by have := uint8_lt_succ hb; rw [e] at this; exact absurd this (UInt8.lt_irrefl _))
    · cases j with
      | zero => exact absurd (List.eq_nil_of_length_eq_zero hw) hne
      | succ j =>
        refine ⟨a ++ b :: ffs j, ?_⟩
        rw [← ffs_add j 1]; simp [ffs]
  · have hgt : ∀ n, n < nextLength n := by intro n; unfold nextLength; split <;> (try split) <;> (try split) <;> omega
    have hlen : k.length < v.length := by rcases h with h | h; exact h.1; rw [h.1]; exact hgt _
    refine ⟨fun e => by rw [e] at hlen; omega, ?_⟩
    cases hn : k.length with
    | zero =>
      exfalso
      rw [hn] at h
      rcases h with h | h
      · have : nextLength 0 = 1 := by decide
        omega
      · exact h.2 (by rw [List.eq_nil_of_length_eq_zero hn]; rfl)
    | succ n =>
      rw [hn, ← ffs_add n 1] at hk
      exact ⟨_, hk⟩

/-- the values that (5, 255) and 255 select besides themselves; (5, 255) does not select (6, 255) -/
example : AlsoSelected [5, 255] [6, 0] ∧ AlsoSelected [255] [7, 7] ∧ ¬ AlsoSelected [5, 255] [7, 0] ∧
    pairTable.scanIndex (stdEnv pairTable) () (pairTable.insert (stdEnv pairTable) KV.empty () none [(5, 255), (6, 0), (6, 254), (6, 255), (7, 0)]).db none
      pairIndex (.point (5, 255)) false 9 [] = some ⟨[(5, 255), (6, 0), (6, 254)], none⟩ := by
  refine ⟨Or.inl ⟨[], 5, 1, [0], rfl, by decide, rfl, rfl, by decide⟩, Or.inr ⟨rfl, Or.inr ⟨by decide, by decide⟩⟩, ?_, by decide⟩
  rintro (⟨a, b, j, w, h1, hb, h2, h3, -⟩ | ⟨h, -⟩)
  · match a with
    | [] =>
      simp only [List.nil_append, List.cons.injEq] at h1 h2
      rw [← h1.1] at h2
      exact absurd h2.1 (by decide)
    | [x] =>
      simp only [List.cons_append, List.nil_append, List.cons.injEq] at h1
      exact hb h1.2.1.symm
    | x :: y :: a =>
      have := congrArg List.length h1
      simp at this
  · exact absurd h (by decide)

/-! ## C27 -/

/-- C27 for every upper bound whose primary key has a byte other than 0xFF, the last of which is `b`, followed by `j` bytes 0xFF: a
range returns the rows between the bounds, both included, and those with the index value and order of the upper bound whose primary
key extends that of the upper bound, or has `b + 1` in place of `b` and then something below `j` bytes 0xFF; no others. -/
theorem C27_exact {t : Table T F} {env : Env T} {filt : F} {db : KV} {ob : Option Batch} {m : Rows T}
    (S : Setting t env filt db ob m) {idx : Index T} (hi : IsIndex t idx) {lo up : T}
    (hl : ∀ p ∈ [lo, up], (idx.key p).length < 2 ^ 32 - 1) {a : Bytes} {b : UInt8} {j : Nat} (hpk : t.pk up = a ++ b :: ffs j) (hb : b ≠ 0xFF) :
    ∃ rows, IsRows t idx m (fun x => IdxLe t idx lo x ∧ (IdxLe t idx x up ∨ (idx.key x = idx.key up ∧ idx.ord x = idx.ord up ∧
        ((∃ r, t.pk x = t.pk up ++ r) ∨ ∃ r, t.pk x = a ++ (b + 1) :: r ∧ blt r (ffs j) = true)))) rows ∧
      ∀ reverse, Yields t env filt db ob idx (.range lo up) reverse (dir reverse rows) := by
  obtain ⟨rows, h1, h2, _⟩ := S.single hi (sel := .range lo up) ⟨by simp [Selector.elems], hl⟩ rfl
  refine ⟨rows, h1.congr (fun x _ => ?_), h2⟩
  have wf := S.wf
  unfold BoundP Table.rangeBounds
  simp only
  rw [← indexKey_le wf hi, ← indexKey_le wf hi]
  have hkey : ∀ y : T, t.indexKey idx y = keyPrefix t.id idx.id (idx.key y) ++ (beBytes 4 (idx.ord y).length ++ (idx.ord y ++ t.pk y)) :=
    indexKey_prefix t idx
  have hup : t.indexKey idx up = (keyPrefix t.id idx.id (idx.key up) ++ (beBytes 4 (idx.ord up).length ++ (idx.ord up ++ a))) ++ b :: ffs j := by
    rw [hkey, hpk]; simp only [List.append_assoc]
  have hinj : ∀ pk, t.indexKey idx x = keyPrefix t.id idx.id (idx.key up) ++ (beBytes 4 (idx.ord up).length ++ (idx.ord up ++ pk)) ↔
      idx.key x = idx.key up ∧ idx.ord x = idx.ord up ∧ t.pk x = pk := by
    intro pk
    constructor
    · intro h
      have : t.indexKey idx x = encodeIndexKey t.id idx.id (idx.key up) (idx.ord up) pk := by
        rw [h, encodeIndexKey_eq, keyPrefix_eq]; simp only [List.append_assoc]
      have := encodeIndexKey_inj (hi.klen wf x) (hi.olen wf x) (hi.klen wf up) (hi.olen wf up) this
      exact ⟨this.2.2.1, this.2.2.2.1, this.2.2.2.2⟩
    · rintro ⟨e1, e2, e3⟩
      rw [hkey, e1, e2, e3]
  have hb2 := between_ffs (a := keyPrefix t.id idx.id (idx.key up) ++ (beBytes 4 (idx.ord up).length ++ (idx.ord up ++ a))) hb j (t.indexKey idx x)
  have hex : ((∃ r, t.indexKey idx x = t.indexKey idx up ++ r) ∨
      ∃ r, t.indexKey idx x = (keyPrefix t.id idx.id (idx.key up) ++ (beBytes 4 (idx.ord up).length ++ (idx.ord up ++ a))) ++ (b + 1) :: r ∧
        blt r (ffs j) = true) ↔ (idx.key x = idx.key up ∧ idx.ord x = idx.ord up ∧
        ((∃ r, t.pk x = t.pk up ++ r) ∨ ∃ r, t.pk x = a ++ (b + 1) :: r ∧ blt r (ffs j) = true)) := by
    have f1 : ∀ r, t.indexKey idx up ++ r = keyPrefix t.id idx.id (idx.key up) ++ (beBytes 4 (idx.ord up).length ++ (idx.ord up ++ (t.pk up ++ r))) := by
      intro r; rw [hkey]; simp only [List.append_assoc]
    have f2 : ∀ r, (keyPrefix t.id idx.id (idx.key up) ++ (beBytes 4 (idx.ord up).length ++ (idx.ord up ++ a))) ++ (b + 1) :: r =
        keyPrefix t.id idx.id (idx.key up) ++ (beBytes 4 (idx.ord up).length ++ (idx.ord up ++ (a ++ (b + 1) :: r))) := by
      intro r; simp only [List.append_assoc]
    constructor
    · rintro (⟨r, h⟩ | ⟨r, h, h'⟩)
      · rw [f1] at h
        obtain ⟨e1, e2, e3⟩ := (hinj _).1 h
        exact ⟨e1, e2, Or.inl ⟨r, e3⟩⟩
      · rw [f2] at h
        obtain ⟨e1, e2, e3⟩ := (hinj _).1 h
        exact ⟨e1, e2, Or.inr ⟨r, e3, h'⟩⟩
    · rintro ⟨e1, e2, ⟨r, h⟩ | ⟨r, h, h'⟩⟩
      · exact Or.inl ⟨r, by rw [f1]; exact (hinj _).2 ⟨e1, e2, h⟩⟩
      · exact Or.inr ⟨r, by rw [f2]; exact (hinj _).2 ⟨e1, e2, h⟩, h'⟩
  rw [← hex]
  rw [← hup] at hb2
  have hsucc : keySuccessor (t.indexKey idx up) =
      (keyPrefix t.id idx.id (idx.key up) ++ (beBytes 4 (idx.ord up).length ++ (idx.ord up ++ a))) ++ (b + 1) :: ffs j := by
    rw [hup, keySuccessor_ffs _ hb]
  rw [← hb2, ← hsucc]
  constructor
  · rintro ⟨g1, g2⟩
    refine ⟨g1, ?_⟩
    by_cases hle : ble (t.indexKey idx up) (t.indexKey idx x) = true
    · exact Or.inr ⟨hle, g2⟩
    · left
      apply ble_of_blt
      simpa [ble] using hle
  · rintro ⟨g1, g2 | g2⟩
    · refine ⟨g1, blt_of_ble_of_blt g2 ?_⟩
      have := lt_succ_indexKey (t := t) up (hl up (by simp)) []
      rwa [List.append_nil] at this
    · exact ⟨g1, g2.2⟩

/-- the range from (5, 0) to (5, 255) also returns (6, 0) to (6, 254), not (6, 255) -/
example : pairTable.pk (5, 255) = [] ++ 5 :: ffs 1 ∧
    pairTable.scanIndex (stdEnv pairTable) ()
      (pairTable.insert (stdEnv pairTable) KV.empty () none [(5, 255), (6, 0), (6, 254), (6, 255), (7, 0)]).db none pairTable.primaryIndex
      (.range (5, 0) (5, 255)) false 9 [] = some ⟨[(5, 255), (6, 0), (6, 254)], none⟩ := by
  refine ⟨rfl, by decide⟩

/-- C27 for an upper bound whose primary key consists of bytes 0xFF (or is empty), on an index without order: besides the rows
between the bounds all further rows with the index value of the upper bound are returned; no others. -/
theorem C27_exact_ffs {t : Table T F} {env : Env T} {filt : F} {db : KV} {ob : Option Batch} {m : Rows T}
    (S : Setting t env filt db ob m) {idx : Index T} (hi : IsIndex t idx) {lo up : T}
    (hl : ∀ p ∈ [lo, up], (idx.key p).length < 2 ^ 32 - 1) {j : Nat} (hpk : t.pk up = ffs j) (hord : ∀ x, idx.ord x = []) :
    ∃ rows, IsRows t idx m (fun x => IdxLe t idx lo x ∧ (IdxLe t idx x up ∨ idx.key x = idx.key up)) rows ∧
      ∀ reverse, Yields t env filt db ob idx (.range lo up) reverse (dir reverse rows) := by
  obtain ⟨rows, h1, h2, _⟩ := S.single hi (sel := .range lo up) ⟨by simp [Selector.elems], hl⟩ rfl
  refine ⟨rows, h1.congr (fun x _ => ?_), h2⟩
  have wf := S.wf
  unfold BoundP Table.rangeBounds
  simp only
  rw [← indexKey_le wf hi, ← indexKey_le wf hi]
  have hkey : ∀ y : T, t.indexKey idx y = (keyPrefix t.id idx.id (idx.key y) ++ [0, 0, 0]) ++ 0 :: t.pk y := by
    intro y
    rw [indexKey_prefix, hord y]
    simp [beBytes4_zero]
  have hup : t.indexKey idx up = (keyPrefix t.id idx.id (idx.key up) ++ [0, 0, 0]) ++ 0 :: ffs j := by rw [hkey, hpk]
  have hsucc : keySuccessor (t.indexKey idx up) = (keyPrefix t.id idx.id (idx.key up) ++ [0, 0, 0]) ++ 1 :: ffs j := by
    rw [hup, keySuccessor_ffs _ (by decide)]; rfl
  have hin : ∀ {x : T} {b : UInt8} {r : Bytes}, t.indexKey idx x = (keyPrefix t.id idx.id (idx.key up) ++ [0, 0, 0]) ++ b :: r →
      idx.key x = idx.key up := by
    intro x b r h
    rw [hkey, keyPrefix_eq, keyPrefix_eq] at h
    simp only [List.append_assoc] at h
    have e2 := List.append_inj (List.append_cancel_left h) (by simp)
    have e3 := beBytes_inj (n := 4) (hi.klen wf x) (hi.klen wf up) e2.1
    exact (List.append_inj e2.2 e3).1
  constructor
  · rintro ⟨g1, g2⟩
    refine ⟨g1, ?_⟩
    by_cases hle : ble (t.indexKey idx up) (t.indexKey idx x) = true
    · right
      rw [hsucc] at g2
      rw [hup] at hle
      rcases (between_ffs (b := 0) (by decide) j _).1 ⟨hle, g2⟩ with ⟨r, h⟩ | ⟨r, h, -⟩
      · exact hin (r := ffs j ++ r) (by rw [h, List.append_assoc, List.cons_append])
      · exact hin h
    · left
      apply ble_of_blt
      simpa [ble] using hle
  · rintro ⟨g1, g2 | g2⟩
    · refine ⟨g1, blt_of_ble_of_blt g2 ?_⟩
      have := lt_succ_indexKey (t := t) up (hl up (by simp)) []
      rwa [List.append_nil] at this
    · refine ⟨g1, ?_⟩
      rw [hsucc, hkey, g2, blt_append_left]
      rfl

example : pairTable.pk (255, 255) = ffs 2 ∧ (∀ x, pairTable.primaryIndex.ord x = []) ∧
    varTable.scanIndex (stdEnv varTable) () (varTable.insert (stdEnv varTable) KV.empty () none [(255, 0), (255, 7), (3, 0)]).db none varTable.primaryIndex
      (.range (4, 0) (255, 0)) false 9 [] = some ⟨[(255, 0), (255, 7)], none⟩ := by
  refine ⟨rfl, fun _ => rfl, by decide⟩

/-- C27 for an upper bound whose primary key consists of bytes 0xFF (or is empty) and whose order has a byte other than 0xFF, the last of
which is `b`, followed by `i` bytes 0xFF: besides the rows between the bounds a range returns rows with the index value of the upper bound
that have its order and a primary key extending that of the upper bound, or that have `b + 1` in place of `b` in their order and then not
`i` bytes 0xFF and a primary key at or after that of the upper bound; no others. -/
theorem C27_exact_ord {t : Table T F} {env : Env T} {filt : F} {db : KV} {ob : Option Batch} {m : Rows T}
    (S : Setting t env filt db ob m) {idx : Index T} (hi : IsIndex t idx) {lo up : T}
    (hl : ∀ p ∈ [lo, up], (idx.key p).length < 2 ^ 32 - 1) {j i : Nat} (hpk : t.pk up = ffs j) {a : Bytes} {b : UInt8}
    (hord : idx.ord up = a ++ b :: ffs i) (hb : b ≠ 0xFF) :
    ∃ rows, IsRows t idx m (fun x => IdxLe t idx lo x ∧ (IdxLe t idx x up ∨ (idx.key x = idx.key up ∧
        ((idx.ord x = idx.ord up ∧ ∃ r, t.pk x = t.pk up ++ r) ∨
          ∃ w, idx.ord x = a ++ (b + 1) :: w ∧ w.length = i ∧ (w ≠ ffs i ∨ blt (t.pk x) (t.pk up) = true))))) rows ∧
      ∀ reverse, Yields t env filt db ob idx (.range lo up) reverse (dir reverse rows) := by
  obtain ⟨rows, h1, h2, _⟩ := S.single hi (sel := .range lo up) ⟨by simp [Selector.elems], hl⟩ rfl
  refine ⟨rows, h1.congr (fun x _ => ?_), h2⟩
  have wf := S.wf
  unfold BoundP Table.rangeBounds
  simp only
  rw [← indexKey_le wf hi, ← indexKey_le wf hi]
  have hkey : ∀ y : T, t.indexKey idx y = keyPrefix t.id idx.id (idx.key y) ++ (beBytes 4 (idx.ord y).length ++ (idx.ord y ++ t.pk y)) :=
    indexKey_prefix t idx
  have hup : t.indexKey idx up = (keyPrefix t.id idx.id (idx.key up) ++ (beBytes 4 (idx.ord up).length ++ a)) ++ b :: ffs (i + j) := by
    rw [hkey, hpk, ← ffs_add]
    conv => lhs; rw [show idx.ord up ++ ffs j = a ++ b :: (ffs i ++ ffs j) by rw [hord]; simp]
    simp only [List.append_assoc]
  have hinj : ∀ z, t.indexKey idx x = keyPrefix t.id idx.id (idx.key up) ++ (beBytes 4 (idx.ord up).length ++ z) ↔
      idx.key x = idx.key up ∧ (idx.ord x).length = (idx.ord up).length ∧ idx.ord x ++ t.pk x = z := by
    intro z
    constructor
    · intro h
      rw [hkey, keyPrefix_eq, keyPrefix_eq] at h
      simp only [List.append_assoc] at h
      have e2 := List.append_inj (List.append_cancel_left h) (by simp)
      have e3 := beBytes_inj (n := 4) (hi.klen wf x) (hi.klen wf up) e2.1
      have e4 := List.append_inj e2.2 e3
      have e5 := List.append_inj e4.2 (by simp)
      exact ⟨e4.1, beBytes_inj (n := 4) (hi.olen wf x) (hi.olen wf up) e5.1, e5.2⟩
    · rintro ⟨e1, e2, e3⟩
      rw [hkey, e1, e2, e3]
  have hlen : (idx.ord up).length = a.length + (i + 1) := by rw [hord]; unfold ffs; simp
  have hex : ((∃ r, t.indexKey idx x = t.indexKey idx up ++ r) ∨
      ∃ r, t.indexKey idx x = (keyPrefix t.id idx.id (idx.key up) ++ (beBytes 4 (idx.ord up).length ++ a)) ++ (b + 1) :: r ∧
        blt r (ffs (i + j)) = true) ↔ (idx.key x = idx.key up ∧ ((idx.ord x = idx.ord up ∧ ∃ r, t.pk x = t.pk up ++ r) ∨
          ∃ w, idx.ord x = a ++ (b + 1) :: w ∧ w.length = i ∧ (w ≠ ffs i ∨ blt (t.pk x) (t.pk up) = true))) := by
    have f1 : ∀ r, t.indexKey idx up ++ r = keyPrefix t.id idx.id (idx.key up) ++ (beBytes 4 (idx.ord up).length ++ (idx.ord up ++ (t.pk up ++ r))) := by
      intro r; rw [hkey]; simp only [List.append_assoc]
    have f2 : ∀ r, (keyPrefix t.id idx.id (idx.key up) ++ (beBytes 4 (idx.ord up).length ++ a)) ++ (b + 1) :: r =
        keyPrefix t.id idx.id (idx.key up) ++ (beBytes 4 (idx.ord up).length ++ (a ++ (b + 1) :: r)) := by
      intro r; simp only [List.append_assoc]
    have f3 : ∀ w : Bytes, w.length = i → (blt (w ++ t.pk x) (ffs (i + j)) = true ↔ w ≠ ffs i ∨ blt (t.pk x) (t.pk up) = true) := by
      intro w hw
      rw [← ffs_add, blt_append_same_len (by rw [hw]; unfold ffs; simp), hpk]
      constructor
      · rintro (h | ⟨_, h⟩)
        · exact Or.inl (fun e => by rw [e, blt_irrefl] at h; cases h)
        · exact Or.inr h
      · intro h
        by_cases hwe : w = ffs i
        · exact Or.inr ⟨hwe, h.resolve_left (fun h => h hwe)⟩
        · rcases (ble_iff _ _).1 (ble_ffs w i (by omega)) with e | e
          · exact absurd e hwe
          · exact Or.inl e
    constructor
    · rintro (⟨r, h⟩ | ⟨r, h, h'⟩)
      · rw [f1] at h
        obtain ⟨e1, e2, e3⟩ := (hinj _).1 h
        have e4 := List.append_inj e3 e2
        exact ⟨e1, Or.inl ⟨e4.1, r, e4.2⟩⟩
      · rw [f2] at h
        obtain ⟨e1, e2, e3⟩ := (hinj _).1 h
        refine ⟨e1, Or.inr ?_⟩
        have hr : r = r.take i ++ r.drop i := (List.take_append_drop i r).symm
        have hrl : i ≤ r.length := by
          have := congrArg List.length e3
          simp only [List.length_append, List.length_cons] at this
          omega
        have htl : (r.take i).length = i := by rw [List.length_take]; omega
        have e4 : idx.ord x ++ t.pk x = (a ++ (b + 1) :: r.take i) ++ r.drop i := by
          rw [e3]; simp only [List.append_assoc, List.cons_append, List.take_append_drop]
        have e5 := List.append_inj e4 (by rw [e2, hlen]; simp [htl])
        refine ⟨r.take i, e5.1, htl, (f3 _ htl).1 ?_⟩
        rw [e5.2, List.take_append_drop]; exact h'
    · rintro ⟨e1, ⟨e2, r, h⟩ | ⟨w, h, hw, h'⟩⟩
      · exact Or.inl ⟨r, by rw [f1]; exact (hinj _).2 ⟨e1, by rw [e2], by rw [e2, h]⟩⟩
      · refine Or.inr ⟨w ++ t.pk x, ?_, (f3 w hw).2 h'⟩
        rw [f2]
        exact (hinj _).2 ⟨e1, by rw [h, hlen]; simp [hw], by rw [h]; simp⟩
  rw [← hex]
  have hb2 := between_ffs (a := keyPrefix t.id idx.id (idx.key up) ++ (beBytes 4 (idx.ord up).length ++ a)) hb (i + j) (t.indexKey idx x)
  rw [← hup] at hb2
  have hsucc : keySuccessor (t.indexKey idx up) =
      (keyPrefix t.id idx.id (idx.key up) ++ (beBytes 4 (idx.ord up).length ++ a)) ++ (b + 1) :: ffs (i + j) := by
    rw [hup, keySuccessor_ffs _ hb]
  rw [← hb2, ← hsucc]
  constructor
  · rintro ⟨g1, g2⟩
    refine ⟨g1, ?_⟩
    by_cases hle : ble (t.indexKey idx up) (t.indexKey idx x) = true
    · exact Or.inr ⟨hle, g2⟩
    · left
      apply ble_of_blt
      simpa [ble] using hle
  · rintro ⟨g1, g2 | g2⟩
    · refine ⟨g1, blt_of_ble_of_blt g2 ?_⟩
      have := lt_succ_indexKey (t := t) up (hl up (by simp)) []
      rwa [List.append_nil] at this
    · exact ⟨g1, g2.2⟩

/-- C27 for an upper bound whose primary key and order (of `n` bytes) consist of bytes 0xFF, or are empty: besides the rows between the
bounds all further rows with the index value of the upper bound and an order of the same length are returned, and those with a longer order
that `nextLength` describes (none if all orders have one length); no others. `C27_exact`, `C27_exact_ord` and this theorem cover all
upper bounds. -/
theorem C27_exact_ord_ffs {t : Table T F} {env : Env T} {filt : F} {db : KV} {ob : Option Batch} {m : Rows T}
    (S : Setting t env filt db ob m) {idx : Index T} (hi : IsIndex t idx) {lo up : T}
    (hl : ∀ p ∈ [lo, up], (idx.key p).length < 2 ^ 32 - 1) {j n : Nat} (hpk : t.pk up = ffs j) (hord : idx.ord up = ffs n) (hn : n < 2 ^ 32 - 1) :
    ∃ rows, IsRows t idx m (fun x => IdxLe t idx lo x ∧ (IdxLe t idx x up ∨ (idx.key x = idx.key up ∧
        ((idx.ord x).length < nextLength n ∨ ((idx.ord x).length = nextLength n ∧ blt (idx.ord x ++ t.pk x) (ffs (n + j)) = true))))) rows ∧
      ∀ reverse, Yields t env filt db ob idx (.range lo up) reverse (dir reverse rows) := by
  obtain ⟨rows, h1, h2, _⟩ := S.single hi (sel := .range lo up) ⟨by simp [Selector.elems], hl⟩ rfl
  refine ⟨rows, h1.congr (fun x _ => ?_), h2⟩
  have wf := S.wf
  unfold BoundP Table.rangeBounds
  simp only
  rw [← indexKey_le wf hi, ← indexKey_le wf hi]
  have hkey : ∀ y : T, t.indexKey idx y = keyPrefix t.id idx.id (idx.key y) ++ (beBytes 4 (idx.ord y).length ++ (idx.ord y ++ t.pk y)) :=
    indexKey_prefix t idx
  have hnl : (idx.ord up).length = n := by rw [hord]; unfold ffs; simp
  obtain ⟨a, b, k, c1, hb, c2, hgt, hlt⟩ := beBytes4_succ hn
  have hup : t.indexKey idx up = (keyPrefix t.id idx.id (idx.key up) ++ a) ++ b :: ffs (k + (n + j)) := by
    rw [hkey, hnl, hpk, hord, c1, ← ffs_add k, ← ffs_add n]
    simp only [List.append_assoc, List.cons_append]
  have hsucc : keySuccessor (t.indexKey idx up) = keyPrefix t.id idx.id (idx.key up) ++ (beBytes 4 (nextLength n) ++ ffs (n + j)) := by
    rw [hup, keySuccessor_ffs _ hb, c2, ← ffs_add k]
    simp only [List.append_assoc, List.cons_append]
  have hsame : idx.key x = idx.key up → (blt (t.indexKey idx x) (keySuccessor (t.indexKey idx up)) = true ↔
      (idx.ord x).length < nextLength n ∨ ((idx.ord x).length = nextLength n ∧ blt (idx.ord x ++ t.pk x) (ffs (n + j)) = true)) := by
    intro hk
    have hxl := hi.olen wf x
    rw [hsucc, hkey, hk, blt_append_left, blt_append_same_len (by simp), blt_beBytes (n := 4) hxl hlt]
    constructor
    · rintro (h | ⟨h, h'⟩)
      · exact Or.inl h
      · exact Or.inr ⟨beBytes_inj (n := 4) hxl hlt h, h'⟩
    · rintro (h | ⟨h, h'⟩)
      · exact Or.inl h
      · exact Or.inr ⟨by rw [h], h'⟩
  have hin : ∀ r, t.indexKey idx x = keyPrefix t.id idx.id (idx.key up) ++ r → idx.key x = idx.key up := by
    intro r h
    rw [hkey, keyPrefix_eq, keyPrefix_eq] at h
    simp only [List.append_assoc] at h
    have e2 := List.append_inj (List.append_cancel_left h) (by simp)
    have e3 := beBytes_inj (n := 4) (hi.klen wf x) (hi.klen wf up) e2.1
    exact (List.append_inj e2.2 e3).1
  constructor
  · rintro ⟨g1, g2⟩
    refine ⟨g1, ?_⟩
    by_cases hle : ble (t.indexKey idx up) (t.indexKey idx x) = true
    · right
      have hk : idx.key x = idx.key up := by
        have g3 := g2
        rw [hup, keySuccessor_ffs _ hb] at g3
        rw [hup] at hle
        rcases (between_ffs hb (k + (n + j)) _).1 ⟨hle, g3⟩ with ⟨r, h⟩ | ⟨r, h, -⟩
        · exact hin (a ++ (b :: ffs (k + (n + j)) ++ r)) (by rw [h]; simp only [List.append_assoc])
        · exact hin (a ++ (b + 1) :: r) (by rw [h]; simp only [List.append_assoc])
      exact ⟨hk, (hsame hk).1 g2⟩
    · left
      apply ble_of_blt
      simpa [ble] using hle
  · rintro ⟨g1, g2 | ⟨hk, g2⟩⟩
    · refine ⟨g1, blt_of_ble_of_blt g2 ?_⟩
      have := lt_succ_indexKey (t := t) up (hl up (by simp)) []
      rwa [List.append_nil] at this
    · exact ⟨g1, (hsame hk).2 g2⟩

/-- test table: key (first field), index on the constant value, ordered by the second field -/
def ordTable : Table Rec Unit :=
  { exTable with indexes := [{ id := 1, key := fun _ => [3], ord := fun x => [x.2], filter := fun _ => true }] }

/-- the range up to (255, 5) also returns (0, 6) and (254, 6), not (255, 6); the range up to (255, 255) returns all -/
example :
    let idx := ordTable.indexes.head (by decide)
    let db := (ordTable.insert (stdEnv ordTable) KV.empty () none [(255, 5), (0, 6), (254, 6), (1, 7)]).db
    ordTable.pk (255, 5) = ffs 1 ∧ idx.ord (255, 5) = [] ++ 5 :: ffs 0 ∧ idx.ord (255, 255) = ffs 1 ∧
    ordTable.scanIndex (stdEnv ordTable) () db none idx (.range (0, 0) (255, 5)) false 9 [] = some ⟨[(255, 5), (0, 6), (254, 6)], none⟩ ∧
    ordTable.scanIndex (stdEnv ordTable) () db none idx (.range (0, 0) (255, 255)) false 9 [] = some ⟨[(255, 5), (0, 6), (254, 6), (1, 7)], none⟩ := by
  refine ⟨rfl, rfl, rfl, by decide, by decide⟩

end Bond
