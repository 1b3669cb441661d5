import Verif.Spec.Database
import Verif.Props.Machine
/-
C99: a database of several tables and keys of the user behaves as so many maps under common transactions.
-/
namespace Bond
open Spec
variable {ι : Type} {T F : Type}

/-- a call on a table changes nothing outside of it, neither in the store nor as seen through the open batch -/
theorem pstep_outside {t : Table T F} {srt : (T → T → Bool) → List T → List T} {fuel : Nat} {w w' : PWorld F} {env : Env T} (ok : env.OK t)
    {inBatch : Bool} {c : TCall T} {a : Answer T} (h : t.pstep srt fuel w (.call env inBatch c) = some (a, w')) :
    SameOutside t w.db w'.db ∧ (w'.batch = none → w.batch = none) ∧
    ∀ b', w'.batch = some b' → ∃ b, w.batch = some b ∧ b'.indexed = b.indexed ∧ SameOutside t (w.db.apply b.ops) (w'.db.apply b'.ops) := by
  have read : w' = w → SameOutside t w.db w'.db ∧ (w'.batch = none → w.batch = none) ∧
      ∀ b', w'.batch = some b' → ∃ b, w.batch = some b ∧ b'.indexed = b.indexed ∧ SameOutside t (w.db.apply b.ops) (w'.db.apply b'.ops) := by
    rintro rfl
    exact ⟨SameOutside.refl _ _, id, fun b' hb' => ⟨b', hb', rfl, SameOutside.refl _ _⟩⟩
  have rd : ∀ o : Option (Answer T), (o.map (fun a => (a, w)) = some (a, w')) → w' = w := by
    intro o ho
    cases o with
    | none => simp at ho
    | some x => simp only [Option.map_some, Option.some.injEq, Prod.mk.injEq] at ho; exact ho.2.symm
  cases c with
  | write c =>
    simp only [Table.pstep, Option.some.injEq, Prod.mk.injEq] at h
    obtain ⟨_, rfl⟩ := h
    obtain ⟨h1, h2⟩ := C22_outside ok w.db w.filt (if inBatch then w.batch else none) c
    refine ⟨h1, ?_, ?_⟩
    · intro hb
      simp only at hb
      cases inBatch with
      | false => simpa using hb
      | true =>
        simp only [if_true] at hb
        cases hw : w.batch with
        | none => rfl
        | some b =>
          obtain ⟨l, hl, _⟩ := C61_partial ok w.db w.filt b c
          rw [hw, hl] at hb
          cases hb
    · intro b' hb'
      simp only at hb'
      cases inBatch with
      | false =>
        simp only [Bool.false_eq_true, if_false] at hb' h1 ⊢
        exact ⟨b', hb', rfl, fun k hk => get_apply_congr (h1 k hk) _⟩
      | true =>
        simp only [if_true] at hb' h1 h2 ⊢
        cases hb : w.batch with
        | none =>
          rw [hb, Table.run_eq] at hb'
          split at hb'
          · cases hb'
          · rw [finish_nobatch] at hb'; cases hb'
        | some b =>
          rw [hb] at hb' h2
          obtain ⟨l, hl, _⟩ := C61_partial ok w.db w.filt b c
          refine ⟨b, rfl, ?_, ?_⟩
          · rw [hl] at hb'; cases hb'; rfl
          · intro k hk
            have := h2 k hk
            unfold WOut.view at this
            rw [hb'] at this
            exact this
  | get x => exact read (rd (t.readCall srt fuel env w.filt w.db (if inBatch then w.batch else none) (.get x)) h)
  | getMany x => exact read (rd (t.readCall srt fuel env w.filt w.db (if inBatch then w.batch else none) (.getMany x)) h)
  | exist x => exact read (rd (t.readCall srt fuel env w.filt w.db (if inBatch then w.batch else none) (.exist x)) h)
  | scan x => exact read (rd _ h)
  | scanIndex x y z => exact read (rd _ h)
  | query x => exact read (rd _ h)

/-- the maps are what the store and the open batch hold -/
structure DRepresents (A : Tables ι) (w : DWorld A) (s : DMaps A) : Prop where
  rows : ∀ i, Represents (A.t i) ⟨w.db, w.filt i, w.batch⟩ (s.rows i)
  own : ∀ k, UserKey A k → w.db.get k = s.own k
  closed : w.batch = none → s.ownTx = none
  opened : ∀ b, w.batch = some b → b.indexed = true ∧ ∃ v, s.ownTx = some v ∧ ∀ k, UserKey A k → (w.db.apply b.ops).get k = v k

/-- what is needed of each table -/
structure Tables.OK (A : Tables ι) (srt : (i : ι) → (A.T i → A.T i → Bool) → List (A.T i) → List (A.T i)) : Prop where
  wf : ∀ i, (A.t i).WF
  rt : ∀ i, (A.t i).RoundTrip
  fs : ∀ i, (A.t i).FilterSound
  prefetch : ∀ i, 0 < (A.t i).prefetch
  ids : ∀ i j, (A.t i).id = (A.t j).id → i = j
  sort : ∀ i, SortSlice (srt i)

theorem change_apply1 {db : KV} {u : Bytes → Option Bytes} {k : Bytes} (h : db.get k = u k) (o : WOp) : (db.apply1 o).get k = change u o k := by
  cases o with
  | set k' v => simp only [KV.apply1, change, KV.get_set, h]
  | del k' => simp only [KV.apply1, change, KV.get_del, h]
  | delRange a b =>
    simp only [KV.apply1, change, KV.get_delRange, h, Bool.and_eq_true]

theorem Represents.congr {t : Table T F} {w : PWorld F} {s : Maps T} (h : Represents t w s) {w' : PWorld F} (hf : w'.filt = w.filt)
    (hdb : SameInside t w.db w'.db) (hn : w'.batch = none → w.batch = none)
    (hb : ∀ b', w'.batch = some b' → ∃ b, w.batch = some b ∧ b'.indexed = b.indexed ∧ SameInside t (w.db.apply b.ops) (w'.db.apply b'.ops)) :
    Represents t w' s where
  stored := h.stored.congr hdb
  covers := by rw [hf]; exact h.covers
  closed := fun h' => h.closed (hn h')
  opened := by
    intro b' hb'
    obtain ⟨b, h1, h2, h3⟩ := hb b' hb'
    obtain ⟨g1, v, g2, g3, g4⟩ := h.opened b h1
    exact ⟨h2.trans g1, v, g2, g3.congr h3, by rw [hf]; exact g4⟩

theorem apply_snoc (db : KV) (l : List WOp) (o : WOp) : db.apply (l ++ [o]) = (db.apply l).apply1 o := by
  rw [KV.apply_append, KV.apply_cons, KV.apply_nil]

/-- C99 (one action): the answer and all maps afterwards are those of the specification. -/
theorem C99_step [DecidableEq ι] {A : Tables ι} {srt : (i : ι) → (A.T i → A.T i → Bool) → List (A.T i) → List (A.T i)} (hA : A.OK srt)
    {w : DWorld A} {s : DMaps A} (h : DRepresents A w s) {x : DStep A} (hx : DProper1 A s x) :
    ∃ N a w' s', (∀ fuel, N ≤ fuel → A.dstep srt fuel w x = some (a, w')) ∧ DDoes A s x a s' ∧ DRepresents A w' s' := by
  cases x with
  | call i env inBatch c =>
    have hok : env.OK (A.t i) := by
      cases c <;> exact hx.1
    obtain ⟨N, a, w', s', h1, h2, h3⟩ := C97_step (hA.wf i) (hA.rt i) (hA.fs i) (hA.prefetch i) (hA.sort i) (h.rows i) hx
    obtain ⟨o1, o2, o3⟩ := pstep_outside hok (h1 N (Nat.le_refl _))
    refine ⟨N, .table i a, { db := w'.db, batch := w'.batch, filt := fun j => if h : j = i then h ▸ w'.filt else w.filt j },
      ⟨fun j => if h : j = i then h ▸ s' else s.rows j, s.own, s.ownTx⟩, ?_, ?_, ?_⟩
    · intro fuel hf
      simp only [Tables.dstep, h1 fuel hf, Option.map_some]
    · exact ⟨a, rfl, by simpa using h2, fun j hj => by simp [hj], rfl, rfl⟩
    · refine ⟨fun j => ?_, ?_, ?_, ?_⟩
      · by_cases hj : j = i
        · subst hj
          simpa using h3
        · have hid : (A.t j).id ≠ (A.t i).id := fun he => hj (hA.ids j i he)
          simp only [hj, dif_neg, not_false_eq_true]
          refine (h.rows j).congr rfl (fun k hk => o1 k (outside_other hid hk)) o2 ?_
          intro b' hb'
          obtain ⟨b, g1, g2, g3⟩ := o3 b' hb'
          exact ⟨b, g1, g2, fun k hk => g3 k (outside_other hid hk)⟩
      · intro k hk
        exact (o1 k (hk i)).trans (h.own k hk)
      · exact fun hn => h.closed (o2 hn)
      · intro b' hb'
        obtain ⟨b, g1, g2, g3⟩ := o3 b' hb'
        obtain ⟨k1, v, k2, k3⟩ := h.opened b g1
        exact ⟨g2.trans k1, v, k2, fun k hk => (g3 k (hk i)).trans (k3 k hk)⟩
  | write ok inBatch o =>
    obtain ⟨hp, ht⟩ := hx
    have hin : ∀ (V : KV) i k, ¬ Outside (A.t i) k → (V.apply1 o).get k = V.get k :=
      fun V i k hk => get_apply1_of_not_touch V o k (fun hto => hk (ht k hto i))
    have direct : w.batch = none → ∃ N a w' s', (∀ fuel, N ≤ fuel → A.dstep srt fuel w (.write ok inBatch o) = some (a, w')) ∧
        DDoes A s (.write ok inBatch o) a s' ∧ DRepresents A w' s' := by
      intro hb
      have htx := h.closed hb
      cases ok with
      | true =>
        refine ⟨0, .done none, { w with db := w.db.apply1 o }, ⟨s.rows, change s.own o, s.ownTx⟩, fun _ _ => ?_, ?_, ?_⟩
        · cases inBatch <;> simp [Tables.dstep, userWrite, hb]
        · refine ⟨rfl, ?_⟩
          rw [htx]
          cases inBatch <;> exact ⟨fun _ => rfl, rfl, Or.inl ⟨rfl, rfl⟩⟩
        · refine ⟨fun i => (h.rows i).congr rfl (fun k hk => hin _ i k hk) id (fun b' hb' => ?_), fun k hk => change_apply1 (h.own k hk) o,
            h.closed, fun b' hb' => ?_⟩
          · simp only at hb'; rw [hb] at hb'; cases hb'
          · simp only at hb'; rw [hb] at hb'; cases hb'
      | false =>
        refine ⟨0, .done (some .commit), w, s, fun _ _ => ?_, ?_, h⟩
        · cases inBatch <;> simp [Tables.dstep, userWrite, hb]
          all_goals (cases w; simp_all)
        · refine ⟨rfl, ?_⟩
          rw [htx]
          cases inBatch <;> exact ⟨fun h => by simp at h, rfl, Or.inr ⟨rfl, rfl⟩⟩
    cases hb : w.batch with
    | none => exact direct hb
    | some b =>
      obtain ⟨hi, v, hv, hown⟩ := h.opened b hb
      have hin' : inBatch = true := hp (by simp [hv])
      subst hin'
      refine ⟨0, .done none, { w with batch := some { b with ops := b.ops ++ [o] } }, ⟨s.rows, s.own, some (change v o)⟩, fun _ _ => ?_, ?_, ?_⟩
      · simp [Tables.dstep, userWrite, hb]
      · refine ⟨rfl, ?_⟩
        rw [hv]
        exact ⟨rfl, rfl, rfl⟩
      · refine ⟨fun i => (h.rows i).congr rfl (fun k hk => rfl) (fun hn => by simp at hn) (fun b' hb' => ?_), h.own, fun hn => by simp at hn,
          fun b' hb' => ?_⟩
        · simp only [Option.some.injEq] at hb'
          subst hb'
          exact ⟨b, hb, rfl, fun k hk => by simp only [apply_snoc]; exact hin _ i k hk⟩
        · simp only [Option.some.injEq] at hb'
          subst hb'
          exact ⟨hi, _, rfl, fun k hk => by simp only [apply_snoc]; exact change_apply1 (hown k hk) o⟩
  | get inBatch k =>
    refine ⟨0, .value ((if inBatch then s.ownTx.getD s.own else s.own) k), w, s, fun _ _ => ?_, ⟨rfl, rfl⟩, h⟩
    have hk : UserKey A k := hx
    cases inBatch with
    | false => simp [Tables.dstep, userGet, readable, h.own k hk]
    | true =>
      cases hb : w.batch with
      | none => simp [Tables.dstep, userGet, readable, h.own k hk, hb, h.closed hb]
      | some b =>
        obtain ⟨hi, v, hv, hown⟩ := h.opened b hb
        simp [Tables.dstep, userGet, readable, hb, hi, hv, hown k hk]
  | begin =>
    refine ⟨0, .done none, _, _, fun _ _ => rfl, ⟨rfl, rfl⟩, fun i => ?_, h.own, fun hn => by simp at hn, ?_⟩
    · refine ⟨(h.rows i).stored, (h.rows i).covers, fun hn => by simp at hn, ?_⟩
      rintro b hb
      simp only [Option.some.injEq] at hb
      subst hb
      exact ⟨rfl, _, rfl, by simpa [KV.apply_nil] using (h.rows i).stored, (h.rows i).covers⟩
    · rintro b hb
      simp only [Option.some.injEq] at hb
      subst hb
      exact ⟨rfl, _, rfl, by simpa [KV.apply_nil] using h.own⟩
  | discard =>
    exact ⟨0, .done none, _, _, fun _ _ => rfl, ⟨rfl, rfl⟩, fun i => ⟨(h.rows i).stored, (h.rows i).covers, fun _ => rfl, fun b hb => nomatch hb⟩,
      h.own, fun _ => rfl, fun b hb => nomatch hb⟩
  | commit k =>
    cases hb : w.batch with
    | none =>
      refine ⟨0, .done none, w, s, fun _ _ => by simp only [Tables.dstep, hb], ⟨fun _ => rfl, Or.inl ⟨rfl, ?_⟩⟩, h⟩
      have h1 := h.closed hb
      have h2 : ∀ i, (s.rows i).tx = none := fun i => (h.rows i).closed hb
      cases s with
      | mk rows own ownTx =>
        simp only at h1 h2
        subst h1
        congr 1
        funext i
        rw [h2 i, Option.getD_none, ← h2 i]
    | some b =>
      obtain ⟨hi, v, hv, hown⟩ := h.opened b hb
      have heq : ∀ fuel, A.dstep srt fuel w (.commit k) =
          some (.done (Batch.commit k w.db b).2, { w with db := (Batch.commit k w.db b).1, batch := none }) := by
        intro fuel; simp only [Tables.dstep, hb]
      have good : DRepresents A { w with db := w.db.apply b.ops, batch := none }
          ⟨fun i => ⟨(s.rows i).tx.getD (s.rows i).stored, none⟩, s.ownTx.getD s.own, none⟩ := by
        refine ⟨fun i => ?_, fun k hk => ?_, fun _ => rfl, fun b hb => nomatch hb⟩
        · obtain ⟨_, u, hu, hH, hF⟩ := (h.rows i).opened b hb
          refine ⟨?_, ?_, fun _ => rfl, fun b hb => nomatch hb⟩
          · simp only [hu, Option.getD_some]; exact hH
          · simp only [hu, Option.getD_some]; exact hF
        · simp only [hv, Option.getD_some]; exact hown k hk
      by_cases h0 : b.ops = []
      · rw [h0, KV.apply_nil] at good
        refine ⟨0, .done none, { w with batch := none }, _, fun fuel _ => ?_, ⟨fun _ => rfl, Or.inl ⟨rfl, rfl⟩⟩, good⟩
        rw [heq]; simp [Batch.commit, h0]
      · cases k with
        | true =>
          refine ⟨0, .done none, _, _, fun fuel _ => ?_, ⟨fun _ => rfl, Or.inl ⟨rfl, rfl⟩⟩, good⟩
          rw [heq]; simp [Batch.commit, h0]
        | false =>
          refine ⟨0, .done (some .commit), { w with batch := none }, _, fun fuel _ => ?_, ⟨fun h => by simp at h, Or.inr ⟨rfl, rfl⟩⟩,
            fun i => ⟨(h.rows i).stored, (h.rows i).covers, fun _ => rfl, fun b hb => nomatch hb⟩, h.own, fun _ => rfl, fun b hb => nomatch hb⟩
          rw [heq]; simp [Batch.commit, h0]

/-- C99. For any tables with different ids and any program of calls on them, of reads and writes of the user's own keys, and of
transactions that span all of them: all answers are those of one map per table and one map for the user's keys. -/
theorem C99 [DecidableEq ι] {A : Tables ι} {srt : (i : ι) → (A.T i → A.T i → Bool) → List (A.T i) → List (A.T i)} (hA : A.OK srt)
    (l : List (DStep A)) : ∀ {w : DWorld A} {s : DMaps A}, DRepresents A w s → DProper A s l →
    ∃ N as w' s', (∀ fuel, N ≤ fuel → A.drun srt fuel w l = some (as, w')) ∧ DBehaves A s l as s' ∧ DRepresents A w' s' := by
  induction l with
  | nil => intro w s h _; exact ⟨0, [], w, s, fun _ _ => rfl, .nil, h⟩
  | cons x l ih =>
    intro w s h hx
    obtain ⟨N, a, w', s', h1, h2, h3⟩ := C99_step hA h hx.1
    obtain ⟨M, as, w'', s'', g1, g2, g3⟩ := ih h3 (hx.2 a s' h2)
    refine ⟨max N M, a :: as, w'', s'', fun fuel hf => ?_, .cons h2 g2, g3⟩
    simp only [Tables.drun]
    rw [h1 fuel (by omega)]
    simp only
    rw [g1 fuel (by omega)]
    rfl

/-- C99 from the beginning: an empty database. -/
theorem C99_start [DecidableEq ι] {A : Tables ι} {srt : (i : ι) → (A.T i → A.T i → Bool) → List (A.T i) → List (A.T i)} (hA : A.OK srt)
    (f : (i : ι) → A.F i) (l : List (DStep A)) (hl : DProper A ⟨fun _ => ⟨fun _ => none, none⟩, fun _ => none, none⟩ l) :
    ∃ N as w' s', (∀ fuel, N ≤ fuel → A.drun srt fuel ⟨KV.empty, f, none⟩ l = some (as, w')) ∧
      DBehaves A ⟨fun _ => ⟨fun _ => none, none⟩, fun _ => none, none⟩ l as s' ∧ DRepresents A w' s' :=
  C99 hA l ⟨fun _ => ⟨holds_none (fun _ _ => rfl), fun fl _ pk x hx => (by cases hx), fun _ => rfl, fun b hb => nomatch hb⟩,
    fun _ _ => rfl, fun _ => rfl, fun b hb => nomatch hb⟩ hl

/-- keys that start with a byte that is the id of no table belong to no table; so those made with NewUserKey, which start with 0 (keys.go:155-163) -/
theorem C99_userKey {A : Tables ι} {b : UInt8} (h : ∀ i, (A.t i).id ≠ b) (k : Bytes) : UserKey A (b :: k) := by
  intro i
  refine ⟨fun hs => ?_, fun idx _ hs => ?_⟩
  all_goals
    obtain ⟨r, hr⟩ := hs
    cases hr
    exact h i rfl

/-- a table of single bytes, without indexes -/
def c99Table : Table UInt8 Unit :=
  { id := 9, pk := fun x => [x], indexes := [], ser := fun x => some [x], deser := fun _ b => match b with | [a] => some a | _ => none
    nil := 0, empty := 0, filter := none, prefetch := 3 }

theorem c99Table_wf : c99Table.WF where
  ids := by decide
  nz := by intro idx h; simp [c99Table] at h
  klen := by intro idx h; simp [c99Table] at h
  olen := by intro idx h; simp [c99Table] at h

/-- a database with two tables -/
def c99Tables : Tables Bool where
  T := fun b => if b then Rec else UInt8
  F := fun _ => Unit
  t := fun b => match b with | true => exTable | false => c99Table

theorem c99Tables_ok : c99Tables.OK (fun _ => insSort) where
  wf := by
    intro i
    cases i
    · exact c99Table_wf
    · exact exTable_wf
  rt := by
    intro i
    cases i
    · intro x b h o
      simp only [c99Tables, c99Table, Option.some.injEq] at h
      subst h
      rfl
    · exact exTable_rt
  fs := by
    intro i fl h
    cases i <;> simp [c99Tables, c99Table, exTable] at h
  prefetch := by intro i; cases i <;> decide
  ids := by intro i j; cases i <;> cases j <;> decide
  sort := fun _ => insSort_ok

/-- A program: rows go into both tables and a value under a key of the user; a transaction changes all three, is read through and from
outside, and is committed; another is dropped. -/
def c99Program : List (DStep c99Tables) :=
  let e1 : Env (c99Tables.T true) := stdEnv exTable
  let e2 : Env (c99Tables.T false) := stdEnv c99Table
  [.call true e1 false (.write (.insert [((1, 5) : Rec)])), .call false e2 false (.write (.insert [(4 : UInt8)])), .write true false (.set [0, 1] [8]),
   .begin, .call true e1 true (.write (.insert [((2, 5) : Rec)])), .call false e2 true (.write (.delete [(4 : UInt8)])), .write true true (.del [0, 1]),
   .call false e2 true (.exist (4 : UInt8)), .call false e2 false (.exist (4 : UInt8)), .call true e1 true (.get ((2, 0) : Rec)),
   .call true e1 false (.get ((2, 0) : Rec)), .get true [0, 1], .get false [0, 1],
   .commit true, .call false e2 false (.exist (4 : UInt8)), .call true e1 false (.get ((2, 0) : Rec)), .get false [0, 1],
   .begin, .write true true (.set [0, 1] [9]), .get true [0, 1], .discard, .get false [0, 1]]

/-- the answers, for the comparison below -/
inductive C99Answer
  | record (a : Answer Rec)
  | byte (a : Answer UInt8)
  | value (v : Option Bytes)
  | done (e : Option Err)
deriving DecidableEq

/-- the answers, for the comparison below -/
def c99Show : DAnswer c99Tables → C99Answer
  | .table true a => .record a
  | .table false a => .byte a
  | .value v => .value v
  | .done e => .done e

example : ((c99Tables.drun (fun _ => insSort) 30 ⟨KV.empty, fun _ => (), none⟩ c99Program).map (fun r => r.1.map c99Show)) = some
    [.record (.done none), .byte (.done none), .done none,
     .done none, .record (.done none), .byte (.done none), .done none,
     .byte (.yes false), .byte (.yes true), .record (.row (.ok (2, 5))), .record (.row (.error .notFound)), .value none, .value (some [8]),
     .done none, .byte (.yes false), .record (.row (.ok (2, 5))), .value none,
     .done none, .done none, .value (some [9]), .done none, .value none] := by
  decide +kernel

/-- the program is within the documented use, so C99 speaks about it -/
example : DProper c99Tables ⟨fun _ => ⟨fun _ => none, none⟩, fun _ => none, none⟩ c99Program := by
  have ok1 := stdEnv_ok exTable
  have ok2 := stdEnv_ok c99Table
  have hu : UserKey c99Tables [0, 1] := C99_userKey (by intro i; cases i <;> decide) [1]
  have hd : ∀ m : Rows UInt8, ProperWrite c99Table (stdEnv c99Table) m (.delete [4]) := by
    intro m x _ old _ idx hi
    simp [c99Table] at hi
  refine ⟨⟨ok1, by simp, Or.inl (by decide)⟩, fun _ s1 h1 => ⟨⟨ok2, ?_, Or.inl (by decide)⟩, fun _ s2 h2 => ⟨⟨?_, fun k hk => hk ▸ hu⟩,
    fun _ s3 h3 => ⟨trivial, fun _ _ _ => ⟨⟨ok1, by simp, Or.inl (by decide)⟩, fun _ _ _ =>
    ⟨⟨ok2, by simp, hd _⟩, fun _ _ _ => ⟨⟨by simp, fun k hk => hk ▸ hu⟩, fun _ _ _ => ⟨⟨ok2, trivial⟩, fun _ _ _ => ⟨⟨ok2, trivial⟩, fun _ _ _ =>
    ⟨⟨ok1, trivial⟩, fun _ _ _ => ⟨⟨ok1, trivial⟩, fun _ _ _ => ⟨hu, fun _ _ _ => ⟨hu, fun _ _ _ =>
    ⟨trivial, fun _ _ _ => ⟨⟨ok2, trivial⟩, fun _ _ _ => ⟨⟨ok1, trivial⟩, fun _ _ _ => ⟨hu, fun _ _ _ => ⟨trivial, fun _ _ _ => ⟨⟨by simp, fun k hk => hk ▸ hu⟩,
    fun _ _ _ => ⟨hu, fun _ _ _ => ⟨trivial, fun _ _ _ => ⟨hu, fun _ _ _ => trivial⟩⟩⟩⟩⟩⟩⟩⟩⟩⟩⟩⟩⟩⟩⟩⟩⟩⟩⟩⟩⟩⟩
  · obtain ⟨_, _, _, hr, _⟩ := h1
    rw [hr false (by decide)]
    simp
  · obtain ⟨_, _, _, _, _, g1⟩ := h1
    obtain ⟨_, _, _, _, _, g2⟩ := h2
    rw [g2, g1]
    simp

end Bond
