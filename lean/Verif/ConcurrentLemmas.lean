import Verif.Concurrent
/-
A call depends only on the stored rows with its own keys; run alone its actions are the sequential call.
-/
namespace Bond
open Spec
variable {T F : Type}

theorem execActs_append (as bs : List (Act T F)) (db : KV) : ∀ (f : F) (l : Loc T),
    execActs (as ++ bs) db f l = match execActs as db f l with
      | (r, none) => execActs bs db r.2 r.1
      | (r, some e) => (r, some e) := by
  induction as with
  | nil => intro f l; rfl
  | cons a as ih =>
    intro f l
    rw [List.cons_append, execActs, execActs]
    split
    · exact ih _ _
    · rfl

/-- outcome of actions as the outcome of a loop of Table.lean -/
def asW (r : (Loc T × F) × Option Err) : WSt T F × Option Err := (r.1.1.toW r.1.2, r.2)

theorem insertLoop_cons (t : Table T F) (env : Env T) (entries : List (Bytes × Bytes)) (trs : List T) (prev : Option Bytes)
    (e : Bytes × Nat) (rest : List (Bytes × Nat)) (s : WSt T F) :
    t.insertLoop env entries trs prev (e :: rest) s =
      match t.insertLoop env entries trs prev [e] s with
      | (s', none) => t.insertLoop env entries trs (some e.1) rest s'
      | (s', some x) => (s', some x) := by
  obtain ⟨k, j⟩ := e
  rw [Table.insertLoop, Table.insertLoop]
  split
  · rfl
  split
  · rfl
  split
  · rfl
  split
  · rfl
  · rw [Table.insertLoop]

theorem unsafeInsertLoop_cons (t : Table T F) (env : Env T) (x : T) (rest : List T) (s : WSt T F) :
    t.unsafeInsertLoop env (x :: rest) s =
      match t.unsafeInsertLoop env [x] s with
      | (s', none) => t.unsafeInsertLoop env rest s'
      | (s', some e) => (s', some e) := by
  rw [Table.unsafeInsertLoop, Table.unsafeInsertLoop]
  split
  · rfl
  split
  · rfl
  · rw [Table.unsafeInsertLoop]

theorem upsertDup_rest {oc : Table.OnConflict T} {trs : List T} {k : Bytes} (items : List (Bytes × Nat)) :
    ∀ (i : Nat) (a b : T) r, Table.upsertDup oc trs k items i a b = some r →
      r.1 = items.dropWhile (fun x => x.1 == k) ∧ r.2.1 = i + (items.takeWhile (fun x => x.1 == k)).length := by
  induction items with
  | nil => intro i a b r h; simp [Table.upsertDup] at h; subst h; simp
  | cons e items ih =>
    intro i a b r h
    obtain ⟨k', j'⟩ := e
    rw [Table.upsertDup] at h
    split at h
    · rename_i hk
      split at h
      · simp at h
      · obtain ⟨h1, h2⟩ := ih _ _ _ _ h
        simp only [List.dropWhile_cons, List.takeWhile_cons, hk, beq_self_eq_true, if_true, List.length_cons]
        exact ⟨h1, by rw [h2]; omega⟩
    · rename_i hk
      simp only [Option.some.injEq] at h
      subst h
      have : (k' == k) = false := by simpa using hk
      simp [List.dropWhile_cons, List.takeWhile_cons, this]

theorem upsertLoop_nil (t : Table T F) (env : Env T) (oc : Table.OnConflict T) (entries : List (Bytes × Bytes)) (trs : List T)
    (fuel i : Nat) (s : WSt T F) : t.upsertLoop env oc entries trs fuel i [] s = (s, none) := by
  cases fuel <;> rfl

theorem upsertLoop_cons (t : Table T F) (env : Env T) (oc : Table.OnConflict T) (entries : List (Bytes × Bytes)) (trs : List T)
    (fuel i : Nat) (e : Bytes × Nat) (rest : List (Bytes × Nat)) (s : WSt T F) :
    t.upsertLoop env oc entries trs (fuel + 1) i (e :: rest) s =
      match t.upsertLoop env oc entries trs 1 i (e :: rest) s with
      | (s', none) => t.upsertLoop env oc entries trs fuel (i + (rest.takeWhile (fun x => x.1 == e.1)).length + 1)
          (rest.dropWhile (fun x => x.1 == e.1)) s'
      | (s', some x) => (s', some x) := by
  obtain ⟨k, j⟩ := e
  rw [Table.upsertLoop, Table.upsertLoop]
  split
  · rfl
  split
  · rfl
  simp only
  split
  · rfl
  split
  · rfl
  rename_i r hd
  obtain ⟨h1, h2⟩ := upsertDup_rest _ _ _ _ _ hd
  simp only at h1 h2
  split
  · rfl
  · simp only [Table.upsertLoop, h1, h2]

theorem exec_insertRows (t : Table T F) (env : Env T) (trs : List T) (db : KV) (items : List (Bytes × Nat)) :
    ∀ (f : F) (l : Loc T), l.items = items →
    asW (execActs (items.map (fun _ => insertRow t env trs)) db f l) = t.insertLoop env l.entries trs l.prev items (l.toW f) := by
  induction items with
  | nil => intro f l _; simp [execActs, asW, Table.insertLoop]
  | cons e rest ih =>
    intro f l hl
    rw [insertLoop_cons, List.map_cons, execActs]
    simp only [insertRow, hl]
    generalize hr : t.insertLoop env l.entries trs l.prev [e] (l.toW f) = r
    obtain ⟨s', x⟩ := r
    cases x with
    | none => exact ih _ _ rfl
    | some x => rfl

theorem exec_upsertNil (t : Table T F) (env : Env T) (oc : Table.OnConflict T) (trs : List T) (db : KV) {α : Type} (xs : List α)
    (f : F) (l : Loc T) (hl : l.items = []) : execActs (xs.map (fun _ => upsertRow t env oc trs)) db f l = ((l, f), none) := by
  induction xs with
  | nil => rfl
  | cons x xs ih => rw [List.map_cons, execActs]; simp only [upsertRow, hl]; exact ih

theorem exec_upsertRows (t : Table T F) (env : Env T) (oc : Table.OnConflict T) (trs : List T) (db : KV) {α : Type} (xs : List α) :
    ∀ (f : F) (l : Loc T), l.items.length ≤ xs.length →
    asW (execActs (xs.map (fun _ => upsertRow t env oc trs)) db f l) =
      t.upsertLoop env oc l.entries trs xs.length l.i l.items (l.toW f) := by
  induction xs with
  | nil =>
    intro f l hl
    have : l.items = [] := List.length_eq_zero_iff.1 (by simpa using hl)
    simp [execActs, asW, this, Table.upsertLoop]
  | cons x xs ih =>
    intro f l hl
    cases hi : l.items with
    | nil =>
      rw [exec_upsertNil t env oc trs db (x :: xs) f l hi, upsertLoop_nil]; rfl
    | cons e rest =>
      rw [List.length_cons, upsertLoop_cons, List.map_cons, execActs]
      simp only [upsertRow, hi]
      generalize hr : t.upsertLoop env oc l.entries trs 1 l.i (e :: rest) (l.toW f) = r
      obtain ⟨s', y⟩ := r
      cases y with
      | none =>
        refine ih _ _ ?_
        have := (List.dropWhile_suffix (l := rest) (fun x => x.1 == e.1)).length_le
        rw [hi] at hl
        simp only [List.length_cons] at hl
        simp only [Loc.upd]
        omega
      | some x => rfl

theorem exec_unsafeInsertRows (t : Table T F) (env : Env T) (db : KV) (trs : List T) :
    ∀ (f : F) (l : Loc T), asW (execActs (trs.map (unsafeInsertRow t env)) db f l) = t.unsafeInsertLoop env trs (l.toW f) := by
  induction trs with
  | nil => intro f l; simp [execActs, asW, Table.unsafeInsertLoop]
  | cons x xs ih =>
    intro f l
    rw [unsafeInsertLoop_cons, List.map_cons, execActs]
    simp only [unsafeInsertRow]
    generalize hr : t.unsafeInsertLoop env [x] (l.toW f) = r
    obtain ⟨s', y⟩ := r
    cases y with
    | none => exact ih _ _
    | some x => rfl

theorem exec_chunks {α : Type} {as : List α → List (Act T F)} {g : List α → WSt T F → WSt T F × Option Err} {db : KV}
    (h : ∀ c f l, asW (execActs (as c) db f l) = g c (l.toW f)) (cs : List (List α)) :
    ∀ (f : F) (l : Loc T), asW (execActs (cs.flatMap as) db f l) = forChunks g cs (l.toW f) := by
  induction cs with
  | nil => intro f l; rfl
  | cons c cs ih =>
    intro f l
    rw [List.flatMap_cons, execActs_append, forChunks, ← h c f l]
    generalize execActs (as c) db f l = r
    obtain ⟨⟨l', f'⟩, x⟩ := r
    cases x with
    | none => exact ih _ _
    | some x => rfl

/-- without interference the actions of a call are the body of the sequential call -/
theorem exec_body (t : Table T F) (env : Env T) (db : KV) (f : F) (c : WCall T) :
    asW (execActs (t.acts env c) db f t.loc0) =
      if c.mismatch then (t.start f, some .sizeMismatch) else t.body env db none (t.start f) c := by
  cases c with
  | insert trs =>
    simp only [WCall.mismatch, Bool.false_eq_true, if_false]
    refine exec_chunks (fun c f l => ?_) _ f t.loc0
    rw [execActs]
    simp only [openSlice]
    rw [exec_insertRows]
    · rfl
    · rfl
  | update trs =>
    simp only [WCall.mismatch, Bool.false_eq_true, if_false]
    refine exec_chunks (fun c f l => ?_) _ f t.loc0
    rw [execActs]
    simp only [openSlice, execActs, updateRows, Table.updateChunk, readView]
    generalize hr : t.updateLoop env _ c _ _ = r
    have hr' : t.updateLoop env (db.scan (((sortKeys env (c.map t.key)).map Prod.fst).headD []) t.dataKeySpaceEnd) c
      (sortKeys env (c.map t.key)) (l.toW f) = r := hr
    rw [hr']
    obtain ⟨s', y⟩ := r
    cases y <;> rfl
  | upsert oc trs =>
    simp only [WCall.mismatch, Bool.false_eq_true, if_false]
    refine exec_chunks (fun c f l => ?_) _ f t.loc0
    rw [execActs]
    simp only [openSlice]
    rw [exec_upsertRows]
    · rfl
    · exact Nat.le_refl _
  | delete trs =>
    simp only [WCall.mismatch, Bool.false_eq_true, if_false, Table.acts, execActs, deleteRows, Table.body]
    generalize hr : t.deleteLoop env trs _ = r
    have hr' : t.deleteLoop env trs (t.start f) = r := hr
    rw [hr']
    obtain ⟨s', y⟩ := r
    cases y <;> rfl
  | unsafeInsert trs =>
    simp only [WCall.mismatch, Bool.false_eq_true, if_false]
    exact exec_chunks (fun c f l => exec_unsafeInsertRows t env db c f l) _ f t.loc0
  | unsafeUpdate trs olds =>
    simp only [WCall.mismatch, Table.acts]
    by_cases hlen : trs.length = olds.length
    · simp only [hlen, ne_eq, not_true_eq_false, decide_false, Bool.false_eq_true, if_false, execActs, unsafeUpdateRows, Table.body]
      generalize hr : t.unsafeUpdateLoop env _ _ = r
      have hr' : t.unsafeUpdateLoop env (trs.zip olds) (t.start f) = r := hr
      rw [hr']
      obtain ⟨s', y⟩ := r
      cases y <;> rfl
    · simp only [hlen, ne_eq, not_false_eq_true, decide_true, if_true, execActs]
      rfl

/-- a call run alone, in terms of its actions -/
theorem run_exec (t : Table T F) (env : Env T) (db : KV) (f : F) (c : WCall T) :
    t.run env db f none c = finish env db none (asW (execActs (t.acts env c) db f t.loc0)) := by
  rw [Table.run_eq, exec_body]
  split
  · rfl
  · rfl

/-! ### Locality -/

/-- the filter does not deny the key -/
def Cov (t : Table T F) (f : F) (k : Bytes) : Prop := ∀ fl, t.filter = some fl → fl.may f k = true

theorem Cov.mono {t : Table T F} {f f' : F} {k : Bytes} (h : Cov t f k) (hl : FiltLe t f f') : Cov t f' k :=
  fun fl hfl => hl fl hfl k (h fl hfl)

/-- two pairs of database and filter are the same for a call with these keys -/
def SameFor (t : Table T F) (keys : List Bytes) (db1 : KV) (f1 : F) (db2 : KV) (f2 : F) : Prop :=
  ∀ k ∈ keys, db1.get k = db2.get k ∧ ((db1.get k).isSome → Cov t f1 k ∧ Cov t f2 k)

/-- two sets of local variables are the same up to entries the call does not ask for -/
structure SameLoc (t : Table T F) (keys : List Bytes) (f1 f2 : F) (l1 l2 : Loc T) : Prop where
  ops : l1.ops = l2.ops
  clock : l1.clock = l2.clock
  oldTr : l1.oldTr = l2.oldTr
  prev : l1.prev = l2.prev
  i : l1.i = l2.i
  items : l1.items = l2.items
  seek : ∀ e ∈ l1.items, seekExact l1.entries e.1 = seekExact l2.entries e.1 ∧
    ((seekExact l1.entries e.1).isSome → Cov t f1 e.1 ∧ Cov t f2 e.1)

theorem existIter_same {t : Table T F} {f1 f2 : F} {e1 e2 : List (Bytes × Bytes)} {k : Bytes}
    (h : seekExact e1 k = seekExact e2 k) (hc : (seekExact e1 k).isSome → Cov t f1 k ∧ Cov t f2 k) :
    t.existIter f1 e1 k = t.existIter f2 e2 k := by
  cases hs : seekExact e1 k with
  | none => rw [existIter_none_of_seek hs, existIter_none_of_seek (h ▸ hs)]
  | some v =>
    obtain ⟨c1, c2⟩ := hc (by rw [hs]; rfl)
    unfold Table.existIter
    cases hf : t.filter with
    | none => exact h
    | some fl => simp only [c1 fl hf, c2 fl hf, Bool.not_true, Bool.false_eq_true, if_false, h]

/-- every write to a row key is allowed by `Q` -/
def KeyedOps (t : Table T F) (Q : Bytes → WOp → Prop) (ops : List WOp) : Prop :=
  ∀ o ∈ ops, ∀ pk, o.touches (dataKey t.id pk) → Q (dataKey t.id pk) o

/-- `Q` allows to set the keys, and to delete them if `dels` -/
structure Allows (Q : Bytes → WOp → Prop) (keys : List Bytes) (dels : Bool) : Prop where
  set : ∀ k ∈ keys, ∀ b, Q k (.set k b)
  del : dels = true → ∀ k ∈ keys, Q k (.del k)

theorem KeyedOps.append {t : Table T F} {Q : Bytes → WOp → Prop} {a b : List WOp} (ha : KeyedOps t Q a) (hb : KeyedOps t Q b) :
    KeyedOps t Q (a ++ b) := by
  intro o ho
  rcases List.mem_append.1 ho with h | h
  · exact ha o h
  · exact hb o h

theorem keyedOps_nil (t : Table T F) (Q : Bytes → WOp → Prop) : KeyedOps t Q [] := by intro o ho; simp at ho

theorem keyedOps_index {t : Table T F} (wf : t.WF) {Q : Bytes → WOp → Prop} {g : Index T → List WOp} (hg : OpsIn t g)
    {ord : List (Index T)} (hp : ord.Perm t.indexes) : KeyedOps t Q (ord.flatMap g) := by
  intro o ho pk hk
  rw [List.mem_flatMap] at ho
  obtain ⟨idx, hi, ho⟩ := ho
  obtain ⟨k, hs, hu⟩ := hg idx _ ho
  have := hu (dataKey t.id pk) hk
  rw [← this] at hs
  exact absurd (C09_disjoint hs (inSpace_dataKey t.id pk)).2 (wf.nz idx (hp.mem_iff.1 hi))

theorem keyedOps_set {t : Table T F} {Q : Bytes → WOp → Prop} {k b : Bytes} (hk : Q k (.set k b)) {l : List WOp}
    (h : KeyedOps t Q l) : KeyedOps t Q (.set k b :: l) := by
  intro o ho pk ht
  rcases List.mem_cons.1 ho with rfl | ho
  · simp only [WOp.touches] at ht; subst ht; exact hk
  · exact h o ho pk ht

theorem keyedOps_del {t : Table T F} {Q : Bytes → WOp → Prop} {k : Bytes} (hk : Q k (.del k)) {l : List WOp}
    (h : KeyedOps t Q l) : KeyedOps t Q (.del k :: l) := by
  intro o ho pk ht
  rcases List.mem_cons.1 ho with rfl | ho
  · simp only [WOp.touches] at ht; subst ht; exact hk
  · exact h o ho pk ht

/-- what is needed of an action of a call with these keys -/
structure GoodAct (t : Table T F) (keys : List Bytes) (dels : Bool) (a : Act T F) : Prop where
  same : ∀ db1 f1 l1 db2 f2 l2, SameFor t keys db1 f1 db2 f2 → SameLoc t keys f1 f2 l1 l2 →
    (a db1 f1 l1).2 = (a db2 f2 l2).2 ∧ SameLoc t keys (a db1 f1 l1).1.2 (a db2 f2 l2).1.2 (a db1 f1 l1).1.1 (a db2 f2 l2).1.1
  filt : ∀ db f l, FiltLe t f (a db f l).1.2
  keyed : ∀ Q, Allows Q keys dels → ∀ db f l, (∀ e ∈ l.items, e.1 ∈ keys) → KeyedOps t Q l.ops →
    KeyedOps t Q (a db f l).1.1.ops ∧ (∀ e ∈ (a db f l).1.1.items, e.1 ∈ keys)

theorem SameLoc.elim {t : Table T F} {keys : List Bytes} {f1 f2 : F} {l1 l2 : Loc T} (h : SameLoc t keys f1 f2 l1 l2) :
    ∃ e2, l2 = { l1 with entries := e2 } ∧ ∀ e ∈ l1.items, seekExact l1.entries e.1 = seekExact e2 e.1 ∧
      ((seekExact l1.entries e.1).isSome → Cov t f1 e.1 ∧ Cov t f2 e.1) := by
  obtain ⟨a, b, c, d, e, f, g⟩ := h
  refine ⟨l2.entries, ?_, g⟩
  cases l2
  simp only at a b c d e f
  subst a b c d e f
  rfl

theorem SameLoc.intro {t : Table T F} {keys : List Bytes} {f1 f2 : F} {l1 : Loc T} {e2 : List (Bytes × Bytes)}
    (h : ∀ e ∈ l1.items, seekExact l1.entries e.1 = seekExact e2 e.1 ∧
      ((seekExact l1.entries e.1).isSome → Cov t f1 e.1 ∧ Cov t f2 e.1)) :
    SameLoc t keys f1 f2 l1 { l1 with entries := e2 } := ⟨rfl, rfl, rfl, rfl, rfl, rfl, h⟩

theorem goodAct_open {t : Table T F} {env : Env T} (ok : env.OK t) {keys : List Bytes} {dels : Bool} {trs : List T}
    (hk : ∀ x ∈ trs, t.key x ∈ keys) : GoodAct t keys dels (openSlice t env trs) := by
  have hmem : ∀ e ∈ sortKeys env (trs.map t.key), ∃ x ∈ trs, e.1 = t.key x := by
    intro e he
    have hd := describes_sort t env ok trs
    have : e.1 ∈ (sortKeys env (trs.map t.key)).map Prod.fst := List.mem_map.2 ⟨e, he, rfl⟩
    rw [hd.1.keys] at this
    obtain ⟨x, hx, e'⟩ := List.mem_map.1 this
    exact ⟨x, hd.2.mem_iff.1 hx, e'.symm⟩
  have hseek : ∀ db : KV, ∀ e ∈ sortKeys env (trs.map t.key),
      seekExact (db.scan (((sortKeys env (trs.map t.key)).map Prod.fst).headD []) t.dataKeySpaceEnd) e.1 = db.get e.1 := by
    intro db e he
    obtain ⟨x, _, hx⟩ := hmem e he
    apply seekExact_scan
    · exact sorted_headD (sortKeys_sorted t env ok _) _ (List.mem_map.2 ⟨e, he, rfl⟩)
    · rw [hx]; exact dataKey_lt_end t _
  refine ⟨?_, fun _ _ _ => filtLe_refl t _, ?_⟩
  · intro db1 f1 l1 db2 f2 l2 hs hl
    refine ⟨rfl, hl.ops, hl.clock, hl.oldTr, rfl, rfl, rfl, ?_⟩
    intro e he
    simp only [openSlice] at he ⊢
    rw [hseek db1 e he, hseek db2 e he]
    obtain ⟨x, hx, hx'⟩ := hmem e he
    rw [hx']
    exact hs _ (hk x hx)
  · intro Q hQ db f l _ ho
    refine ⟨ho, ?_⟩
    intro e he
    obtain ⟨x, hx, hx'⟩ := hmem e he
    rw [hx']; exact hk x hx

theorem insertLoop_filt {t : Table T F} (fs : t.FilterSound) {env : Env T} {entries : List (Bytes × Bytes)} {trs : List T}
    (items : List (Bytes × Nat)) : ∀ (prev : Option Bytes) (s : WSt T F),
    FiltLe t s.filt (t.insertLoop env entries trs prev items s).1.filt := by
  induction items with
  | nil => intro prev s; exact filtLe_refl _ _
  | cons e items ih =>
    intro prev s
    obtain ⟨k, j⟩ := e
    rw [Table.insertLoop]
    split
    · exact filtLe_refl _ _
    split
    · exact filtLe_refl _ _
    split
    · exact filtLe_refl _ _
    split
    · exact filtLe_refl _ _
    · refine FiltLe.trans ?_ (ih _ _)
      exact filtLe_add fs _ _

theorem insertLoop_keyed {t : Table T F} (wf : t.WF) {env : Env T} (ok : env.OK t) {keys : List Bytes} {Q : Bytes → WOp → Prop} {dels : Bool} (hQ : Allows Q keys dels)
    {entries : List (Bytes × Bytes)} {trs : List T} (items : List (Bytes × Nat)) : ∀ (prev : Option Bytes) (s : WSt T F),
    (∀ e ∈ items, e.1 ∈ keys) → KeyedOps t Q s.ops → KeyedOps t Q (t.insertLoop env entries trs prev items s).1.ops := by
  induction items with
  | nil => intro prev s _ h; exact h
  | cons e items ih =>
    intro prev s h ho
    obtain ⟨k, j⟩ := e
    rw [Table.insertLoop]
    split
    · exact ho
    split
    · exact ho
    split
    · exact ho
    split
    · exact ho
    · exact ih _ _ (fun e he => h e (by simp [he]))
        (ho.append (keyedOps_set (hQ.set _ (h (k, j) (by simp)) _) (keyedOps_index wf (onInsert_in t _) (ok.order _))))

theorem upsertLoop_filt {t : Table T F} (fs : t.FilterSound) {env : Env T} {oc : Table.OnConflict T}
    {entries : List (Bytes × Bytes)} {trs : List T} (fuel : Nat) : ∀ (i : Nat) (items : List (Bytes × Nat)) (s : WSt T F),
    FiltLe t s.filt (t.upsertLoop env oc entries trs fuel i items s).1.filt := by
  induction fuel with
  | zero => intro i items s; exact filtLe_refl _ _
  | succ fuel ih =>
    intro i items s
    cases items with
    | nil => exact filtLe_refl _ _
    | cons e items =>
      obtain ⟨k, j⟩ := e
      rw [Table.upsertLoop]
      split
      · exact filtLe_refl _ _
      split
      · exact filtLe_refl _ _
      simp only
      split
      · exact filtLe_refl _ _
      rename_i found hfound
      split
      · exact filtLe_refl _ _
      split
      · exact filtLe_refl _ _
      · refine FiltLe.trans ?_ (ih _ _ _)
        cases found with
        | none => exact filtLe_add fs _ _
        | some o => exact filtLe_refl _ _

theorem upsertLoop_keyed {t : Table T F} (wf : t.WF) {env : Env T} (ok : env.OK t) {oc : Table.OnConflict T} {keys : List Bytes} {Q : Bytes → WOp → Prop} {dels : Bool} (hQ : Allows Q keys dels)
    {entries : List (Bytes × Bytes)} {trs : List T} (fuel : Nat) : ∀ (i : Nat) (items : List (Bytes × Nat)) (s : WSt T F),
    (∀ e ∈ items, e.1 ∈ keys) → KeyedOps t Q s.ops →
    KeyedOps t Q (t.upsertLoop env oc entries trs fuel i items s).1.ops := by
  induction fuel with
  | zero => intro i items s _ h; exact h
  | succ fuel ih =>
    intro i items s h ho
    cases items with
    | nil => exact ho
    | cons e items =>
      obtain ⟨k, j⟩ := e
      rw [Table.upsertLoop]
      split
      · exact ho
      split
      · exact ho
      simp only
      split
      · exact ho
      rename_i found hfound
      split
      · exact ho
      rename_i hd
      split
      · exact ho
      · refine ih _ _ _ (fun e he => h e (List.mem_cons.2 (Or.inr (upsertDup_suffix _ _ _ _ _ hd e he)))) ?_
        refine ho.append (keyedOps_set (hQ.set _ (h (k, j) (by simp)) _) ?_)
        cases found with
        | none => exact keyedOps_index wf (onInsert_in t _) (ok.order _)
        | some o => exact keyedOps_index wf (onUpdate_in t _ _) (ok.order _)

theorem goodAct_insert {t : Table T F} (wf : t.WF) (fs : t.FilterSound) {env : Env T} (ok : env.OK t) {keys : List Bytes} {dels : Bool}
    {trs : List T} : GoodAct t keys dels (insertRow t env trs) := by
  refine ⟨?_, ?_, ?_⟩
  · intro db1 f1 l1 db2 f2 l2 hs hl
    obtain ⟨e2, rfl, h⟩ := hl.elim
    cases hi : l1.items with
    | nil => simp only [insertRow, hi]; exact ⟨by trivial, rfl, rfl, rfl, rfl, rfl, hi, hl.seek⟩
    | cons e rest =>
      obtain ⟨k, j⟩ := e
      rw [hi] at h
      have hex := existIter_same (t := t) (h (k, j) (by simp)).1 (h (k, j) (by simp)).2
      simp only at hex
      have hrest : ∀ (g1 g2 : F), FiltLe t f1 g1 → FiltLe t f2 g2 → ∀ e ∈ rest, seekExact l1.entries e.1 = seekExact e2 e.1 ∧
          ((seekExact l1.entries e.1).isSome → Cov t g1 e.1 ∧ Cov t g2 e.1) := by
        intro g1 g2 h1 h2 e he
        obtain ⟨a, b⟩ := h e (by simp [he])
        exact ⟨a, fun x => ⟨(b x).1.mono h1, (b x).2.mono h2⟩⟩
      simp only [insertRow, hi, Table.insertLoop, Loc.toW, ← hex]
      by_cases h1 : env.done l1.clock = true
      · simp only [h1, if_true]
        exact ⟨by trivial, rfl, rfl, rfl, rfl, rfl, rfl, hrest _ _ (filtLe_refl _ _) (filtLe_refl _ _)⟩
      simp only [h1, Bool.false_eq_true, if_false]
      by_cases h2 : l1.prev = some k ∨ (t.existIter f1 l1.entries k).isSome = true
      · simp only [h2, if_true]
        exact ⟨by trivial, rfl, rfl, rfl, rfl, rfl, rfl, hrest _ _ (filtLe_refl _ _) (filtLe_refl _ _)⟩
      simp only [h2, if_false]
      cases trs[j]? with
      | none => exact ⟨rfl, rfl, rfl, rfl, rfl, rfl, rfl, hrest _ _ (filtLe_refl _ _) (filtLe_refl _ _)⟩
      | some x =>
        simp only
        cases t.ser x with
        | none => exact ⟨rfl, rfl, rfl, rfl, rfl, rfl, rfl, hrest _ _ (filtLe_refl _ _) (filtLe_refl _ _)⟩
        | some b => exact ⟨rfl, rfl, rfl, rfl, rfl, rfl, rfl, hrest _ _ (filtLe_add fs _ _) (filtLe_add fs _ _)⟩
  · intro db f l
    simp only [insertRow]
    split
    · exact filtLe_refl _ _
    · exact insertLoop_filt fs _ _ (l.toW f)
  · intro Q hQ db f l hit ho
    simp only [insertRow]
    split
    · rename_i hi; exact ⟨ho, hit⟩
    · rename_i e rest hi
      rw [hi] at hit
      exact ⟨insertLoop_keyed wf ok hQ _ _ _ (fun e' he => hit e' (by simp at he; simp [he])) ho, fun e he => hit e (by simp [he])⟩

/-- a filter is only carried along by the loop of `Update` -/
theorem updateLoop_local {t : Table T F} {env : Env T} {e1 e2 : List (Bytes × Bytes)} {trs : List T} (items : List (Bytes × Nat)) :
    ∀ (s : WSt T F) (f2 : F), (∀ e ∈ items, seekExact e1 e.1 = seekExact e2 e.1) →
    t.updateLoop env e2 trs items { s with filt := f2 } =
      ({ (t.updateLoop env e1 trs items s).1 with filt := f2 }, (t.updateLoop env e1 trs items s).2) ∧
    (t.updateLoop env e1 trs items s).1.filt = s.filt := by
  induction items with
  | nil => intro s f2 _; exact ⟨rfl, rfl⟩
  | cons e items ih =>
    intro s f2 h
    obtain ⟨k, j⟩ := e
    have hk := h (k, j) (by simp)
    have ih' := fun s => ih s f2 (fun e he => h e (by simp [he]))
    simp only at hk
    simp only [Table.updateLoop, ← hk]
    split
    · exact ⟨rfl, rfl⟩
    split
    · exact ih' { s with clock := s.clock + 1 }
    split
    · exact ⟨rfl, rfl⟩
    split
    · exact ⟨rfl, rfl⟩
    split
    · exact ⟨rfl, rfl⟩
    split
    · exact ⟨rfl, rfl⟩
    · rename_i v old _ _ tr _ _ data _
      exact ih' { ops := s.ops ++ WOp.set k data :: List.flatMap (fun idx => onUpdate t idx old tr) (env.order s.clock)
                  filt := s.filt, clock := s.clock + 1, oldTr := old }

theorem updateLoop_keyed {t : Table T F} (wf : t.WF) {env : Env T} (ok : env.OK t) {keys : List Bytes} {Q : Bytes → WOp → Prop} {dels : Bool} (hQ : Allows Q keys dels) {entries : List (Bytes × Bytes)}
    {trs : List T} (items : List (Bytes × Nat)) : ∀ (s : WSt T F), (∀ e ∈ items, e.1 ∈ keys) → KeyedOps t Q s.ops →
    KeyedOps t Q (t.updateLoop env entries trs items s).1.ops := by
  induction items with
  | nil => intro s _ h; exact h
  | cons e items ih =>
    intro s h ho
    obtain ⟨k, j⟩ := e
    have ih' := fun s => ih s (fun e he => h e (by simp [he]))
    rw [Table.updateLoop]
    split
    · exact ho
    split
    · exact ih' _ ho
    split
    · exact ho
    split
    · exact ho
    split
    · exact ho
    split
    · exact ho
    · exact ih' _ (ho.append (keyedOps_set (hQ.set _ (h (k, j) (by simp)) _) (keyedOps_index wf (onUpdate_in t _ _) (ok.order _))))

theorem goodAct_update {t : Table T F} (wf : t.WF) {env : Env T} (ok : env.OK t) {keys : List Bytes} {dels : Bool} {trs : List T} :
    GoodAct t keys dels (updateRows t env trs) := by
  refine ⟨?_, ?_, ?_⟩
  · intro db1 f1 l1 db2 f2 l2 hs hl
    obtain ⟨e2, rfl, h⟩ := hl.elim
    have := updateLoop_local (t := t) (env := env) (trs := trs) l1.items (l1.toW f1) f2 (fun e he => (h e he).1)
    have h2 : t.updateLoop env e2 trs l1.items (({ l1 with entries := e2 } : Loc T).toW f2) = _ := this.1
    simp only [updateRows]
    rw [h2]
    exact ⟨rfl, rfl, rfl, rfl, rfl, rfl, rfl, by intro e he; simp at he⟩
  · intro db f l
    simp only [updateRows]
    rw [(updateLoop_local (t := t) (env := env) (trs := trs) l.items (l.toW f) f (fun e he => rfl)).2]
    exact filtLe_refl _ _
  · intro Q hQ db f l hit ho
    exact ⟨updateLoop_keyed wf ok hQ _ _ hit ho, by intro e he; simp [updateRows] at he⟩

theorem goodAct_upsert {t : Table T F} (wf : t.WF) (fs : t.FilterSound) {env : Env T} (ok : env.OK t) {oc : Table.OnConflict T}
    {keys : List Bytes} {dels : Bool} {trs : List T} : GoodAct t keys dels (upsertRow t env oc trs) := by
  refine ⟨?_, ?_, ?_⟩
  · intro db1 f1 l1 db2 f2 l2 hs hl
    obtain ⟨e2, rfl, h⟩ := hl.elim
    cases hi : l1.items with
    | nil => simp only [upsertRow, hi]; exact ⟨by trivial, rfl, rfl, rfl, rfl, rfl, hi, hl.seek⟩
    | cons e rest =>
      obtain ⟨k, j⟩ := e
      rw [hi] at h
      have hex := existIter_same (t := t) (h (k, j) (by simp)).1 (h (k, j) (by simp)).2
      simp only at hex
      have hrest : ∀ (g1 g2 : F), FiltLe t f1 g1 → FiltLe t f2 g2 → ∀ e ∈ rest.dropWhile (fun x => x.1 == k),
          seekExact l1.entries e.1 = seekExact e2 e.1 ∧ ((seekExact l1.entries e.1).isSome → Cov t g1 e.1 ∧ Cov t g2 e.1) := by
        intro g1 g2 h1 h2 e he
        obtain ⟨a, b⟩ := h e (List.mem_cons.2 (Or.inr ((List.dropWhile_suffix _).subset he)))
        exact ⟨a, fun x => ⟨(b x).1.mono h1, (b x).2.mono h2⟩⟩
      have h0 := hrest _ _ (filtLe_refl _ _) (filtLe_refl _ _)
      simp only [upsertRow, hi, Table.upsertLoop, Loc.toW, ← hex]
      cases trs[j]? with
      | none => exact ⟨rfl, rfl, rfl, rfl, rfl, rfl, rfl, h0⟩
      | some x =>
        simp only
        by_cases h1 : env.done l1.clock = true
        · simp only [h1, if_true]
          exact ⟨by trivial, rfl, rfl, rfl, rfl, rfl, rfl, h0⟩
        simp only [h1, Bool.false_eq_true, if_false]
        cases hfo : t.existIter f1 l1.entries k with
        | none =>
          simp only
          cases Table.upsertDup oc trs k rest l1.i x l1.oldTr with
          | none => exact ⟨rfl, rfl, rfl, rfl, rfl, rfl, rfl, h0⟩
          | some r =>
            simp only
            cases t.ser r.2.2.1 with
            | none => exact ⟨rfl, rfl, rfl, rfl, rfl, rfl, rfl, h0⟩
            | some b => exact ⟨rfl, rfl, rfl, rfl, rfl, rfl, rfl, hrest _ _ (filtLe_add fs _ _) (filtLe_add fs _ _)⟩
        | some v =>
          simp only
          cases t.deser l1.oldTr v with
          | none => exact ⟨rfl, rfl, rfl, rfl, rfl, rfl, rfl, h0⟩
          | some old =>
            simp only [Option.map_some]
            cases Table.upsertDup oc trs k rest l1.i (oc old x).1 (oc old x).2 with
            | none => exact ⟨rfl, rfl, rfl, rfl, rfl, rfl, rfl, h0⟩
            | some r =>
              simp only
              cases t.ser r.2.2.1 with
              | none => exact ⟨rfl, rfl, rfl, rfl, rfl, rfl, rfl, h0⟩
              | some b => exact ⟨rfl, rfl, rfl, rfl, rfl, rfl, rfl, h0⟩
  · intro db f l
    simp only [upsertRow]
    split
    · exact filtLe_refl _ _
    · exact upsertLoop_filt fs _ _ _ (l.toW f)
  · intro Q hQ db f l hit ho
    simp only [upsertRow]
    split
    · rename_i hi; exact ⟨ho, hit⟩
    · rename_i e rest hi
      rw [hi] at hit
      exact ⟨upsertLoop_keyed wf ok hQ _ _ _ _ hit ho,
        fun e he => hit e (List.mem_cons.2 (Or.inr ((List.dropWhile_suffix _).subset he)))⟩

theorem deleteLoop_local {t : Table T F} {env : Env T} (trs : List T) : ∀ (s : WSt T F) (f2 : F),
    t.deleteLoop env trs { s with filt := f2 } =
      ({ (t.deleteLoop env trs s).1 with filt := f2 }, (t.deleteLoop env trs s).2) ∧ (t.deleteLoop env trs s).1.filt = s.filt := by
  induction trs with
  | nil => intro s f2; exact ⟨rfl, rfl⟩
  | cons x xs ih =>
    intro s f2
    simp only [Table.deleteLoop]
    split
    · exact ⟨rfl, rfl⟩
    · exact ih { s with ops := s.ops ++ .del (t.key x) :: (env.order s.clock).flatMap (fun idx => onDelete t idx x), clock := s.clock + 1 } f2

theorem deleteLoop_keyed {t : Table T F} (wf : t.WF) {env : Env T} (ok : env.OK t) {keys : List Bytes} {Q : Bytes → WOp → Prop} (hQ : Allows Q keys true) (trs : List T) :
    ∀ (s : WSt T F), (∀ x ∈ trs, t.key x ∈ keys) → KeyedOps t Q s.ops → KeyedOps t Q (t.deleteLoop env trs s).1.ops := by
  induction trs with
  | nil => intro s _ h; exact h
  | cons x xs ih =>
    intro s h ho
    rw [Table.deleteLoop]
    split
    · exact ho
    · exact ih _ (fun y hy => h y (by simp [hy]))
        (ho.append (keyedOps_del (hQ.del rfl _ (h x (by simp))) (keyedOps_index wf (onDelete_in t _) (ok.order _))))

theorem goodAct_delete {t : Table T F} (wf : t.WF) {env : Env T} (ok : env.OK t) {keys : List Bytes} {trs : List T}
    (hk : ∀ x ∈ trs, t.key x ∈ keys) : GoodAct t keys true (deleteRows t env trs) := by
  refine ⟨?_, ?_, ?_⟩
  · intro db1 f1 l1 db2 f2 l2 hs hl
    obtain ⟨e2, rfl, h⟩ := hl.elim
    have := deleteLoop_local (t := t) (env := env) trs (l1.toW f1) f2
    have h2 : t.deleteLoop env trs (({ l1 with entries := e2 } : Loc T).toW f2) = _ := this.1
    simp only [deleteRows]
    rw [h2, this.2]
    exact ⟨rfl, rfl, rfl, rfl, rfl, rfl, rfl, h⟩
  · intro db f l
    simp only [deleteRows]
    rw [(deleteLoop_local (t := t) (env := env) trs (l.toW f) f).2]
    exact filtLe_refl _ _
  · intro Q hQ db f l hit ho
    exact ⟨deleteLoop_keyed wf ok hQ _ _ hk ho, hit⟩

theorem unsafeUpdateLoop_local {t : Table T F} {env : Env T} (ps : List (T × T)) : ∀ (s : WSt T F) (f2 : F),
    t.unsafeUpdateLoop env ps { s with filt := f2 } =
      ({ (t.unsafeUpdateLoop env ps s).1 with filt := f2 }, (t.unsafeUpdateLoop env ps s).2) ∧
    (t.unsafeUpdateLoop env ps s).1.filt = s.filt := by
  induction ps with
  | nil => intro s f2; exact ⟨rfl, rfl⟩
  | cons x xs ih =>
    intro s f2
    obtain ⟨x, o⟩ := x
    simp only [Table.unsafeUpdateLoop]
    split
    · exact ⟨rfl, rfl⟩
    split
    · exact ⟨rfl, rfl⟩
    · rename_i b _
      exact ih { s with ops := s.ops ++ .set (t.key x) b :: (env.order s.clock).flatMap (fun idx => onUpdate t idx o x), clock := s.clock + 1 } f2

theorem unsafeUpdateLoop_keyed {t : Table T F} (wf : t.WF) {env : Env T} (ok : env.OK t) {keys : List Bytes} {Q : Bytes → WOp → Prop} {dels : Bool} (hQ : Allows Q keys dels) (ps : List (T × T)) :
    ∀ (s : WSt T F), (∀ x ∈ ps, t.key x.1 ∈ keys) → KeyedOps t Q s.ops →
    KeyedOps t Q (t.unsafeUpdateLoop env ps s).1.ops := by
  induction ps with
  | nil => intro s _ h; exact h
  | cons x xs ih =>
    intro s h ho
    obtain ⟨x, o⟩ := x
    rw [Table.unsafeUpdateLoop]
    split
    · exact ho
    split
    · exact ho
    · exact ih _ (fun y hy => h y (by simp [hy]))
        (ho.append (keyedOps_set (hQ.set _ (h (x, o) (by simp)) _) (keyedOps_index wf (onUpdate_in t _ _) (ok.order _))))

theorem goodAct_unsafeUpdate {t : Table T F} (wf : t.WF) {env : Env T} (ok : env.OK t) {keys : List Bytes} {dels : Bool} {ps : List (T × T)}
    (hk : ∀ x ∈ ps, t.key x.1 ∈ keys) : GoodAct t keys dels (unsafeUpdateRows t env ps) := by
  refine ⟨?_, ?_, ?_⟩
  · intro db1 f1 l1 db2 f2 l2 hs hl
    obtain ⟨e2, rfl, h⟩ := hl.elim
    have := unsafeUpdateLoop_local (t := t) (env := env) ps (l1.toW f1) f2
    have h2 : t.unsafeUpdateLoop env ps (({ l1 with entries := e2 } : Loc T).toW f2) = _ := this.1
    simp only [unsafeUpdateRows]
    rw [h2, this.2]
    exact ⟨rfl, rfl, rfl, rfl, rfl, rfl, rfl, h⟩
  · intro db f l
    simp only [unsafeUpdateRows]
    rw [(unsafeUpdateLoop_local (t := t) (env := env) ps (l.toW f) f).2]
    exact filtLe_refl _ _
  · intro Q hQ db f l hit ho
    exact ⟨unsafeUpdateLoop_keyed wf ok hQ _ _ hk ho, hit⟩

theorem unsafeInsertLoop_filt {t : Table T F} (fs : t.FilterSound) {env : Env T} (trs : List T) : ∀ (s : WSt T F),
    FiltLe t s.filt (t.unsafeInsertLoop env trs s).1.filt := by
  induction trs with
  | nil => intro s; exact filtLe_refl _ _
  | cons x xs ih =>
    intro s
    rw [Table.unsafeInsertLoop]
    split
    · exact filtLe_refl _ _
    split
    · exact filtLe_refl _ _
    · refine FiltLe.trans ?_ (ih _)
      exact filtLe_add fs _ _

theorem unsafeInsertLoop_keyed {t : Table T F} (wf : t.WF) {env : Env T} (ok : env.OK t) {keys : List Bytes} {Q : Bytes → WOp → Prop} {dels : Bool} (hQ : Allows Q keys dels) (trs : List T) :
    ∀ (s : WSt T F), (∀ x ∈ trs, t.key x ∈ keys) → KeyedOps t Q s.ops → KeyedOps t Q (t.unsafeInsertLoop env trs s).1.ops := by
  induction trs with
  | nil => intro s _ h; exact h
  | cons x xs ih =>
    intro s h ho
    rw [Table.unsafeInsertLoop]
    split
    · exact ho
    split
    · exact ho
    · exact ih _ (fun y hy => h y (by simp [hy]))
        (ho.append (keyedOps_set (hQ.set _ (h x (by simp)) _) (keyedOps_index wf (onInsert_in t _) (ok.order _))))

theorem goodAct_unsafeInsert {t : Table T F} (wf : t.WF) (fs : t.FilterSound) {env : Env T} (ok : env.OK t) {keys : List Bytes} {dels : Bool}
    {x : T} (hk : t.key x ∈ keys) : GoodAct t keys dels (unsafeInsertRow t env x) := by
  refine ⟨?_, ?_, ?_⟩
  · intro db1 f1 l1 db2 f2 l2 hs hl
    obtain ⟨e2, rfl, h⟩ := hl.elim
    simp only [unsafeInsertRow, Table.unsafeInsertLoop, Loc.toW]
    by_cases h1 : env.done l1.clock = true
    · simp only [h1, if_true]
      exact ⟨by trivial, rfl, rfl, rfl, rfl, rfl, rfl, h⟩
    simp only [h1, Bool.false_eq_true, if_false]
    cases t.ser x with
    | none => exact ⟨rfl, rfl, rfl, rfl, rfl, rfl, rfl, h⟩
    | some b =>
      refine ⟨rfl, rfl, rfl, rfl, rfl, rfl, rfl, ?_⟩
      intro e he
      obtain ⟨a, b⟩ := h e he
      exact ⟨a, fun x => ⟨(b x).1.mono (filtLe_add fs _ _), (b x).2.mono (filtLe_add fs _ _)⟩⟩
  · intro db f l
    exact unsafeInsertLoop_filt fs _ (l.toW f)
  · intro Q hQ db f l hit ho
    exact ⟨unsafeInsertLoop_keyed wf ok hQ _ (l.toW f) (by simpa using hk) ho, hit⟩

/-- the keys of the rows given to a call (table.go:1224-1234) -/
def WCall.keys (t : Table T F) : WCall T → List Bytes
  | .insert trs => trs.map t.key
  | .update trs => trs.map t.key
  | .upsert _ trs => trs.map t.key
  | .delete trs => trs.map t.key
  | .unsafeInsert trs => trs.map t.key
  | .unsafeUpdate trs _ => trs.map t.key

/-- only Delete deletes rows (table.go:577-635) -/
def WCall.dels : WCall T → Bool
  | .delete _ => true
  | _ => false

theorem batched_mem {trs : List T} {c : List T} (hc : c ∈ batched trs persistentBatchSize) {x : T} (hx : x ∈ c) : x ∈ trs := by
  rw [← batched_flatten trs (by decide : 0 < persistentBatchSize)]
  exact List.mem_flatten.2 ⟨c, hc, hx⟩

theorem acts_good_of {t : Table T F} (wf : t.WF) (fs : t.FilterSound) {env : Env T} (ok : env.OK t) (c : WCall T) {keys : List Bytes}
    (hkeys : ∀ k ∈ c.keys t, k ∈ keys) {dels : Bool} (hd : c.dels = true → dels = true) :
    ∀ a ∈ t.acts env c, GoodAct t keys dels a := by
  have hin' : ∀ {trs : List T} {x : T}, x ∈ trs → t.key x ∈ trs.map t.key := fun h => List.mem_map.2 ⟨_, h, rfl⟩
  intro a ha
  cases c with
  | insert trs =>
    obtain ⟨c, hc, ha⟩ := List.mem_flatMap.1 ha
    rcases List.mem_cons.1 ha with rfl | ha
    · exact goodAct_open ok (fun x hx => hkeys _ (hin' (batched_mem hc hx)))
    · obtain ⟨_, _, rfl⟩ := List.mem_map.1 ha
      exact goodAct_insert wf fs ok
  | update trs =>
    obtain ⟨c, hc, ha⟩ := List.mem_flatMap.1 ha
    rcases List.mem_cons.1 ha with rfl | ha
    · exact goodAct_open ok (fun x hx => hkeys _ (hin' (batched_mem hc hx)))
    · rw [List.mem_singleton] at ha; subst ha
      exact goodAct_update wf ok
  | upsert oc trs =>
    obtain ⟨c, hc, ha⟩ := List.mem_flatMap.1 ha
    rcases List.mem_cons.1 ha with rfl | ha
    · exact goodAct_open ok (fun x hx => hkeys _ (hin' (batched_mem hc hx)))
    · obtain ⟨_, _, rfl⟩ := List.mem_map.1 ha
      exact goodAct_upsert wf fs ok
  | delete trs =>
    simp only [Table.acts, List.mem_singleton] at ha; subst ha
    have hd' := hd rfl
    subst hd'
    exact goodAct_delete wf ok (fun x hx => hkeys _ (hin' hx))
  | unsafeInsert trs =>
    obtain ⟨c, hc, ha⟩ := List.mem_flatMap.1 ha
    obtain ⟨x, hx, rfl⟩ := List.mem_map.1 ha
    exact goodAct_unsafeInsert wf fs ok (hkeys _ (hin' (batched_mem hc hx)))
  | unsafeUpdate trs olds =>
    simp only [Table.acts] at ha
    split at ha
    · rw [List.mem_singleton] at ha; subst ha
      exact ⟨fun _ _ _ _ _ _ _ h => ⟨rfl, h⟩, fun _ _ _ => filtLe_refl _ _, fun _ _ _ _ _ h1 h2 => ⟨h2, h1⟩⟩
    · rw [List.mem_singleton] at ha; subst ha
      exact goodAct_unsafeUpdate wf ok (fun x hx => hkeys _ (hin' (List.of_mem_zip hx).1))

theorem acts_good {t : Table T F} (wf : t.WF) (fs : t.FilterSound) {env : Env T} (ok : env.OK t) (c : WCall T) :
    ∀ a ∈ t.acts env c, GoodAct t (c.keys t) c.dels a := acts_good_of wf fs ok c (fun _ h => h) (fun h => h)

theorem SameFor.mono {t : Table T F} {keys : List Bytes} {db1 db2 : KV} {f1 f2 g1 g2 : F} (h : SameFor t keys db1 f1 db2 f2)
    (h1 : FiltLe t f1 g1) (h2 : FiltLe t f2 g2) : SameFor t keys db1 g1 db2 g2 := by
  intro k hk
  obtain ⟨a, b⟩ := h k hk
  exact ⟨a, fun x => ⟨(b x).1.mono h1, (b x).2.mono h2⟩⟩

theorem exec_same {t : Table T F} {keys : List Bytes} {dels : Bool} {as : List (Act T F)} (hg : ∀ a ∈ as, GoodAct t keys dels a) :
    ∀ {db1 f1 l1 db2 f2 l2}, SameFor t keys db1 f1 db2 f2 → SameLoc t keys f1 f2 l1 l2 →
    (execActs as db1 f1 l1).2 = (execActs as db2 f2 l2).2 ∧
    (execActs as db1 f1 l1).1.1.ops = (execActs as db2 f2 l2).1.1.ops := by
  induction as with
  | nil => intro db1 f1 l1 db2 f2 l2 _ hl; exact ⟨rfl, hl.ops⟩
  | cons a as ih =>
    intro db1 f1 l1 db2 f2 l2 hs hl
    have ga := hg a (by simp)
    obtain ⟨h1, h2⟩ := ga.same _ _ _ _ _ _ hs hl
    have m1 := ga.filt db1 f1 l1
    have m2 := ga.filt db2 f2 l2
    rw [execActs, execActs]
    generalize a db1 f1 l1 = r1 at h1 h2 m1
    generalize a db2 f2 l2 = r2 at h1 h2 m2
    obtain ⟨r1, x1⟩ := r1
    obtain ⟨r2, x2⟩ := r2
    simp only at h1 h2 m1 m2
    subst h1
    cases x1 with
    | none => exact ih (fun a ha => hg a (by simp [ha])) (hs.mono m1 m2) h2
    | some e => exact ⟨rfl, h2.ops⟩

theorem exec_filt {t : Table T F} {keys : List Bytes} {dels : Bool} {as : List (Act T F)} (hg : ∀ a ∈ as, GoodAct t keys dels a) (db : KV) :
    ∀ (f : F) (l : Loc T), FiltLe t f (execActs as db f l).1.2 := by
  induction as with
  | nil => intro f l; exact filtLe_refl _ _
  | cons a as ih =>
    intro f l
    have m1 := (hg a (by simp)).filt db f l
    rw [execActs]
    split
    · rename_i r h; rw [h] at m1
      exact m1.trans (ih (fun a ha => hg a (by simp [ha])) _ _)
    · rename_i r x h; rw [h] at m1; exact m1

end Bond
