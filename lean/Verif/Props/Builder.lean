import Verif.BuilderLemmas
import Verif.Props.Queries
import Verif.Props.Cond
/-
C56 queries are values, C107 the calls that build a query, C50 conditions in queries.
-/
namespace Bond
open Spec
variable {T F : Type}

/-! ## C56 Building on a query changes no other query -/

/-- C56, the part that holds: in every program that extends no list of parts twice with `Intersects`, each query variable
answers, in every database, batch and environment, as the value that the program gave it, whatever the capacities that Go
chooses for the arrays (`grow`). Such a program may derive any number of queries from one query with all other calls, and any
number with `Intersects` from a query without parts.
Missing for the full C56: programs that extend the same list of parts twice, see `C56_refuted_answers`. -/
theorem C56_programs_partial (t : Table T F) (grow : Nat → Nat → Nat) (ps : List (QStmt T)) (hn : noFork ps [] [] = true) {qs : List (Query T)}
    (hq : stmts t.query ps [] = some qs) :
    ∃ h ms, QStmt.run t.query.fields grow ps (QMem.start t.query.fields, []) = some (h, ms) ∧ ms.length = qs.length ∧
      ∀ (i : Nat) (m : QM T) (q : Query T), ms[i]? = some m → qs[i]? = some q → ∀ env srt filt db ob fuel,
        (m.load h).execute t env srt filt db ob fuel = q.execute t env srt filt db ob fuel := by
  have I : QInv (QMem.start t.query.fields) ([] : List (QVar T)) [] :=
    ⟨by simp, by simp, by simp, by simp, by simp, by simp, by simp, by simp⟩
  obtain ⟨h, es, ext, h1, h2, I'⟩ := run_inv t.query rfl grow ps _ [] [] I hn qs hq
  refine ⟨h, es.map QVar.m, h1, by rw [← h2]; simp, ?_⟩
  intro i m q hm hq env srt filt db ob fuel
  rw [← h2, List.getElem?_map] at hq
  rw [List.getElem?_map] at hm
  cases he : es[i]? with
  | none => rw [he] at hm; cases hm
  | some e =>
    rw [he] at hm hq
    cases hm; cases hq
    have hmem := List.mem_of_getElem? he
    unfold QM.load
    rw [I'.own e hmem]
    apply execute_fields
    rw [List.map_map]
    rw [← I'.val e hmem]
    apply List.map_congr_left
    intro p _
    rfl

/-- C56, seen from one variable: what a variable answers does not change while the program goes on.
Missing for the full C56: as for `C56_programs_partial`. -/
theorem C56_unchanged_partial (t : Table T F) (grow : Nat → Nat → Nat) (ps ps' : List (QStmt T)) (hn : noFork (ps ++ ps') [] [] = true)
    {qs qs' : List (Query T)} (hq : stmts t.query ps [] = some qs) (hq' : stmts t.query (ps ++ ps') [] = some qs') :
    ∃ h ms h' ms', QStmt.run t.query.fields grow ps (QMem.start t.query.fields, []) = some (h, ms) ∧
      QStmt.run t.query.fields grow (ps ++ ps') (QMem.start t.query.fields, []) = some (h', ms') ∧
      ∀ (i : Nat) (m : QM T), ms[i]? = some m → ∃ m' : QM T, ms'[i]? = some m' ∧ ∀ env srt filt db ob fuel,
        (m'.load h').execute t env srt filt db ob fuel = (m.load h).execute t env srt filt db ob fuel := by
  have hpre : ∀ (ps ps' : List (QStmt T)) os ext, noFork (ps ++ ps') os ext = true → noFork ps os ext = true := by
    intro ps ps'
    induction ps with
    | nil => intros; rfl
    | cons p ps ih =>
      intro os ext h
      cases p with
      | new => exact ih _ _ h
      | call v c => exact ih _ _ h
      | intersects v vs =>
        simp only [List.cons_append, noFork] at h ⊢
        by_cases he : vs.isEmpty = true
        · rw [if_pos he] at h ⊢; exact ih _ _ h
        · rw [if_neg he] at h ⊢
          cases ho : os[v]?.getD none with
          | none => rw [ho] at h; exact ih _ _ h
          | some o =>
            rw [ho] at h
            simp only [Bool.and_eq_true] at h ⊢
            exact ⟨h.1, ih _ _ h.2⟩
  have hone : ∀ (vars : List (Query T)) p r, stmt t.query vars p = some r → ∃ q, r = vars ++ [q] := by
    intro vars p r hr
    cases p with
    | new => exact ⟨_, (Option.some.inj hr).symm⟩
    | call v c =>
      simp only [stmt] at hr
      cases hv : vars[v]? with
      | none => rw [hv] at hr; cases hr
      | some q => rw [hv] at hr; exact ⟨_, (Option.some.inj hr).symm⟩
    | intersects v vs =>
      simp only [stmt] at hr
      cases hv : vars[v]? with
      | none => rw [hv] at hr; cases hr
      | some q =>
        rw [hv] at hr
        cases hm : vs.mapM (fun i => vars[i]?) with
        | none => rw [hm] at hr; cases hr
        | some l => rw [hm] at hr; exact ⟨_, (Option.some.inj hr).symm⟩
  have hext : ∀ (ps : List (QStmt T)) vars r, stmts t.query ps vars = some r → ∃ w, r = vars ++ w := by
    intro ps
    induction ps with
    | nil => intro vars r h; exact ⟨[], by rw [List.append_nil]; exact (Option.some.inj h).symm⟩
    | cons p ps ih =>
      intro vars r h
      simp only [stmts] at h
      cases hs : stmt t.query vars p with
      | none => rw [hs] at h; cases h
      | some r1 =>
        rw [hs] at h
        obtain ⟨q, rfl⟩ := hone _ _ _ hs
        obtain ⟨w, rfl⟩ := ih _ _ h
        exact ⟨[q] ++ w, by simp⟩
  have happ : ∀ (ps ps' : List (QStmt T)) vars, stmts t.query (ps ++ ps') vars = (stmts t.query ps vars).bind (stmts t.query ps') := by
    intro ps ps'
    induction ps with
    | nil => intro vars; rfl
    | cons p ps ih =>
      intro vars
      simp only [List.cons_append, stmts]
      cases stmt t.query vars p with
      | none => rfl
      | some r => exact ih r
  obtain ⟨h, ms, h1, h2, h3⟩ := C56_programs_partial t grow ps (hpre _ _ _ _ hn) hq
  obtain ⟨h', ms', k1, k2, k3⟩ := C56_programs_partial t grow (ps ++ ps') hn hq'
  refine ⟨h, ms, h', ms', h1, k1, ?_⟩
  intro i m hm
  have hi : i < ms.length := by
    rcases Nat.lt_or_ge i ms.length with hi | hi
    · exact hi
    · rw [List.getElem?_eq_none hi] at hm; cases hm
  rw [happ, hq] at hq'
  obtain ⟨w, rfl⟩ := hext ps' qs qs' hq'
  have hi' : i < ms'.length := by rw [k2, List.length_append]; omega
  refine ⟨ms'[i], List.getElem?_eq_getElem hi', ?_⟩
  intro env srt filt db ob fuel
  have hqi : qs[i]? = some (qs[i]'(by omega)) := List.getElem?_eq_getElem (by omega)
  rw [h3 i m _ hm hqi, k3 i _ _ (List.getElem?_eq_getElem hi') (by rw [List.getElem?_append_left (by omega)]; exact hqi)]

/-- `C56_programs_partial` and `C56_unchanged_partial` at a program that builds two queries from one, and goes on to change the first -/
example := C56_programs_partial exTable (fun _ n => n) [.new, .call 0 (.with exIndex (.range (0, 0) (9, 9))), .call 1 (.limit 1), .intersects 1 [2]]
  (by decide) rfl

example := C56_unchanged_partial exTable (fun _ n => n) [.new, .call 0 (.with exIndex (.range (0, 0) (9, 9)))] [.call 1 (.limit 1), .intersects 1 [2]]
  (by decide) rfl rfl

/-- a program: two queries that select one group each (1, 2), a query for all rows with three parts added one by one (3 to 6),
and two queries made from it with a fourth part (7: all rows of group 5, 8: all rows of group 6) -/
def exFork : List (QStmt Rec) :=
  [.new, .call 0 (.with exIndex (.point (0, 5))), .call 0 (.with exIndex (.point (0, 6))),
    .call 0 (.with exIndex (.range (0, 0) (9, 9))), .intersects 3 [3], .intersects 4 [3], .intersects 5 [3],
    .intersects 6 [1], .intersects 6 [2]]

/-- Go's growth of small slices: double the capacity -/
def goDouble (cap n : Nat) : Nat := if 2 * cap < n then n else 2 * cap

/-- C56 is false: the second `Intersects` on the query with three parts writes its part into the array that the first one
extended, so the first derived query afterwards answers with the rows of group 6 instead of group 5. -/
theorem C56_refuted_answers :
    (stmts exTable.query exFork []).map (fun qs => qs.map (fun q => q.execute exTable (stdEnv exTable) insSort () exDB none 9)) =
      some [some (.ok [(1, 5), (2, 6)]), some (.ok [(1, 5)]), some (.ok [(2, 6)]), some (.ok [(1, 5), (2, 6)]), some (.ok [(1, 5), (2, 6)]),
        some (.ok [(1, 5), (2, 6)]), some (.ok [(1, 5), (2, 6)]), some (.ok [(1, 5)]), some (.ok [(2, 6)])] ∧
    (QStmt.run exTable.query.fields goDouble exFork (QMem.start exTable.query.fields, [])).map
        (fun r => r.2.map (fun m => (m.load r.1).execute exTable (stdEnv exTable) insSort () exDB none 9)) =
      some [some (.ok [(1, 5), (2, 6)]), some (.ok [(1, 5)]), some (.ok [(2, 6)]), some (.ok [(1, 5), (2, 6)]), some (.ok [(1, 5), (2, 6)]),
        some (.ok [(1, 5), (2, 6)]), some (.ok [(1, 5), (2, 6)]), some (.ok [(2, 6)]), some (.ok [(2, 6)])] := by
  constructor <;> decide +kernel

/-- `C56_programs_partial` covers programs that use one query many times: here the query with three parts is read page by page and
extended once, and a query without parts is extended twice. -/
example : noFork ([.new, .call 0 (.with exIndex (.range (0, 0) (9, 9))), .intersects 1 [1], .intersects 2 [1], .intersects 3 [1],
      .call 4 (.limit 1), .call 4 (.offset 1), .intersects 6 [1], .intersects 1 [1], .intersects 5 []] : List (QStmt Rec)) [] [] = true ∧
    (stmts exTable.query ([.new, .call 0 (.with exIndex (.range (0, 0) (9, 9))), .intersects 1 [1], .intersects 2 [1], .intersects 3 [1],
      .call 4 (.limit 1), .call 4 (.offset 1), .intersects 6 [1], .intersects 1 [1], .intersects 5 []] : List (QStmt Rec)) []).map
        (fun qs => qs.map (fun q => (q.intersects.length, q.limit.toNat, q.offset.toNat))) =
      some [(0, 0, 0), (0, 0, 0), (1, 0, 0), (2, 0, 0), (3, 0, 0), (3, 1, 0), (3, 0, 1), (4, 0, 1), (1, 0, 0), (3, 1, 0)] ∧
    noFork exFork [] [] = false := by
  refine ⟨by decide, by decide +kernel, by decide⟩

/-! ## C107 The calls that build a query -/

theorem filterMap_congr_mem {α β : Type} {f g : α → Option β} : ∀ {l : List α}, (∀ x ∈ l, f x = g x) → l.filterMap f = l.filterMap g
  | [], _ => rfl
  | a :: l, h => by
    rw [List.filterMap_cons, List.filterMap_cons, h a (List.mem_cons_self ..),
      filterMap_congr_mem (fun x hx => h x (List.mem_cons_of_mem _ hx))]

theorem latest_cons {α : Type} (get : QCall T → Option α) (c : QCall T) (cs : List (QCall T)) (a : α) :
    latest get (c :: cs) a = latest get cs ((get c).getD a) := by
  unfold latest
  cases hc : get c with
  | none => rw [List.filterMap_cons_none hc]; rfl
  | some b =>
    rw [List.filterMap_cons_some hc]
    cases cs.filterMap get with
    | nil => rfl
    | cons x xs => simp [List.getLast?_cons]

theorem fold_latest {α : Type} (field : QFields T → α) (get : QCall T → Option α)
    (h : ∀ q c, field (q.call c) = (get c).getD (field q)) (cs : List (QCall T)) (q : QFields T) :
    field (cs.foldl QFields.call q) = latest get cs (field q) := by
  induction cs generalizing q with
  | nil => rfl
  | cons c cs ih => rw [List.foldl_cons, ih, h, latest_cons]

/-- C107 (what each call sets). After any calls in any order the query has the index and selector of the last `With`, the
order, offset, limit and start of the last `Order`, `Offset`, `Limit` and `After`, and is reversed if `Reverse` was called an odd
number of times more. -/
theorem C107_latest (q : QFields T) (cs : List (QCall T)) :
    let r := cs.foldl QFields.call q
    (r.index, r.sel) = latest (fun | .with i s => some (i, s) | _ => none) cs (q.index, q.sel) ∧
    r.filter = latest (fun | .filter f => some (some f) | _ => none) cs q.filter ∧
    r.less = latest (fun | .order f => some (some f) | _ => none) cs q.less ∧
    r.offset = latest (fun | .offset n => some n | _ => none) cs q.offset ∧
    r.limit = latest (fun | .limit n => some n | _ => none) cs q.limit ∧
    r.after = latest (fun | .after x => some (some x) | _ => none) cs q.after ∧
    r.reverse = (q.reverse != decide ((cs.filter (fun c => kind c == 3)).length % 2 = 1)) := by
  refine ⟨fold_latest (fun q => (q.index, q.sel)) _ (fun q c => by cases c <;> rfl) cs q,
    fold_latest QFields.filter _ (fun q c => by cases c <;> rfl) cs q,
    fold_latest QFields.less _ (fun q c => by cases c <;> rfl) cs q,
    fold_latest QFields.offset _ (fun q c => by cases c <;> rfl) cs q,
    fold_latest QFields.limit _ (fun q c => by cases c <;> rfl) cs q,
    fold_latest QFields.after _ (fun q c => by cases c <;> rfl) cs q, ?_⟩
  induction cs generalizing q with
  | nil => simp
  | cons c cs ih =>
    rw [List.foldl_cons, ih]
    by_cases hc : kind c = 3
    · have hr : (q.call c).reverse = !q.reverse := by cases c <;> first | rfl | cases hc
      rw [hr, List.filter_cons_of_pos (by simp [hc]), List.length_cons]
      generalize (cs.filter (fun c => kind c == 3)).length = n
      rcases Nat.mod_two_eq_zero_or_one n with h | h <;>
        (have : (n + 1) % 2 = 1 - n % 2 := by omega
         rw [this, h]; cases q.reverse <;> rfl)
    · have hr : (q.call c).reverse = q.reverse := by cases c <;> first | rfl | exact absurd rfl hc
      rw [hr, List.filter_cons_of_neg (by simp [hc])]

/-- C107 (order of the calls). Two sequences of calls that agree on the calls of each kind, however these are mixed, build the
same query. -/
theorem C107_order (q : QFields T) (cs ds : List (QCall T)) (h : ∀ k, cs.filter (fun c => kind c == k) = ds.filter (fun c => kind c == k)) :
    cs.foldl QFields.call q = ds.foldl QFields.call q := by
  have hl : ∀ {α : Type} (get : QCall T → Option α) (k : Nat), (∀ c, (get c).isSome = true → kind c = k) → ∀ a,
      latest get cs a = latest get ds a := by
    intro α get k hk a
    have hf : ∀ l : List (QCall T), (l.filter (fun c => kind c == k)).filterMap get = l.filterMap get := by
      intro l
      rw [List.filterMap_filter]
      apply filterMap_congr_mem
      intro c _
      by_cases hc : kind c = k
      · simp [hc]
      · have : get c = none := by
          cases hg : get c with
          | none => rfl
          | some b => exact absurd (hk c (by rw [hg]; rfl)) hc
        simp [this]
    unfold latest
    rw [← hf cs, ← hf ds, h k]
  have h1 := C107_latest q cs
  have h2 := C107_latest q ds
  dsimp only at h1 h2
  generalize cs.foldl QFields.call q = x at h1
  generalize ds.foldl QFields.call q = y at h2
  rw [hl _ 0 (fun c hc => by cases c <;> first | rfl | cases hc), hl _ 1 (fun c hc => by cases c <;> first | rfl | cases hc),
    hl _ 2 (fun c hc => by cases c <;> first | rfl | cases hc), hl _ 4 (fun c hc => by cases c <;> first | rfl | cases hc),
    hl _ 5 (fun c hc => by cases c <;> first | rfl | cases hc), hl _ 6 (fun c hc => by cases c <;> first | rfl | cases hc), h 3] at h1
  obtain ⟨a1, a2, a3, a4, a5, a6, a7⟩ := h1
  obtain ⟨b1, b2, b3, b4, b5, b6, b7⟩ := h2
  rw [← b1] at a1; rw [← b2] at a2; rw [← b3] at a3; rw [← b4] at a4; rw [← b5] at a5; rw [← b6] at a6; rw [← b7] at a7
  cases x; cases y
  simp only [Prod.mk.injEq] at a1
  simp_all

/-- the hypothesis of `C107_order` is met by different sequences, with two `Limit` calls in the same order -/
example : ∀ k, ([.limit 1, .reverse, .limit 2, .offset 3] : List (QCall Rec)).filter (fun c => kind c == k) =
    ([.offset 3, .limit 1, .limit 2, .reverse] : List (QCall Rec)).filter (fun c => kind c == k) := by
  intro k
  match k with
  | 0 | 1 | 2 | 3 | 4 | 5 => rfl
  | n + 6 =>
    have : ∀ m : Nat, m < 6 → (m == n + 6) = false := fun m hm => by simp; omega
    simp [List.filter, kind, this]

/-- C107 is false: `Filter` is documented to add filtering, but a second call replaces the first. Of the rows (1, 5) and (2, 6) no
one passes both filters, and the query returns the one that the second accepts. -/
theorem C107_refuted :
    let q := ([.with exIndex (.range (0, 0) (9, 9)), .filter (fun x => x.1 == 1), .filter (fun x => x.2 == 6)] : List (QCall Rec)).foldl
      QFields.call exTable.query.fields
    ∃ rows, (q.query []).execute exTable (stdEnv exTable) insSort () exDB none 9 = some (.ok rows) ∧ (2, 6) ∈ rows ∧
      ¬ ∀ f ∈ filters ([.with exIndex (.range (0, 0) (9, 9)), .filter (fun x => x.1 == 1), .filter (fun x => x.2 == 6)] : List (QCall Rec)),
        f (2, 6) = true := by
  refine ⟨[(2, 6)], by decide +kernel, by decide, ?_⟩
  intro h
  have := h (fun x => x.1 == 1) (by simp [filters])
  simp at this

/-- C107, the part that holds: with at most one `Filter` among the calls, made in any order on a new query, the answer is the page
of the rows under the last selector that all filters accept, sorted by the last `Order`, if any.
Missing for the full C107: several `Filter` calls, see `C107_refuted`. -/
theorem C107_partial {t : Table T F} {env : Env T} {filt : F} {db : KV} {ob : Option Batch} {m : Rows T}
    (S : Setting t env filt db ob m) (srt : (T → T → Bool) → List T → List T) (cs : List (QCall T))
    (hone : (filters cs).length ≤ 1) {less : Option (T → T → Bool)}
    (hless : latest (fun | .order f => some (some f) | _ => none) cs none = less) (hna : ∀ x, .after x ∉ cs) {idx : Index T} {sel : Selector T}
    (hw : latest (fun | .with i s => some (i, s) | _ => none) cs (t.primaryIndex, .point t.empty) = (idx, sel)) (hi : IsIndex t idx)
    (hs : sel.OK idx) {off lim : UInt64} (hoff : latest (fun | .offset n => some n | _ => none) cs 0 = off)
    (hlim : latest (fun | .limit n => some n | _ => none) cs 0 = lim) (ho : off.toNat < 2 ^ 63) (hL : lim.toNat < 2 ^ 63) :
    ∃ rows, Yields t env filt db ob idx sel (decide ((cs.filter (fun c => kind c == 3)).length % 2 = 1)) rows ∧
      Returns t env srt filt db ob ((cs.foldl QFields.call t.query.fields).query [])
        (page off.toNat lim.toNat (match less with
          | some less => srt less (rows.filter (fun x => (filters cs).all (· x)))
          | none => rows.filter (fun x => (filters cs).all (· x)))) := by
  obtain ⟨a1, a2, a3, a4, a5, a6, a7⟩ := C107_latest t.query.fields cs
  have nolast : ∀ {α : Type} (get : QCall T → Option α) a, (∀ c ∈ cs, get c = none) → latest get cs a = a := by
    intro α get a hg
    unfold latest
    rw [List.filterMap_eq_nil_iff.2 hg]; rfl
  generalize cs.foldl QFields.call t.query.fields = q at *
  have a1 : (q.index, q.sel) = (idx, sel) := a1.trans hw
  have a4 : q.offset = off := a4.trans hoff
  have a5 : q.limit = lim := a5.trans hlim
  have a3 : q.less = less := a3.trans hless
  have a6 : q.after = none := by
    rw [a6]; apply nolast
    intro c hc
    cases c <;> first | rfl | exact absurd hc (hna _)
  have a7 : q.reverse = decide ((cs.filter (fun c => kind c == 3)).length % 2 = 1) := by
    rw [a7]; show (false != _) = _; simp
  have hacc : ∀ x, accepts (q.query []) x = (filters cs).all (· x) := by
    intro x
    have hf : cs.filterMap (fun | .filter f => some (some f) | _ => none) = (filters cs).map some := by
      unfold filters
      rw [List.map_filterMap]
      apply filterMap_congr_mem
      intro c _
      cases c <;> rfl
    unfold latest at a2
    rw [hf] at a2
    unfold accepts
    show (match q.filter with | some p => p x | none => true) = _
    rw [a2]
    match hfs : filters cs, hone with
    | [], _ => rfl
    | [f], _ => simp
    | _ :: _ :: _, h => simp at h
  cases a1
  obtain ⟨parts, _, hy, _⟩ := S.parts hi hs
  have h1 := hy q.reverse
  have h2 := query_plain S srt (q := q.query []) rfl hi hs a6 (by rw [← a4] at ho; exact ho) (by rw [← a5] at hL; exact hL) h1
  refine ⟨_, by rw [← a7]; exact h1, ?_⟩
  have hl : (q.query []).less = less := a3
  have : accepts (q.query []) = fun x => (filters cs).all (· x) := funext hacc
  unfold ordered at h2
  rw [this, hl] at h2
  rw [← a4, ← a5]
  exact h2

/-- the hypotheses of `C107_partial` are met by calls in an unusual order, with a selector that is replaced -/
example : let cs : List (QCall Rec) := [.limit 7, .filter (fun x => x.1 != 3), .with exIndex (.point (0, 5)), .order (fun a b => decide (b.1 < a.1)),
      .reverse, .limit 1, .with exIndex (.range (0, 0) (9, 9)), .reverse, .offset 0]
    (filters cs).length ≤ 1 ∧ latest (fun | .order f => some (some f) | _ => none) cs none = some (fun a b => decide (b.1 < a.1)) ∧ (∀ x, .after x ∉ cs) ∧
    latest (fun | .with i s => some (i, s) | _ => none) cs (exTable.primaryIndex, .point exTable.empty) = (exIndex, .range (0, 0) (9, 9)) ∧
    IsIndex exTable exIndex ∧ (Selector.range ((0, 0) : Rec) (9, 9)).OK exIndex ∧
    latest (fun | .limit n => some n | _ => none) cs 0 = 1 ∧
    ((cs.foldl QFields.call exTable.query.fields).query []).execute exTable (stdEnv exTable) insSort () exDB none 9 = some (.ok [(2, 6)]) := by
  refine ⟨by decide, rfl, by simp, rfl, by simp [IsIndex, exTable], ⟨by simp [Selector.elems], by simp [Selector.elems, exIndex]⟩, by decide, by decide +kernel⟩

/-! ## C50 Conditions in queries -/

/-- C50 (queries). A query whose filter is a condition that panics on no row returns the page of the selected rows for which the
condition holds as a formula. -/
theorem C50_query {V : Type} {ops : CondOps V} {lt : V → V → Prop} (hops : Spec.LawfulOps ops lt) {t : Table T F} {env : Env T} {filt : F}
    {db : KV} {ob : Option Batch} {m : Rows T} (S : Setting t env filt db ob m) (srt : (T → T → Bool) → List T → List T) (q : Query T)
    (hint : q.intersects = []) (hi : IsIndex t q.index) (hs : q.sel.OK q.index) (haft : q.after = none) (hless : q.less = none)
    (ho : q.offset.toNat < 2 ^ 63) (hL : q.limit.toNat < 2 ^ 63) (c : Cond T V) (_hc : ∀ x, Spec.Total x c)
    (P : T → Bool) (hP : ∀ x, P x = true ↔ Spec.Means lt x c true) :
    ∃ rows, Yields t env filt db ob q.index q.sel q.reverse rows ∧
      Returns t env srt filt db ob (set q (.filter (fun x => c.eval ops x == some true))) (page q.offset.toNat q.limit.toNat (rows.filter P)) := by
  obtain ⟨rows, h1, h2⟩ := C30 S srt (set q (.filter (fun x => c.eval ops x == some true))) hint hi hs haft hless ho hL
  refine ⟨rows, h1, ?_⟩
  have : accepts (set q (.filter (fun x => c.eval ops x == some true))) = P := by
    funext x
    rw [Bool.eq_iff_iff, hP x, ← C50 hops]
    simp [accepts, Spec.set]
  rw [this] at h2
  exact h2

/-- a condition that panics on no row -/
example : (∀ x, Spec.Total x (Cond.and [.gt (fun r : Rec => some (r.1.toNat : Int)) 1, .not (.eq (fun r => some (r.2.toNat : Int)) 5)] : Cond Rec Int)) ∧
    (set exQuery (.filter (fun x => (Cond.and [.gt (fun r : Rec => some (r.1.toNat : Int)) 1, .not (.eq (fun r => some (r.2.toNat : Int)) 5)] :
      Cond Rec Int).eval intOps x == some true))).execute exTable (stdEnv exTable) insSort () exDB none 9 = some (.ok [(2, 6)]) := by
  refine ⟨fun x => .and _ ?_, by decide +kernel⟩
  intro c hc
  rcases List.mem_cons.1 hc with rfl | hc
  · exact .gt _ _ (by simp)
  · rcases List.mem_cons.1 hc with rfl | hc
    · exact .not _ (.eq _ _ (by simp))
    · cases hc

end Bond
