import Verif.Remote
import Verif.Props.Inspect
import Verif.Props.Backup
/-
Properties of the HTTP side of the inspect package and of the command line: C88, C89.
-/
namespace Bond
open Spec

/-! ## C88 The remote inspector -/

/-- an address without a query and without a fragment -/
def Spec.PlainURL (url : List Char) : Prop := '?' ∉ url ∧ '#' ∉ url

instance (url : List Char) : Decidable (PlainURL url) := by unfold PlainURL; infer_instance

theorem pathOf_plain {url : List Char} (h : PlainURL url) : pathOf url = url := by
  unfold pathOf
  obtain ⟨h1, h2⟩ := h
  induction url with
  | nil => rfl
  | cons c l ih =>
    have e1 : c ≠ '?' := fun e => h1 (e ▸ List.mem_cons_self)
    have e2 : c ≠ '#' := fun e => h2 (e ▸ List.mem_cons_self)
    rw [List.takeWhile_cons_of_pos (by simp [e1, e2]),
      ih (fun hm => h1 (List.mem_cons_of_mem _ hm)) (fun hm => h2 (List.mem_cons_of_mem _ hm))]

theorem newInspectRemote_plain {url : List Char} (h : PlainURL url) (a : String) {p : List Char} (hp : PlainURL p) (b : HBody) :
    ∃ u, (newInspectRemote url a).request p b = ⟨u ++ p, a, b⟩ := by
  unfold RClient.request newInspectRemote
  simp only
  refine ⟨if endsIn ['/'] url then url.dropLast else url, ?_⟩
  rw [pathOf_plain]
  have : ∀ c, c ∈ (if endsIn ['/'] url then url.dropLast else url) → c ∈ url := by
    intro c hc
    split at hc
    · exact List.dropLast_subset _ hc
    · exact hc
  constructor
  · rw [List.mem_append]; exact fun h' => h'.elim (fun h' => h.1 (this _ h')) hp.1
  · rw [List.mem_append]; exact fun h' => h'.elim (fun h' => h.2 (this _ h')) hp.2

theorem endsIn_append (u p q : List Char) : endsIn p (u ++ q) = p.reverse.isPrefixOf (q.reverse ++ u.reverse) := by
  unfold endsIn List.isSuffixOf
  rw [List.reverse_append]

/-- the headers with which the handler answers -/
def Spec.AcceptsJson (a : String) : Prop := a = "" ∨ a = "application/json"

theorem acceptOf_json {a : String} (h : AcceptsJson a) : (acceptOf a == "application/json") = true := by
  rcases h with rfl | rfl <;> rfl

theorem acceptOf_other {a : String} (h : ¬ AcceptsJson a) : (acceptOf a == "application/json") = false := by
  unfold acceptOf
  rw [beq_eq_false_iff_ne]
  split
  · rename_i h'; exact absurd (Or.inl (beq_iff_eq.1 h')) h
  · exact fun e => h (Or.inr e)

variable (text : Bytes → Bytes) (infos : List Info) (oor : OutOfRange) (db : KV) (fuel : Nat)

theorem handler_tables (u : List Char) (a : String) (b : HBody) :
    inspectHandler text infos oor db fuel ⟨u ++ tablesPath, a, b⟩ = tablesHandler infos ⟨u ++ tablesPath, a, b⟩ := by
  unfold inspectHandler
  simp only [endsIn_append]
  rfl

theorem handler_indexes (u : List Char) (a : String) (b : HBody) :
    inspectHandler text infos oor db fuel ⟨u ++ indexesPath, a, b⟩ = indexesHandler infos ⟨u ++ indexesPath, a, b⟩ := by
  unfold inspectHandler
  simp only [endsIn_append]
  rfl

theorem handler_fields (u : List Char) (a : String) (b : HBody) :
    inspectHandler text infos oor db fuel ⟨u ++ entryFieldsPath, a, b⟩ = entryFieldsHandler infos ⟨u ++ entryFieldsPath, a, b⟩ := by
  unfold inspectHandler
  simp only [endsIn_append]
  rfl

theorem handler_query (u : List Char) (a : String) (b : HBody) :
    inspectHandler text infos oor db fuel ⟨u ++ queryPath, a, b⟩ = queryHandler text infos oor db fuel ⟨u ++ queryPath, a, b⟩ := by
  unfold inspectHandler
  simp only [endsIn_append]
  rfl

/-- C88, lists: with an address that has neither a query nor a fragment, with or without a slash at the end, and no Accept header
or that for JSON, the remote client lists tables, indexes and fields as the inspector of the server does; where that fails, it
fails with status 500 and the reason.
Missing for the full C88: other Accept headers (`C88_refuted_accept`), addresses with a query (`C88_refuted_url`). -/
theorem C88_lists_partial {url : List Char} (hu : PlainURL url) {a : String} (ha : AcceptsJson a) (table : String) :
    let c := newInspectRemote url a
    let s := inspectHandler text infos oor db fuel
    c.tables s = .ok (inspectTables infos) ∧
    (∀ l, inspectIndexes infos table = some l → c.indexes s table = .ok l) ∧
    (inspectIndexes infos table = none → c.indexes s table = .failed 500 (some .noTable)) ∧
    (∀ l, inspectFields infos table = some l → c.entryFields s table = .ok l) ∧
    (inspectFields infos table = none → c.entryFields s table = .failed 500 (some .noTable)) := by
  have hj := acceptOf_json ha
  intro c s
  refine ⟨?_, fun l hl => ?_, fun hl => ?_, fun l hl => ?_, fun hl => ?_⟩
  · obtain ⟨u, e⟩ := newInspectRemote_plain hu a (p := tablesPath) (by decide) .empty
    show RClient.receive _ (s (c.request _ _)) = _
    rw [e]
    show RClient.receive _ (inspectHandler _ _ _ _ _ _) = _
    rw [handler_tables, tablesHandler, if_pos hj]
    rfl
  · obtain ⟨u, e⟩ := newInspectRemote_plain hu a (p := indexesPath) (by decide) (.obj { table := table, index := "" })
    show RClient.receive _ (s (c.request _ _)) = _
    rw [e]
    show RClient.receive _ (inspectHandler _ _ _ _ _ _) = _
    rw [handler_indexes, indexesHandler, decodeBody]
    simp only
    rw [if_pos hj, hl]
    rfl
  · obtain ⟨u, e⟩ := newInspectRemote_plain hu a (p := indexesPath) (by decide) (.obj { table := table, index := "" })
    show RClient.receive _ (s (c.request _ _)) = _
    rw [e]
    show RClient.receive _ (inspectHandler _ _ _ _ _ _) = _
    rw [handler_indexes, indexesHandler, decodeBody]
    simp only
    rw [if_pos hj, hl]
    rfl
  · obtain ⟨u, e⟩ := newInspectRemote_plain hu a (p := entryFieldsPath) (by decide) (.obj { table := table, index := "" })
    show RClient.receive _ (s (c.request _ _)) = _
    rw [e]
    show RClient.receive _ (inspectHandler _ _ _ _ _ _) = _
    rw [handler_fields, entryFieldsHandler, decodeBody]
    simp only
    rw [if_pos hj, hl]
    rfl
  · obtain ⟨u, e⟩ := newInspectRemote_plain hu a (p := entryFieldsPath) (by decide) (.obj { table := table, index := "" })
    show RClient.receive _ (s (c.request _ _)) = _
    rw [e]
    show RClient.receive _ (inspectHandler _ _ _ _ _ _) = _
    rw [handler_fields, entryFieldsHandler, decodeBody]
    simp only
    rw [if_pos hj, hl]
    rfl

/-- an address with a slash at the end that has the path of another request in it -/
example : PlainURL "/v1/tables/bond/".toList ∧ AcceptsJson "" ∧
    (newInspectRemote "/v1/tables/bond/".toList "").indexes (inspectHandler id [exInfo] (fun _ _ => 0) exDB 9) "recs" =
      .ok ["primary", "group"] ∧
    (newInspectRemote "/v1/tables/bond/".toList "").indexes (inspectHandler id [exInfo] (fun _ _ => 0) exDB 9) "other" =
      .failed 500 (some .noTable) := by
  unfold PlainURL AcceptsJson; decide

/-- C88, queries: under the same conditions the remote client returns the rows that a query with the JSON of the maps returns,
through JSON; fails with status 500 and the reason where it fails, and with an error of the connection where it panics.
Missing for the full C88: as for `C88_lists_partial`. -/
theorem C88_query_partial {url : List Char} (hu : PlainURL url) {a : String} (ha : AcceptsJson a) (r : IReq) :
    let c := newInspectRemote url a
    let s := inspectHandler text infos oor db fuel
    (∀ l, remoteQuery text infos oor db fuel r = .rows l → c.query text s r = .ok l) ∧
    (∀ e, remoteQuery text infos oor db fuel r = .err e → c.query text s r = .failed 500 (some (.query e))) ∧
    (remoteQuery text infos oor db fuel r = .panic → c.query text s r = .connection) ∧
    (remoteQuery text infos oor db fuel r = .running → c.query text s r = .running) := by
  have hj := acceptOf_json ha
  intro c s
  obtain ⟨u, e⟩ := newInspectRemote_plain hu a (p := queryPath) (by decide) (.obj r)
  have hs : c.query text s r = RClient.receive (decodeRows text) (queryHandler text infos oor db fuel ⟨u ++ queryPath, a, .obj r⟩) := by
    show RClient.receive _ (s (c.request _ _)) = _
    rw [e]
    show RClient.receive _ (inspectHandler _ _ _ _ _ _) = _
    rw [handler_query]
  rw [hs]
  unfold queryHandler decodeBody remoteQuery
  simp only
  rw [if_pos hj]
  cases inspectQuery infos oor db fuel { r with
      selector := jsonMap text r.selector, filter := r.filter.map (jsonMap text), after := r.after.map (jsonMap text) } with
  | rows l => exact ⟨fun _ h => (by cases h; rfl), fun _ h => (by cases h), fun h => (by cases h), fun h => (by cases h)⟩
  | err e => exact ⟨fun _ h => (by cases h), fun _ h => (by cases h; rfl), fun h => (by cases h), fun h => (by cases h)⟩
  | panic => exact ⟨fun _ h => (by cases h), fun _ h => (by cases h), fun _ => rfl, fun h => (by cases h)⟩
  | running => exact ⟨fun _ h => (by cases h), fun _ h => (by cases h), fun h => (by cases h), fun _ => rfl⟩

/-- rows, an error, a panic -/
example :
    let c := newInspectRemote "/bond".toList "application/json"
    let s := inspectHandler id [exInfo] (fun _ _ => 0) exDB 9
    PlainURL "/bond".toList ∧ AcceptsJson "application/json" ∧
    c.query id s exReq = .ok [jsonMap id (exDesc.toMap (2, 6))] ∧
    c.query id s { table := "recs", index := "other" } = .failed 500 (some (.query .noIndex)) ∧
    c.query id s { table := "recs", index := "", filter := some [("ID", none)] } = .connection := by
  intro c s
  exact ⟨by decide, Or.inr rfl, by decide, by decide, by decide⟩

/-- C88, the server: a request whose path ends with none of the four names is answered with 404; one whose body is not JSON with
500 and a reason, except that the list of tables does not read it. Nothing else is looked at: prefixes of the path do not matter. -/
theorem C88_other (q : HReq) :
    ((∀ p ∈ [tablesPath, indexesPath, entryFieldsPath, queryPath], ¬ p <:+ q.path) →
      inspectHandler text infos oor db fuel q = .answer ⟨404, .text⟩) ∧
    (∀ p ∈ [indexesPath, entryFieldsPath, queryPath], p <:+ q.path → (∀ r, q.body ≠ .obj r) →
      inspectHandler text infos oor db fuel q = .answer ⟨500, .error .json⟩) ∧
    (∀ u, inspectHandler text infos oor db fuel { q with path := u ++ q.path } = inspectHandler text infos oor db fuel q ∨
      ∀ p ∈ [tablesPath, indexesPath, entryFieldsPath, queryPath], ¬ p <:+ q.path) := by
  refine ⟨fun h => ?_, fun p hp hs hb => ?_, fun u => ?_⟩
  · have hf : ∀ p ∈ [tablesPath, indexesPath, entryFieldsPath, queryPath], endsIn p q.path = false := by
      intro p hp
      rw [Bool.eq_false_iff]
      exact fun e => h p hp (List.isSuffixOf_iff_suffix.1 e)
    unfold inspectHandler
    rw [hf tablesPath (by simp), hf indexesPath (by simp), hf entryFieldsPath (by simp), hf queryPath (by simp)]
    rfl
  · have hd : ∀ k, decodeBody q k = .answer ⟨500, .error .json⟩ := by
      intro k
      unfold decodeBody
      split
      · rename_i r e; exact absurd e (hb r)
      · rfl
    obtain ⟨path, a, b⟩ := q
    obtain ⟨u, e⟩ := hs
    simp only at e hd hb
    subst e
    simp only [List.mem_cons, List.not_mem_nil, or_false] at hp
    rcases hp with rfl | rfl | rfl
    · rw [handler_indexes]; exact hd _
    · rw [handler_fields]; exact hd _
    · rw [handler_query]; exact hd _
  · by_cases h : ∀ p ∈ [tablesPath, indexesPath, entryFieldsPath, queryPath], ¬ p <:+ q.path
    · exact Or.inr h
    · refine Or.inl ?_
      have : ∃ p ∈ [tablesPath, indexesPath, entryFieldsPath, queryPath], p <:+ q.path := by
        apply Classical.byContradiction
        intro hn
        exact h fun p hp hs => hn ⟨p, hp, hs⟩
      obtain ⟨p, hp, v, e⟩ := this
      obtain ⟨path, a, b⟩ := q
      simp only at e
      subst e
      simp only [List.mem_cons, List.not_mem_nil, or_false] at hp
      simp only [← List.append_assoc]
      rcases hp with rfl | rfl | rfl | rfl
      · rw [handler_tables, handler_tables]; rfl
      · rw [handler_indexes, handler_indexes]; rfl
      · rw [handler_fields, handler_fields]; rfl
      · rw [handler_query, handler_query]; rfl

example : (∀ p ∈ [tablesPath, indexesPath, entryFieldsPath, queryPath], ¬ p <:+ "/bond/tables/".toList) ∧
    inspectHandler id [exInfo] (fun _ _ => 0) exDB 9 ⟨"/bond/tables/".toList, "", .empty⟩ = .answer ⟨404, .text⟩ ∧
    inspectHandler id [exInfo] (fun _ _ => 0) exDB 9 ⟨"/bond/query".toList, "", .other⟩ = .answer ⟨500, .error .json⟩ := by decide

/-- the full C88 for the list of tables -/
def Spec.RemoteLists (infos : List Info) (url : List Char) (a : String) : Prop :=
  ∀ text oor db fuel, (newInspectRemote url a).tables (inspectHandler text infos oor db fuel) = .ok (inspectTables infos)

/-- C88 is false for clients with another Accept header, even one that includes JSON: every request of such a client fails with
status 406 and without a reason. -/
theorem C88_accept {url : List Char} (hu : PlainURL url) {a : String} (ha : ¬ AcceptsJson a) (table : String) (r : IReq) :
    let c := newInspectRemote url a
    let s := inspectHandler text infos oor db fuel
    c.tables s = .failed 406 none ∧ c.indexes s table = .failed 406 none ∧ c.entryFields s table = .failed 406 none ∧
      c.query text s r = .failed 406 none := by
  have hj := acceptOf_other ha
  intro c s
  refine ⟨?_, ?_, ?_, ?_⟩
  · obtain ⟨u, e⟩ := newInspectRemote_plain hu a (p := tablesPath) (by decide) .empty
    show RClient.receive _ (s (c.request _ _)) = _
    rw [e]
    show RClient.receive _ (inspectHandler _ _ _ _ _ _) = _
    rw [handler_tables, tablesHandler, if_neg (by rw [hj]; decide)]
    rfl
  · obtain ⟨u, e⟩ := newInspectRemote_plain hu a (p := indexesPath) (by decide) (.obj { table := table, index := "" })
    show RClient.receive _ (s (c.request _ _)) = _
    rw [e]
    show RClient.receive _ (inspectHandler _ _ _ _ _ _) = _
    rw [handler_indexes, indexesHandler, decodeBody]
    simp only
    rw [if_neg (by rw [hj]; decide)]
    rfl
  · obtain ⟨u, e⟩ := newInspectRemote_plain hu a (p := entryFieldsPath) (by decide) (.obj { table := table, index := "" })
    show RClient.receive _ (s (c.request _ _)) = _
    rw [e]
    show RClient.receive _ (inspectHandler _ _ _ _ _ _) = _
    rw [handler_fields, entryFieldsHandler, decodeBody]
    simp only
    rw [if_neg (by rw [hj]; decide)]
    rfl
  · obtain ⟨u, e⟩ := newInspectRemote_plain hu a (p := queryPath) (by decide) (.obj r)
    show RClient.receive _ (s (c.request _ _)) = _
    rw [e]
    show RClient.receive _ (inspectHandler _ _ _ _ _ _) = _
    rw [handler_query, queryHandler, decodeBody]
    simp only
    rw [if_neg (by rw [hj]; decide)]
    rfl

/-- the witness: Accept "application/json, */*" -/
theorem C88_refuted_accept : ¬ RemoteLists [exInfo] "/bond".toList "application/json, */*" := by
  intro h
  exact absurd (h id (fun _ _ => 0) exDB 9) (by decide)

/-- C88 is false for an address with a query, such as a token: the path of the request is put behind it, and the answer is 404
without a reason. -/
theorem C88_refuted_url : ¬ RemoteLists [exInfo] "/bond?token=1".toList "" ∧
    (newInspectRemote "/bond?token=1".toList "").tables (inspectHandler id [exInfo] (fun _ _ => 0) exDB 9) = .failed 404 none :=
  ⟨fun h => absurd (h id (fun _ _ => 0) exDB 9) (by decide), by decide⟩

/-! ## C89 The command line -/

theorem splitEq_ne_nil (s : List Char) : splitEq s ≠ [] := by
  cases s with
  | nil => intro h; cases h
  | cons c s =>
    unfold splitEq
    split
    · intro h; cases h
    · split <;> (intro h; cases h)

theorem splitEq_one (s w : List Char) : splitEq s = [w] ↔ s = w ∧ '=' ∉ s := by
  induction s generalizing w with
  | nil => simp [splitEq, eq_comm]
  | cons c s ih =>
    unfold splitEq
    by_cases hc : c = '='
    · rw [if_pos hc]
      constructor
      · intro h
        simp only [List.cons.injEq] at h
        exact absurd h.2 (splitEq_ne_nil s)
      · rintro ⟨-, hn⟩
        exact absurd (by rw [hc]; exact List.mem_cons_self) hn
    · rw [if_neg hc]
      cases hs : splitEq s with
      | nil => exact absurd hs (splitEq_ne_nil s)
      | cons v vs =>
        simp only [List.cons.injEq]
        constructor
        · rintro ⟨rfl, rfl⟩
          obtain ⟨rfl, hn⟩ := (ih v).1 hs
          exact ⟨rfl, fun hm => by
            rcases List.mem_cons.1 hm with e | hm
            · exact hc e.symm
            · exact hn hm⟩
        · rintro ⟨rfl, hn⟩
          have := (ih s).2 ⟨rfl, fun hm => hn (List.mem_cons_of_mem _ hm)⟩
          rw [hs] at this
          cases this
          exact ⟨rfl, rfl⟩

theorem splitEq_two (s k v : List Char) : splitEq s = [k, v] ↔ s = k ++ '=' :: v ∧ '=' ∉ k ∧ '=' ∉ v := by
  induction s generalizing k with
  | nil => simp [splitEq]
  | cons c s ih =>
    unfold splitEq
    by_cases hc : c = '='
    · rw [if_pos hc]
      subst hc
      constructor
      · intro h
        simp only [List.cons.injEq] at h
        obtain ⟨hk, hv⟩ := h
        subst hk
        obtain ⟨rfl, hn⟩ := (splitEq_one s v).1 hv
        exact ⟨rfl, by simp, hn⟩
      · rintro ⟨he, hk, hv⟩
        cases k with
        | nil =>
          simp only [List.nil_append, List.cons.injEq, true_and] at he
          subst he
          rw [(splitEq_one s s).2 ⟨rfl, hv⟩]
        | cons d k =>
          simp only [List.cons_append, List.cons.injEq] at he
          exact absurd (by rw [he.1]; exact List.mem_cons_self) hk
    · rw [if_neg hc]
      cases hs : splitEq s with
      | nil => exact absurd hs (splitEq_ne_nil s)
      | cons w ws =>
        simp only [List.cons.injEq]
        constructor
        · rintro ⟨rfl, rfl⟩
          obtain ⟨rfl, hk, hv⟩ := (ih w).1 hs
          exact ⟨rfl, fun hm => by
            rcases List.mem_cons.1 hm with e | hm
            · exact hc e.symm
            · exact hk hm, hv⟩
        · rintro ⟨he, hk, hv⟩
          cases k with
          | nil =>
            simp only [List.nil_append, List.cons.injEq] at he
            exact absurd he.1 hc
          | cons d k =>
            simp only [List.cons_append, List.cons.injEq] at he
            obtain ⟨rfl, rfl⟩ := he
            have := (ih k).2 ⟨rfl, fun hm => hk (List.mem_cons_of_mem _ hm), hv⟩
            rw [hs] at this
            simp only [List.cons.injEq] at this
            exact ⟨by rw [this.1], this.2⟩

/-- C89, headers: the command line takes exactly the lists of arguments `name=value` in which neither the name nor the value
has an equals sign, and takes the names and values from them.
Missing for the full C89: values with an equals sign (`C89_refuted_header`). -/
theorem C89_headers_partial (args : List (List Char)) (hs : List (List Char × List Char)) :
    cliHeaders args = some hs ↔ args = hs.map (fun h => h.1 ++ '=' :: h.2) ∧ ∀ h ∈ hs, '=' ∉ h.1 ∧ '=' ∉ h.2 := by
  induction args generalizing hs with
  | nil =>
    unfold cliHeaders
    constructor
    · intro h; cases h; exact ⟨rfl, fun _ h => (by cases h)⟩
    · rintro ⟨h, -⟩
      cases hs with
      | nil => rfl
      | cons => cases h
  | cons s rest ih =>
    unfold cliHeaders
    constructor
    · intro h
      split at h
      · rename_i k v he
        obtain ⟨rfl, hk, hv⟩ := (splitEq_two s k v).1 he
        cases hr : cliHeaders rest with
        | none => rw [hr] at h; cases h
        | some hs' =>
          rw [hr] at h
          cases h
          obtain ⟨rfl, hall⟩ := (ih hs').1 hr
          refine ⟨rfl, fun h hm => ?_⟩
          rcases List.mem_cons.1 hm with rfl | hm
          · exact ⟨hk, hv⟩
          · exact hall h hm
      · cases h
    · rintro ⟨h, hall⟩
      cases hs with
      | nil => cases h
      | cons p hs' =>
        simp only [List.map_cons, List.cons.injEq] at h
        obtain ⟨rfl, rfl⟩ := h
        rw [(splitEq_two _ p.1 p.2).2 ⟨rfl, hall p List.mem_cons_self⟩]
        simp only
        rw [(ih hs').2 ⟨rfl, fun h hm => hall h (List.mem_cons_of_mem _ hm)⟩]
        rfl

example : cliHeaders ["X-Token=abc".toList, "Accept=".toList] = some [("X-Token".toList, "abc".toList), ("Accept".toList, [])] := by
  decide

/-- C89 is false for values with an equals sign, as Base64 has them: the header is refused. -/
theorem C89_refuted_header : ¬ ∀ k v, '=' ∉ k → cliHeaders [k ++ '=' :: v] = some [(k, v)] := by
  intro h
  exact absurd (h "Authorization".toList "Basic dTpwdw==".toList (by decide)) (by decide)

/-- C89, queries: without an index the primary one is used, without a limit the first 30 rows are returned.
Missing for the full C89: as for C84; the deadline is not modelled, and the remote client has none. -/
theorem C89_query_partial {infos : List Info} {oor : OutOfRange} {db : KV} {i : Info} {m : Rows i.T} (h : i.OK db m) {table : String} (htab : table ≠ "")
    (hfind : infos.find? (fun j => j.name == table) = some i) {filter : Option GoMap} (hfil : ∀ f, filter = some f → PlainMap i.desc f)
    (selector : Option GoMap) (limit : Option UInt64) (hL : ∀ n, limit = some n → n.toNat < 2 ^ 63)
    (hkey : i.table.primaryIndex.key i.table.empty = []) :
    ∃ rows, IsRows i.table i.table.primaryIndex m
        (fun x => (i.table.primaryIndex.key x = [] ∧ IdxLe i.table i.table.primaryIndex i.table.empty x) ∧ Wanted i.desc filter x) rows ∧
      (∀ n, limit = some n → Inspects infos oor db (cliQuery table none selector filter none limit) ((page 0 n.toNat rows).map i.desc.toMap)) ∧
      (limit = none → Inspects infos oor db (cliQuery table none selector filter none limit) ((rows.take 30).map i.desc.toMap)) := by
  obtain ⟨p, rows, hp, hrows, hins⟩ := C84_partial h (infos := infos) oor (cliQuery table none selector filter none limit) htab hfind
    (idx := i.table.primaryIndex) ((h.indexes _).2 (Or.inr rfl)) h.primary (fun hne => absurd rfl hne) hfil rfl
    (by
      cases limit with
      | none => show (30 : UInt64).toNat < 2 ^ 63; decide
      | some n => exact hL n rfl)
    (fun p hp => by rw [hp.1 rfl, hkey]; exact ⟨by simp [NoTrailingFF], by show 0 < _; decide⟩)
  have hpe := hp.1 rfl
  subst hpe
  rw [hkey] at hrows
  refine ⟨rows, hrows, fun n hn => ?_, fun hn => ?_⟩
  · subst hn; exact hins
  · subst hn
    have : page 0 (cliQuery table none selector filter none none).limit.toNat rows = rows.take 30 := by
      show page 0 30 rows = _
      unfold page
      simp
    rw [this] at hins
    exact hins

/-- the test table through the command line -/
example : ∃ rows, IsRows exTable exTable.primaryIndex exRows
      (fun x => (exTable.primaryIndex.key x = [] ∧ IdxLe exTable exTable.primaryIndex exTable.empty x) ∧ Wanted exDesc none x) rows ∧
    Inspects [exInfo] (fun _ _ => 0) exDB (cliQuery "recs" none none none none none) ((rows.take 30).map exDesc.toMap) := by
  obtain ⟨rows, h1, -, h2⟩ := C89_query_partial (infos := [exInfo]) (oor := fun _ _ => 0) (filter := none) exInfo_ok (table := "recs") (by decide) rfl
    (fun _ h => by cases h) none none (fun _ h => by cases h) rfl
  exact ⟨rows, h1, h2 rfl⟩

/-- and what it returns -/
example : inspectQuery [exInfo] (fun _ _ => 0) exDB 9 (cliQuery "recs" none none none none none) =
    .rows [exDesc.toMap (1, 5), exDesc.toMap (2, 6)] := by decide

theorem tableIDOfInt_inj {ids : List Int} (h : ∀ id ∈ ids, 0 ≤ id ∧ id < 256) (hnd : ids.Nodup) : (ids.map tableIDOfInt).Nodup := by
  have hi : ∀ id ∈ ids, ((tableIDOfInt id).toNat : Int) = id := by
    intro id hm
    have := h id hm
    unfold tableIDOfInt
    rw [UInt8.toNat_ofNat']
    omega
  clear h
  induction ids with
  | nil => exact List.nodup_nil
  | cons a l ih =>
    rw [List.nodup_cons] at hnd
    rw [List.map_cons, List.nodup_cons]
    refine ⟨fun hm => ?_, ih hnd.2 fun id hm => hi id (List.mem_cons_of_mem _ hm)⟩
    obtain ⟨b, hb, e⟩ := List.mem_map.1 hm
    have h1 := hi a List.mem_cons_self
    have h2 := hi b (List.mem_cons_of_mem _ hb)
    rw [e, h1] at h2
    exact hnd.1 (h2 ▸ hb)

/-- C89, dump and restore: with table numbers from 0 to 255, none twice, what `dump` writes `restore` brings into another database: its
tables with these numbers have the rows of the dumped one (if they were empty), and the index entries exactly if both commands
are given the flag for indexes; everything else is as before. Without the flag the path of the dump must not contain "index" (C47).
Missing for the full C89: other numbers (`C89_refuted_id`); the exit status (`C89_refuted_exit`). -/
theorem C89_dump_partial (snap db0 : KV) (full : List Entry → Bool) (wd wr : Bool) (ids : List Int) (base : Bytes)
    (hk : ∀ k v, snap.get k = some v → Exported k) (hid : ∀ id ∈ ids, 0 ≤ id ∧ id < 256) (hnd : ids.Nodup)
    (hidx : wr = true ∨ ¬ strIndex <:+: base) :
    ∃ d db1, cliDump snap (fun _ => snap) full wd ids = .ok d ∧ cliRestore base d ids wr db0 = .ok db1 ∧
      (∀ (t i : UInt8) r, (t.toNat : Int) ∈ ids → i = 0 ∨ (wd = true ∧ wr = true) →
        db1.get (t :: i :: r) = (snap.get (t :: i :: r)).or (db0.get (t :: i :: r))) ∧
      (∀ k, (∀ (t i : UInt8) r, k = t :: i :: r → ¬ ((t.toNat : Int) ∈ ids ∧ (i = 0 ∨ (wd = true ∧ wr = true)))) → db1.get k = db0.get k) := by
  obtain ⟨d, db1, h1, h2, h3, h4⟩ := C47_flags_partial snap db0 full wd wr (ids.map tableIDOfInt) base hk (tableIDOfInt_inj hid hnd) hidx
  have hmem : ∀ t : UInt8, t ∈ ids.map tableIDOfInt ↔ (t.toNat : Int) ∈ ids := by
    intro t
    rw [List.mem_map]
    constructor
    · rintro ⟨id, hm, rfl⟩
      have := hid id hm
      have e : ((tableIDOfInt id).toNat : Int) = id := by
        unfold tableIDOfInt
        rw [UInt8.toNat_ofNat']
        omega
      rw [e]; exact hm
    · intro hm
      refine ⟨_, hm, ?_⟩
      unfold tableIDOfInt
      apply UInt8.toNat_inj.1
      rw [UInt8.toNat_ofNat']
      have := t.toNat_lt
      omega
  exact ⟨d, db1, h1, h2, fun t i r ht hi => h3 t i r ((hmem t).2 ht) hi,
    fun k hno => h4 k fun t i r e hm => hno t i r e ⟨(hmem t).1 hm.1, hm.2⟩⟩

example : ∃ d db1, cliDump exDB (fun _ => exDB) (fun _ => false) true [7] = .ok d ∧ cliRestore [47] d [7] true KV.empty = .ok db1 ∧
    ∀ i r, db1.get (7 :: i :: r) = exDB.get (7 :: i :: r) := by
  obtain ⟨d, db1, h1, h2, h3, -⟩ := C89_dump_partial exDB KV.empty (fun _ => false) true true [7] [47] exDB_exported (by decide) (by decide)
    (Or.inl rfl)
  exact ⟨d, db1, h1, h2, fun i r => by rw [h3 7 i r (by decide) (Or.inr ⟨rfl, rfl⟩), KV.get_empty, Option.or_none]⟩

/-- without indexes only the rows are there -/
example : ∃ d db1, cliDump exDB (fun _ => exDB) (fun _ => false) false [7] = .ok d ∧ cliRestore [47] d [7] true KV.empty = .ok db1 ∧
    db1.get (exTable.key (1, 0)) = some [1, 5] ∧ db1.get (exTable.indexKey exIndex (1, 5)) = none ∧
    exDB.get (exTable.indexKey exIndex (1, 5)) = some [] := by
  obtain ⟨d, db1, h1, h2, h3, h4⟩ := C89_dump_partial exDB KV.empty (fun _ => false) false true [7] [47] exDB_exported (by decide) (by decide)
    (Or.inl rfl)
  refine ⟨d, db1, h1, h2, ?_, ?_, by decide⟩
  · rw [show exTable.key (1, 0) = 7 :: 0 :: (exTable.key (1, 0)).drop 2 by decide, h3 7 0 _ (by decide) (Or.inl rfl)]; decide
  · rw [h4 _ (by
      intro t i r e h
      have e' : exTable.indexKey exIndex (1, 5) = 7 :: 1 :: (exTable.indexKey exIndex (1, 5)).drop 2 := by decide
      rw [e'] at e
      cases e
      rcases h.2 with h | h
      · exact absurd h (by decide)
      · exact absurd h.1 (by decide))]
    decide

/-- the full C89 for `dump` and `restore`: tables whose numbers are not given are not touched -/
def Spec.OnlyNamed (ids : List Int) : Prop :=
  ∀ (snap db0 : KV) base d db1, cliDump snap (fun _ => snap) (fun _ => false) true ids = .ok d →
    cliRestore base d ids true db0 = .ok db1 → ∀ (t : UInt8) r, (t.toNat : Int) ∉ ids → db1.get (t :: r) = db0.get (t :: r)

/-- C89 is false for other numbers: 263 is taken for 7, without an error. -/
theorem C89_refuted_id : ¬ OnlyNamed [263] := by
  intro h
  obtain ⟨d, db1, h1, h2, h3, -⟩ := C46 exDB KV.empty (fun _ => false) [7] [] exDB_exported (by decide)
  have h4 := h exDB KV.empty [] d db1 h1 h2 7 (dataKey 7 [1]).tail (by decide)
  rw [h3 7 _ (by decide), KV.get_empty, Option.or_none] at h4
  exact absurd h4 (by decide)

/-- C89 is false for the exit status: a `restore` of a table that the dump does not have fails, prints an error, and exits with
status 0, as all failed commands do (an error is printed exactly when the command failed). -/
theorem C89_refuted_exit :
    (∀ r : Except DErr KV, (cliExit r).1 = 0 ∧ ((cliExit r).2 = true ↔ ∃ e, r = .error e)) ∧
    cliRestore [] ⟨[0, 0, 0, 1], []⟩ [7] true KV.empty = .error .missing ∧
    cliExit (cliRestore [] ⟨[0, 0, 0, 1], []⟩ [7] true KV.empty) = (0, true) := by
  have h : cliRestore [] ⟨[0, 0, 0, 1], []⟩ [7] true KV.empty = .error .missing := by
    unfold cliRestore restore
    rw [if_neg (by decide), if_neg (by decide), if_pos (by decide)]
  refine ⟨fun r => by cases r <;> simp [cliExit], h, by rw [h]; rfl⟩

end Bond
