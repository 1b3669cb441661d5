import Verif.Spec.Builder
namespace Bond
variable {T F : Type}

/-- a variable: its Go value, the query it stands for, and the statement that made its list of parts -/
structure QVar (T : Type) where
  m : QM T
  q : Query T
  o : Option Nat

/-- invariant: every variable has the fields and parts it should have, and slices that share an array agree on it (proof notion) -/
structure QInv (h : QMem T) (es : List (QVar T)) (ext : List Nat) : Prop where
  own : ∀ e ∈ es, e.m.own = e.q.fields
  val : ∀ e ∈ es, (h.read e.m.intersects).map QM.own = e.q.intersects.map Query.fields
  nil : ∀ e ∈ es, e.o = none → e.m.intersects.len = 0 ∧ e.m.intersects.cap = 0
  cons : ∀ e ∈ es, ∀ o, e.o = some o → 0 < e.m.intersects.len ∧ e.m.intersects.len ≤ e.m.intersects.cap ∧
    e.m.intersects.arr < h.next ∧ o < es.length
  same : ∀ e ∈ es, ∀ e' ∈ es, ∀ o, e.o = some o → e'.o = some o → e.m.intersects = e'.m.intersects
  live : ∀ e ∈ es, ∀ e' ∈ es, ∀ o o', e.o = some o → o ∉ ext → e'.o = some o' →
    e'.m.intersects.arr = e.m.intersects.arr → e'.m.intersects.len ≤ e.m.intersects.len
  uniq : ∀ e ∈ es, ∀ e' ∈ es, ∀ o o', e.o = some o → o ∉ ext → e'.o = some o' → o' ∉ ext →
    e'.m.intersects.arr = e.m.intersects.arr → o' = o
  ext : ∀ o ∈ ext, o < es.length

theorem mem_snoc {α : Type} {l : List α} {a x : α} : x ∈ l ++ [a] ↔ x ∈ l ∨ x = a := by simp

/-- a new variable with the list of parts of an old one, or without parts -/
theorem QInv.copy {h : QMem T} {es : List (QVar T)} {ext : List Nat} (I : QInv h es ext) (e1 : QVar T)
    (hown : e1.m.own = e1.q.fields)
    (h1 : (∃ e ∈ es, e1.m.intersects = e.m.intersects ∧ e1.q.intersects = e.q.intersects ∧ e1.o = e.o) ∨
      (e1.m.intersects = {} ∧ e1.q.intersects = [] ∧ e1.o = none)) : QInv h (es ++ [e1]) ext := by
  -- every variable has, for the purposes of the other fields, an old one with the same list
  have old : ∀ e ∈ es ++ [e1], (∃ e' ∈ es, e.m.intersects = e'.m.intersects ∧ e.q.intersects = e'.q.intersects ∧ e.o = e'.o) ∨
      (e.m.intersects = {} ∧ e.q.intersects = [] ∧ e.o = none) := by
    intro e he
    rcases mem_snoc.1 he with he | rfl
    · exact .inl ⟨e, he, rfl, rfl, rfl⟩
    · exact h1
  have olds : ∀ e ∈ es ++ [e1], ∀ o, e.o = some o → ∃ e' ∈ es, e.m.intersects = e'.m.intersects ∧ e'.o = some o := by
    intro e he o ho
    rcases old e he with ⟨e', h1, h2, _, h4⟩ | ⟨_, _, h3⟩
    · exact ⟨e', h1, h2, h4 ▸ ho⟩
    · rw [h3] at ho; cases ho
  refine ⟨?_, ?_, ?_, ?_, ?_, ?_, ?_, ?_⟩
  · intro e he
    rcases mem_snoc.1 he with he | rfl
    · exact I.own e he
    · exact hown
  · intro e he
    rcases old e he with ⟨e', h1, h2, h3, h4⟩ | ⟨h1, h2, _⟩
    · rw [h2, h3]; exact I.val e' h1
    · rw [h1, h2]; rfl
  · intro e he ho
    rcases old e he with ⟨e', h1, h2, h3, h4⟩ | ⟨h1, h2, _⟩
    · rw [h2]; exact I.nil e' h1 (h4 ▸ ho)
    · rw [h1]; exact ⟨rfl, rfl⟩
  · intro e he o ho
    obtain ⟨e', h1, h2, h3⟩ := olds e he o ho
    have := I.cons e' h1 o h3
    rw [h2]
    refine ⟨this.1, this.2.1, this.2.2.1, ?_⟩
    have := this.2.2.2
    simp; omega
  · intro e he e' he' o ho ho'
    obtain ⟨e1, h1, h2, h3⟩ := olds e he o ho
    obtain ⟨e2, k1, k2, k3⟩ := olds e' he' o ho'
    rw [h2, k2]; exact I.same e1 h1 e2 k1 o h3 k3
  · intro e he e' he' o o' ho hx ho' ha
    obtain ⟨e1, h1, h2, h3⟩ := olds e he o ho
    obtain ⟨e2, k1, k2, k3⟩ := olds e' he' o' ho'
    rw [h2, k2] at ha ⊢
    exact I.live e1 h1 e2 k1 o o' h3 hx k3 ha
  · intro e he e' he' o o' ho hx ho' hx' ha
    obtain ⟨e1, h1, h2, h3⟩ := olds e he o ho
    obtain ⟨e2, k1, k2, k3⟩ := olds e' he' o' ho'
    rw [h2, k2] at ha
    exact I.uniq e1 h1 e2 k1 o o' h3 hx k3 hx' ha
  · intro o ho
    have := I.ext o ho
    simp; omega

theorem QMem.read_write_other {h : QMem T} {a i : Nat} {xs : List (QM T)} {s : QSl} (hd : s.arr = a → s.len ≤ i) :
    (h.write a i xs).read s = h.read s := by
  unfold QMem.read
  apply List.map_congr_left
  intro j hj
  have hj := List.mem_range.1 hj
  simp only [QMem.write]
  split
  · next hc => have := hd hc.1; omega
  · rfl

theorem QMem.read_length {h : QMem T} {s : QSl} : (h.read s).length = s.len := by simp [QMem.read]

theorem QMem.read_getElem? {h : QMem T} {s : QSl} (j : Nat) :
    (h.read s)[j]? = if j < s.len then some (h.cell s.arr j) else none := by
  unfold QMem.read
  split
  · next hj => rw [List.getElem?_map, List.getElem?_range hj]; rfl
  · next hj => exact List.getElem?_eq_none (by simp; omega)

theorem QMem.read_write_append {h : QMem T} {a i c : Nat} {xs : List (QM T)} :
    (h.write a i xs).read ⟨a, i + xs.length, c⟩ = h.read ⟨a, i, c⟩ ++ xs := by
  apply List.ext_getElem?
  intro j
  rw [QMem.read_getElem?, List.getElem?_append, QMem.read_length, QMem.read_getElem?]
  simp only [QMem.write]
  by_cases h1 : j < i
  · rw [if_pos (by omega), if_neg (by omega), if_pos h1, if_pos h1]
  · rw [if_neg h1]
    by_cases h2 : j < i + xs.length
    · rw [if_pos h2, if_pos ⟨trivial, by omega⟩]
      rw [List.getElem?_eq_getElem (by omega)]; rfl
    · rw [if_neg h2, List.getElem?_eq_none (by omega)]

/-- a new variable whose list of parts is that of `e0`, extended by `xs` -/
theorem QInv.extend {h : QMem T} {es : List (QVar T)} {ext : List Nat} (I : QInv h es ext) (grow : Nat → Nat → Nat)
    {e0 : QVar T} (he0 : e0 ∈ es) {xs : List (QM T)} {qs : List (Query T)} (hxs : xs ≠ [])
    (hx : xs.map QM.own = qs.map Query.fields) (hl : ∀ o, e0.o = some o → o ∉ ext) :
    QInv (h.append grow e0.m.intersects xs).1
      (es ++ [⟨{ e0.m with intersects := (h.append grow e0.m.intersects xs).2 },
        { e0.q with intersects := e0.q.intersects ++ qs }, some es.length⟩])
      ((match e0.o with | none => [] | some o => [o]) ++ ext) := by
  have hpos : 0 < xs.length := List.length_pos_iff.2 hxs
  have hnew : ∀ e ∈ es, ∀ o, e.o = some o → o ≠ es.length := by
    intro e he o ho; have := (I.cons e he o ho).2.2.2; omega
  have hnx : es.length ∉ (match e0.o with | none => [] | some o => [o]) ++ ext := by
    intro hm
    rcases List.mem_append.1 hm with hm | hm
    · cases h0 : e0.o with
      | none => rw [h0] at hm; cases hm
      | some o => rw [h0] at hm; have := List.mem_singleton.1 hm; exact hnew e0 he0 o h0 this.symm
    · have := I.ext _ hm; omega
  have hxe : ∀ o, o ∉ (match e0.o with | none => [] | some o => [o]) ++ ext → o ∉ ext ∧ e0.o ≠ some o := by
    intro o ho
    refine ⟨fun hm => ho (List.mem_append_right _ hm), fun hm => ho (List.mem_append_left _ ?_)⟩
    rw [hm]; exact List.mem_singleton.2 rfl
  have hext : ∀ o ∈ (match e0.o with | none => [] | some o => [o]) ++ ext, o < (es ++ [(⟨{ e0.m with intersects := (h.append grow e0.m.intersects xs).2 },
        { e0.q with intersects := e0.q.intersects ++ qs }, some es.length⟩ : QVar T)]).length := by
    intro o hm
    have : o < es.length := by
      rcases List.mem_append.1 hm with hm | hm
      · cases h0 : e0.o with
        | none => rw [h0] at hm; cases hm
        | some o' =>
          rw [h0] at hm; have := List.mem_singleton.1 hm
          rw [this]; exact (I.cons e0 he0 o' h0).2.2.2
      · exact I.ext _ hm
    simp; omega
  generalize hX : (match e0.o with | none => [] | some o => [o]) ++ ext = X at hnx hxe hext ⊢
  by_cases hcap : e0.m.intersects.len + xs.length ≤ e0.m.intersects.cap
  · -- in place: the receiver has parts
    have ho : ∃ o, e0.o = some o := by
      cases h0 : e0.o with
      | none => have := I.nil e0 he0 h0; omega
      | some o => exact ⟨o, rfl⟩
    obtain ⟨o0, ho0⟩ := ho
    have hlive := hl o0 ho0
    have hc0 := I.cons e0 he0 o0 ho0
    have happ : h.append grow e0.m.intersects xs = (h.write e0.m.intersects.arr e0.m.intersects.len xs,
        ⟨e0.m.intersects.arr, e0.m.intersects.len + xs.length, e0.m.intersects.cap⟩) := by
      unfold QMem.append; rw [if_pos hcap]
    rw [happ] at hext ⊢
    have hoth : ∀ e ∈ es, (h.write e0.m.intersects.arr e0.m.intersects.len xs).read e.m.intersects = h.read e.m.intersects := by
      intro e he
      apply QMem.read_write_other
      intro ha
      cases h1 : e.o with
      | none => have := I.nil e he h1; omega
      | some o => exact I.live e0 he0 e he o0 o ho0 hlive h1 ha
    have hdead : ∀ e ∈ es, ∀ o, e.o = some o → o ∉ X → e.m.intersects.arr ≠ e0.m.intersects.arr := by
      intro e he o h1 h2 ha
      have := I.uniq e0 he0 e he o0 o ho0 hlive h1 (hxe o h2).1 ha
      subst this
      exact (hxe o h2).2 ho0
    refine ⟨?_, ?_, ?_, ?_, ?_, ?_, ?_, hext⟩
    · intro e he
      rcases mem_snoc.1 he with he | rfl
      · exact I.own e he
      · exact I.own e0 he0
    · intro e he
      rcases mem_snoc.1 he with he | rfl
      · show (QMem.read _ e.m.intersects).map QM.own = _
        rw [hoth e he]; exact I.val e he
      · show (QMem.read _ (⟨_, _, _⟩ : QSl)).map QM.own = (e0.q.intersects ++ qs).map Query.fields
        rw [QMem.read_write_append, List.map_append, List.map_append, hx, ← I.val e0 he0]
    · intro e he ho
      rcases mem_snoc.1 he with he | rfl
      · exact I.nil e he ho
      · cases ho
    · intro e he o ho
      rcases mem_snoc.1 he with he | rfl
      · have := I.cons e he o ho
        exact ⟨this.1, this.2.1, this.2.2.1, by have := this.2.2.2; simp; omega⟩
      · cases ho
        exact ⟨by show 0 < _ + _; omega, hcap, hc0.2.2.1, by simp⟩
    · intro e he e' he' o ho ho'
      rcases mem_snoc.1 he with he | rfl <;> rcases mem_snoc.1 he' with he' | rfl
      · exact I.same e he e' he' o ho ho'
      · cases ho'; exact absurd rfl (hnew e he _ ho)
      · cases ho; exact absurd rfl (hnew e' he' _ ho')
      · rfl
    · intro e he e' he' o o' ho hx1 ho' ha
      rcases mem_snoc.1 he with he | rfl <;> rcases mem_snoc.1 he' with he' | rfl
      · exact I.live e he e' he' o o' ho (hxe o hx1).1 ho' ha
      · exact absurd ha.symm (hdead e he o ho hx1)
      · have := I.live e0 he0 e' he' o0 o' ho0 hlive ho' ha
        show _ ≤ _ + _; omega
      · exact Nat.le_refl _
    · intro e he e' he' o o' ho hx1 ho' hx1' ha
      rcases mem_snoc.1 he with he | rfl <;> rcases mem_snoc.1 he' with he' | rfl
      · exact I.uniq e he e' he' o o' ho (hxe o hx1).1 ho' (hxe o' hx1').1 ha
      · exact absurd ha.symm (hdead e he o ho hx1)
      · exact absurd ha (hdead e' he' o' ho' hx1')
      · cases ho; cases ho'; rfl
  · -- a new array
    have happ : h.append grow e0.m.intersects xs = ({ h.write h.next 0 (h.read e0.m.intersects ++ xs) with next := h.next + 1 },
        ⟨h.next, e0.m.intersects.len + xs.length, max (grow e0.m.intersects.cap (e0.m.intersects.len + xs.length)) (e0.m.intersects.len + xs.length)⟩) := by
      unfold QMem.append; rw [if_neg hcap]
    rw [happ] at hext ⊢
    have harr : ∀ e ∈ es, ∀ o, e.o = some o → e.m.intersects.arr ≠ h.next := by
      intro e he o ho; have := (I.cons e he o ho).2.2.1; omega
    have hoth : ∀ e ∈ es, (h.write h.next 0 (h.read e0.m.intersects ++ xs)).read e.m.intersects = h.read e.m.intersects := by
      intro e he
      apply QMem.read_write_other
      intro ha
      cases h1 : e.o with
      | none => have := I.nil e he h1; omega
      | some o => exact absurd ha (harr e he o h1)
    refine ⟨?_, ?_, ?_, ?_, ?_, ?_, ?_, hext⟩
    · intro e he
      rcases mem_snoc.1 he with he | rfl
      · exact I.own e he
      · exact I.own e0 he0
    · intro e he
      rcases mem_snoc.1 he with he | rfl
      · show (QMem.read (h.write h.next 0 (h.read e0.m.intersects ++ xs)) e.m.intersects).map QM.own = _
        rw [hoth e he]; exact I.val e he
      · show (QMem.read (h.write h.next 0 (h.read e0.m.intersects ++ xs)) (⟨_, _, _⟩ : QSl)).map QM.own = (e0.q.intersects ++ qs).map Query.fields
        have hlen : e0.m.intersects.len + xs.length = 0 + (h.read e0.m.intersects ++ xs).length := by
          rw [List.length_append, QMem.read_length]; omega
        rw [hlen, QMem.read_write_append]
        show ([] ++ (h.read e0.m.intersects ++ xs)).map QM.own = _
        rw [List.nil_append, List.map_append, List.map_append, hx, ← I.val e0 he0]
    · intro e he ho
      rcases mem_snoc.1 he with he | rfl
      · exact I.nil e he ho
      · cases ho
    · intro e he o ho
      rcases mem_snoc.1 he with he | rfl
      · have := I.cons e he o ho
        exact ⟨this.1, this.2.1, Nat.lt_succ_of_lt this.2.2.1, by have := this.2.2.2; simp; omega⟩
      · cases ho
        exact ⟨by show 0 < _ + _; omega, by show _ + _ ≤ max _ _; omega, Nat.lt_succ_self _, by simp⟩
    · intro e he e' he' o ho ho'
      rcases mem_snoc.1 he with he | rfl <;> rcases mem_snoc.1 he' with he' | rfl
      · exact I.same e he e' he' o ho ho'
      · cases ho'; exact absurd rfl (hnew e he _ ho)
      · cases ho; exact absurd rfl (hnew e' he' _ ho')
      · rfl
    · intro e he e' he' o o' ho hx1 ho' ha
      rcases mem_snoc.1 he with he | rfl <;> rcases mem_snoc.1 he' with he' | rfl
      · exact I.live e he e' he' o o' ho (hxe o hx1).1 ho' ha
      · exact absurd ha.symm (harr e he o ho)
      · exact absurd ha (harr e' he' o' ho')
      · exact Nat.le_refl _
    · intro e he e' he' o o' ho hx1 ho' hx1' ha
      rcases mem_snoc.1 he with he | rfl <;> rcases mem_snoc.1 he' with he' | rfl
      · exact I.uniq e he e' he' o o' ho (hxe o hx1).1 ho' (hxe o' hx1').1 ha
      · exact absurd ha.symm (harr e he o ho)
      · exact absurd ha (harr e' he' o' ho')
      · cases ho; cases ho'; rfl

theorem Spec.set_fields (q : Query T) (c : QCall T) : (Spec.set q c).fields = q.fields.call c := by
  cases c <;> rfl

theorem Spec.set_intersects (q : Query T) (c : QCall T) : (Spec.set q c).intersects = q.intersects := by
  cases c <;> rfl

theorem mapM_vars {h : QMem T} {es : List (QVar T)} {ext : List Nat} (I : QInv h es ext) :
    ∀ (vs : List Nat) (qs : List (Query T)), vs.mapM (fun i => (es.map QVar.q)[i]?) = some qs →
      ∃ xs, vs.mapM (fun i => (es.map QVar.m)[i]?) = some xs ∧ xs.map QM.own = qs.map Query.fields ∧ xs.length = vs.length
  | [], qs, hq => by
    simp only [List.mapM_nil, Option.pure_def, Option.some.injEq] at hq
    subst hq; exact ⟨[], rfl, rfl, rfl⟩
  | v :: vs, qs, hq => by
    rw [List.mapM_cons] at hq
    rw [List.getElem?_map] at hq
    cases he : es[v]? with
    | none => rw [he] at hq; cases hq
    | some e =>
      rw [he] at hq
      cases hr : vs.mapM (fun i => (es.map QVar.q)[i]?) with
      | none => rw [hr] at hq; cases hq
      | some qs' =>
        rw [hr] at hq
        obtain ⟨xs, h1, h2, h3⟩ := mapM_vars I vs qs' hr
        have hq : e.q :: qs' = qs := by simpa using hq
        subst hq
        refine ⟨e.m :: xs, ?_, ?_, ?_⟩
        · rw [List.mapM_cons, List.getElem?_map, he, h1]; rfl
        · rw [List.map_cons, List.map_cons, h2, I.own e (List.mem_of_getElem? he)]
        · simp [h3]

theorem run_inv (q0 : Query T) (h0 : q0.intersects = []) (grow : Nat → Nat → Nat) :
    ∀ (ps : List (QStmt T)) (h : QMem T) (es : List (QVar T)) (ext : List Nat), QInv h es ext →
      Spec.noFork ps (es.map QVar.o) ext = true → ∀ qs, Spec.stmts q0 ps (es.map QVar.q) = some qs →
      ∃ h' es' ext', QStmt.run q0.fields grow ps (h, es.map QVar.m) = some (h', es'.map QVar.m) ∧ es'.map QVar.q = qs ∧
        QInv h' es' ext'
  | [], h, es, ext, I, _, qs, hq => by
    simp only [Spec.stmts, Option.some.injEq] at hq
    exact ⟨h, es, ext, rfl, hq, I⟩
  | .new :: ps, h, es, ext, I, hn, qs, hq => by
    have I1 := I.copy ⟨{ own := q0.fields }, q0, none⟩ rfl (.inr ⟨rfl, h0, rfl⟩)
    have := run_inv q0 h0 grow ps h _ ext I1 (by simpa [Spec.noFork] using hn) qs (by simpa [Spec.stmts, Spec.stmt] using hq)
    obtain ⟨h', es', ext', h1, h2, h3⟩ := this
    exact ⟨h', es', ext', by simpa [QStmt.run, QStmt.step] using h1, h2, h3⟩
  | .call v c :: ps, h, es, ext, I, hn, qs, hq => by
    simp only [Spec.stmts, Spec.stmt, List.getElem?_map] at hq
    cases he : es[v]? with
    | none => rw [he] at hq; cases hq
    | some e =>
      have hm := List.mem_of_getElem? he
      rw [he] at hq
      have I1 := I.copy ⟨{ e.m with own := e.m.own.call c }, Spec.set e.q c, e.o⟩
        (by show e.m.own.call c = _; rw [Spec.set_fields, I.own e hm]) (.inl ⟨e, hm, rfl, Spec.set_intersects _ _, rfl⟩)
      have := run_inv q0 h0 grow ps h _ ext I1 (by simpa [Spec.noFork, he] using hn) qs (by simpa using hq)
      obtain ⟨h', es', ext', h1, h2, h3⟩ := this
      exact ⟨h', es', ext', by simpa [QStmt.run, QStmt.step, he] using h1, h2, h3⟩
  | .intersects v vs :: ps, h, es, ext, I, hn, qs, hq => by
    simp only [Spec.stmts, Spec.stmt] at hq
    cases he : es[v]? with
    | none => rw [List.getElem?_map, he] at hq; cases hq
    | some e =>
      have hm := List.mem_of_getElem? he
      rw [List.getElem?_map, he] at hq
      cases hr : vs.mapM (fun i => (es.map QVar.q)[i]?) with
      | none => rw [hr] at hq; cases hq
      | some rs =>
        rw [hr] at hq
        obtain ⟨xs, k1, k2, k3⟩ := mapM_vars I vs rs hr
        have hstep : QStmt.step q0.fields grow (h, es.map QVar.m) (.intersects v vs) =
            some ((h.append grow e.m.intersects xs).1, es.map QVar.m ++ [{ e.m with intersects := (h.append grow e.m.intersects xs).2 }]) := by
          simp only [QStmt.step, List.getElem?_map, he, Option.map_some]
          simp only [List.getElem?_map] at k1
          simp [k1, QM.addParts]
        cases vs with
        | nil =>
          have hxs : xs = [] := by simpa using k3
          subst hxs
          have hrs : rs = [] := by simpa using hr
          subst hrs
          have hle : e.m.intersects.len ≤ e.m.intersects.cap := by
            cases h1 : e.o with
            | none => have := I.nil e hm h1; omega
            | some o => exact (I.cons e hm o h1).2.1
          have happ : h.append grow e.m.intersects [] = (h, e.m.intersects) := by
            unfold QMem.append
            rw [if_pos (by simpa using hle)]
            simp [QMem.write]
          rw [happ] at hstep
          have I1 := I.copy ⟨e.m, { e.q with intersects := e.q.intersects ++ [] }, e.o⟩
            (I.own e hm) (.inl ⟨e, hm, rfl, List.append_nil _, rfl⟩)
          have := run_inv q0 h0 grow ps h _ ext I1 (by simpa [Spec.noFork, he] using hn) qs (by simpa using hq)
          obtain ⟨h', es', ext', h1, h2, h3⟩ := this
          refine ⟨h', es', ext', ?_, h2, h3⟩
          rw [QStmt.run, hstep]
          simpa using h1
        | cons v1 vs1 =>
          have hxs : xs ≠ [] := by intro hc; subst hc; simp at k3
          have hfork : (∀ o, e.o = some o → o ∉ ext) ∧
              Spec.noFork ps (es.map QVar.o ++ [some es.length]) ((match e.o with | none => [] | some o => [o]) ++ ext) = true := by
            simp only [Spec.noFork, List.getElem?_map, he, Option.map_some, Option.getD_some, List.isEmpty_cons,
              Bool.false_eq_true, if_false] at hn
            cases h1 : e.o with
            | none => rw [h1] at hn; exact ⟨fun o ho => (by cases ho), by simpa using hn⟩
            | some o =>
              rw [h1] at hn
              simp only [Bool.and_eq_true] at hn
              refine ⟨fun o' ho => ?_, by simpa using hn.2⟩
              cases ho
              simpa using hn.1
          have I1 := I.extend grow hm hxs k2 hfork.1
          have := run_inv q0 h0 grow ps _ _ _ I1 (by simpa using hfork.2) qs (by simpa using hq)
          obtain ⟨h', es', ext', h1, h2, h3⟩ := this
          refine ⟨h', es', ext', ?_, h2, h3⟩
          rw [QStmt.run, hstep]
          simpa using h1

/-! ## `Execute` uses only the fields of the parts -/

theorem fields_query_fields (q : Query T) (ps : List (Query T)) : (q.fields.query ps).fields = q.fields := rfl

theorem intersectLoop_fields (t : Table T F) (env : Env T) (db : KV) (ob : Option Batch) :
    ∀ (qs qs' : List (Query T)) (clock : Nat) (m : KV), qs.map Query.fields = qs'.map Query.fields →
      t.intersectLoop env db ob qs clock m = t.intersectLoop env db ob qs' clock m
  | [], [], _, _, _ => rfl
  | [], _ :: _, _, _, h => by simp at h
  | _ :: _, [], _, _, h => by simp at h
  | q :: qs, q' :: qs', clock, m, h => by
    simp only [List.map_cons, List.cons.injEq] at h
    have hi : q.index = q'.index := congrArg QFields.index h.1
    have hs : q.sel = q'.sel := congrArg QFields.sel h.1
    unfold Table.intersectLoop
    rw [hi, hs]
    cases t.iterParts db ob q'.index q'.sel with
    | none => rfl
    | some parts =>
      dsimp only
      cases collectSet env.done (fun k => (m.get k).isSome) parts.flatten clock KV.empty with
      | error e => rfl
      | ok r => exact intersectLoop_fields t env db ob qs qs' r.1 r.2 h.2

theorem checkIntersect_fields : ∀ (qs qs' : List (Query T)), qs.map Query.fields = qs'.map Query.fields →
    qs.all (fun q1 => q1.filter.isNone && q1.less.isNone && q1.after.isNone && q1.offset == 0 && q1.limit == 0) =
      qs'.all (fun q1 => q1.filter.isNone && q1.less.isNone && q1.after.isNone && q1.offset == 0 && q1.limit == 0)
  | [], [], _ => rfl
  | [], _ :: _, h => by simp at h
  | _ :: _, [], h => by simp at h
  | q :: qs, q' :: qs', h => by
    simp only [List.map_cons, List.cons.injEq] at h
    rw [List.all_cons, List.all_cons, checkIntersect_fields qs qs' h.2]
    have h1 : q.filter = q'.filter := congrArg QFields.filter h.1
    have h2 : q.less = q'.less := congrArg QFields.less h.1
    have h3 : q.after = q'.after := congrArg QFields.after h.1
    have h4 : q.offset = q'.offset := congrArg QFields.offset h.1
    have h5 : q.limit = q'.limit := congrArg QFields.limit h.1
    rw [h1, h2, h3, h4, h5]

theorem execute_fields (t : Table T F) (env : Env T) (srt : (T → T → Bool) → List T → List T) (filt : F) (db : KV)
    (ob : Option Batch) (q : Query T) (ps : List (Query T)) (fuel : Nat) (h : ps.map Query.fields = q.intersects.map Query.fields) :
    (q.fields.query ps).execute t env srt filt db ob fuel = q.execute t env srt filt db ob fuel := by
  obtain ⟨i, s, r, f, l, o, lm, a, qs⟩ := q
  simp only at h
  unfold Query.execute
  have hemp : ps.isEmpty = qs.isEmpty := by
    have := congrArg List.length h
    simp only [List.length_map] at this
    cases ps <;> cases qs <;> simp at this ⊢
  simp only [QFields.query, Query.fields, hemp]
  by_cases hq : qs.isEmpty = true
  · rw [if_pos hq, if_pos hq]; rfl
  · rw [if_neg hq, if_neg hq]
    unfold Query.executeIntersect
    have hc : ∀ fs : QFields T, (fs.query ps).checkIntersect = (fs.query qs).checkIntersect := fun fs => checkIntersect_fields ps qs h
    have hi : t.intersect env db ob i s ps = t.intersect env db ob i s qs := by
      unfold Table.intersect
      cases t.iterParts db ob i s with
      | none => rfl
      | some parts =>
        dsimp only
        cases collectSet env.done (fun _ => true) parts.flatten 0 KV.empty with
        | error e => rfl
        | ok r => dsimp only; rw [intersectLoop_fields t env db ob ps qs r.1 r.2 h]
    have hc := hc ⟨i, s, r, f, l, o, lm, a⟩
    simp only [QFields.query] at hc
    simp only [hc, hi]
    have hdf : ∀ vs, t.decodeFilter (⟨i, s, r, f, l, o, lm, a, ps⟩ : Query T) vs = t.decodeFilter (⟨i, s, r, f, l, o, lm, a, qs⟩ : Query T) vs := by
      intro vs
      induction vs with
      | nil => rfl
      | cons v vs ih =>
        unfold Table.decodeFilter
        rw [ih]
    simp only [hdf]
    rfl

end Bond
