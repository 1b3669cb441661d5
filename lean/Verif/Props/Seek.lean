import Verif.Seek
import Verif.Props.Scans
/-
C116: the iterators of a table.
-/
namespace Bond
open Spec
variable {T F : Type}

/-- a call as the user means it: the seeks are given the key of a row -/
inductive Spec.RowOp (T : Type)
  | first | last | next | prev
  | seekGE (x : T)
  | seekLT (x : T)

/-- where a cursor over `rows` stands: before the first, on the `i`-th, or behind the last row -/
inductive Spec.RowPos
  | front | on (i : Nat) | back

open Classical in
/-- how the calls move a cursor over rows that are sorted by `lt`: to the first or last row, one row on or back (from beyond the end
back to the last row, and likewise at the front), to the first row that is not before `x`, to the last row before `x` -/
noncomputable def Spec.rowStep (lt : T → T → Prop) (rows : List T) (p : RowPos) : RowOp T → RowPos
  | .first => if rows = [] then .back else .on 0
  | .last => if rows = [] then .front else .on (rows.length - 1)
  | .next =>
    match p with
    | .front => if rows = [] then .back else .on 0
    | .on i => if i + 1 < rows.length then .on (i + 1) else .back
    | .back => .back
  | .prev =>
    match p with
    | .front => .front
    | .on i => if 0 < i then .on (i - 1) else .front
    | .back => if rows = [] then .front else .on (rows.length - 1)
  | .seekGE x =>
    let before := (rows.filter (fun y => decide (lt y x))).length
    if before < rows.length then .on before else .back
  | .seekLT x =>
    let before := (rows.filter (fun y => decide (lt y x))).length
    if 0 < before then .on (before - 1) else .front

/-- the row under the cursor -/
def Spec.rowAt (rows : List T) : RowPos → Option T
  | .on i => rows[i]?
  | _ => none

/-- the call that is made: seeks are given the key of the row in the index -/
def Spec.RowOp.call (t : Table T F) (idx : Index T) : RowOp T → IterOp
  | .first => .move .first
  | .last => .move .last
  | .next => .move .next
  | .prev => .move .prev
  | .seekGE x => .seekGE (t.indexKey idx x)
  | .seekLT x => .seekLT (t.indexKey idx x)

/-- the call is a seek -/
def Spec.RowOp.isSeek : RowOp T → Bool
  | .seekGE _ => true
  | .seekLT _ => true
  | _ => false

/-- the call says where the iterator goes, whatever happened before -/
def Spec.RowOp.positions : RowOp T → Bool
  | .next => false
  | .prev => false
  | _ => true

/-- selectors with one part -/
def Selector.onePart : Selector T → Bool
  | .point _ => true
  | .range _ _ => true
  | _ => false

/-- What the iterator shows for a row: the key in the index, from which the data key of the row can be computed, and on the
primary index the bytes of the row, which decode to it. -/
def Spec.Shows (t : Table T F) (idx : Index T) : Option (Bytes × Bytes) → Option T → Prop
  | none, none => True
  | some (k, v), some x => k = t.indexKey idx x ∧ toDataKeyBytes k = some (t.key x) ∧ (idx.id = primaryIndexID → t.decode v = .ok x)
  | _, _ => False

/-- position of a cursor in terms of the specification -/
def Pos.toRow : Pos → RowPos
  | .before => .front
  | .at i => .on i
  | .after => .back

theorem findIdx_filter {α : Type} (p : α → Bool) (l : List α) (h : l.Pairwise (fun a b => p b = true → p a = true)) :
    l.findIdx (fun a => !p a) = (l.filter p).length := by
  induction l with
  | nil => rfl
  | cons a l ih =>
    rw [List.pairwise_cons] at h
    rw [List.findIdx_cons]
    cases hp : p a with
    | true => simp [hp, ih h.2]
    | false =>
      have hl : l.filter p = [] := by
        rw [List.filter_eq_nil_iff]
        intro b hb hpb
        have := h.1 b hb hpb
        simp [hp] at this
      simp [hp, hl]

theorem seek_count {t : Table T F} (wf : t.WF) {idx : Index T} (hi : IsIndex t idx) {rows : List T}
    (hs : rows.Pairwise (IdxLt t idx)) (x : T) :
    (rows.map (entryOf t idx)).findIdx (fun e => !blt e.1 (t.indexKey idx x)) =
      (rows.filter (fun y => @decide (IdxLt t idx y x) (Classical.propDecidable _))).length := by
  rw [List.findIdx_map]
  have : ((fun e : Bytes × Bytes => !blt e.1 (t.indexKey idx x)) ∘ entryOf t idx) =
      fun y => !(@decide (IdxLt t idx y x) (Classical.propDecidable _)) := by
    funext y
    simp only [Function.comp_apply, entryOf]
    congr 1
    rw [Bool.eq_iff_iff, indexKey_lt wf hi]
    simp
  rw [this]
  refine findIdx_filter _ _ (hs.imp (fun {a b} hab hb => ?_))
  simp only [decide_eq_true_eq] at hb ⊢
  exact idxLt_trans wf hi hab hb

theorem toRow_specStep {n : Nat} {rows : List T} (hn : rows.length = n) (lt : T → T → Prop) (p : Pos) :
    (MCur.specStep n p .first).toRow = rowStep lt rows p.toRow .first ∧
    (MCur.specStep n p .last).toRow = rowStep lt rows p.toRow .last ∧
    (MCur.specStep n p .next).toRow = rowStep lt rows p.toRow .next ∧
    (MCur.specStep n p .prev).toRow = rowStep lt rows p.toRow .prev := by
  subst hn
  have h0 : rows.length = 0 ↔ rows = [] := List.length_eq_zero_iff
  refine ⟨?_, ?_, ?_, ?_⟩
  · by_cases h : rows = []
    · simp [MCur.specStep, Pos.first, rowStep, h, Pos.toRow]
    · simp [MCur.specStep, Pos.first, rowStep, h, Pos.toRow]
  · by_cases h : rows = []
    · simp [MCur.specStep, Pos.last, rowStep, h, Pos.toRow]
    · simp [MCur.specStep, Pos.last, rowStep, h, Pos.toRow]
  · cases p with
    | before =>
      by_cases h : rows = []
      · simp [MCur.specStep, Pos.next, Pos.first, rowStep, h, Pos.toRow]
      · simp [MCur.specStep, Pos.next, Pos.first, rowStep, h, Pos.toRow]
    | «at» i =>
      by_cases h : i + 1 < rows.length
      · simp [MCur.specStep, Pos.next, rowStep, h, Pos.toRow]
      · simp [MCur.specStep, Pos.next, rowStep, h, Pos.toRow]
    | after => rfl
  · cases p with
    | before => rfl
    | «at» i =>
      by_cases h : i = 0
      · simp [MCur.specStep, Pos.prev, rowStep, Pos.toRow, h]
      · simp [MCur.specStep, Pos.prev, rowStep, Pos.toRow, h, Nat.pos_of_ne_zero h]
    | after =>
      by_cases h : rows = []
      · simp [MCur.specStep, Pos.prev, Pos.last, rowStep, h, Pos.toRow]
      · simp [MCur.specStep, Pos.prev, Pos.last, rowStep, h, Pos.toRow]

/-- the iterator stands where the cursor stands -/
def UserIter.At (t : Table T F) (idx : Index T) (rows : List T) (it : UserIter) (p : RowPos) : Prop :=
  match it with
  | .single entries pos => entries = rows.map (entryOf t idx) ∧ pos.toRow = p
  | .multi parts c => parts ≠ [] ∧ parts.flatten = rows.map (entryOf t idx) ∧ MCur.Rest parts c ∧ (MCur.abs parts c).toRow = p

theorem UserIter.At.step {t : Table T F} (wf : t.WF) {idx : Index T} (hi : IsIndex t idx) {rows : List T} {it : UserIter} {p : RowPos}
    (h : it.At t idx rows p) (op : RowOp T)
    (hop : op.isSeek = false ∨ ((∃ e q, it = .single e q) ∧ rows.Pairwise (IdxLt t idx))) :
    ∃ it', it.step (op.call t idx) = some it' ∧ it'.At t idx rows (rowStep (IdxLt t idx) rows p op) ∧
      ((∃ e q, it = .single e q) → ∃ e q, it' = .single e q) := by
  cases it with
  | single entries pos =>
    obtain ⟨rfl, rfl⟩ := h
    have hn : rows.length = (rows.map (entryOf t idx)).length := by simp
    obtain ⟨h1, h2, h3, h4⟩ := toRow_specStep hn (IdxLt t idx) pos
    cases op with
    | first => exact ⟨_, rfl, ⟨rfl, h1⟩, fun _ => ⟨_, _, rfl⟩⟩
    | last => exact ⟨_, rfl, ⟨rfl, h2⟩, fun _ => ⟨_, _, rfl⟩⟩
    | next => exact ⟨_, rfl, ⟨rfl, h3⟩, fun _ => ⟨_, _, rfl⟩⟩
    | prev => exact ⟨_, rfl, ⟨rfl, h4⟩, fun _ => ⟨_, _, rfl⟩⟩
    | seekGE x =>
      have hs := (hop.resolve_left (by simp [RowOp.isSeek])).2
      refine ⟨_, rfl, ⟨rfl, ?_⟩, fun _ => ⟨_, _, rfl⟩⟩
      simp only [seekGEPos, seek_count wf hi hs x, rowStep, List.length_map]
      split <;> rfl
    | seekLT x =>
      have hs := (hop.resolve_left (by simp [RowOp.isSeek])).2
      refine ⟨_, rfl, ⟨rfl, ?_⟩, fun _ => ⟨_, _, rfl⟩⟩
      simp only [seekLTPos, seek_count wf hi hs x, rowStep]
      split
      · rename_i h0; simp [h0, Pos.toRow]
      · rename_i h0; simp [Nat.pos_of_ne_zero h0, Pos.toRow]
  | multi parts c =>
    obtain ⟨hne, hf, hr, rfl⟩ := h
    have hn : rows.length = parts.flatten.length := by rw [hf]; simp
    obtain ⟨h1, h2, h3, h4⟩ := toRow_specStep hn (IdxLt t idx) (MCur.abs parts c)
    have hcon : ¬ ((∃ e q, UserIter.multi parts c = .single e q) ∧ rows.Pairwise (IdxLt t idx)) := by
      rintro ⟨⟨_, _, he⟩, _⟩; cases he
    have hcon' : (∃ e q, UserIter.multi parts c = .single e q) → ∃ e q, (UserIter.multi parts c) = .single e q := id
    cases op with
    | first =>
      obtain ⟨a, b⟩ := MCur.first_spec parts hne c
      exact ⟨_, rfl, ⟨hne, hf, a, by rw [show MCur.step parts c .first = c.first parts from rfl, b]; exact h1⟩, fun ⟨_, _, he⟩ => by cases he⟩
    | last =>
      obtain ⟨a, b⟩ := MCur.last_spec parts hne c
      exact ⟨_, rfl, ⟨hne, hf, a, by rw [show MCur.step parts c .last = c.last parts from rfl, b]; exact h2⟩, fun ⟨_, _, he⟩ => by cases he⟩
    | next =>
      obtain ⟨a, b⟩ := MCur.next_spec parts hne c hr
      exact ⟨_, rfl, ⟨hne, hf, a, by rw [show MCur.step parts c .next = c.next parts from rfl, b]; exact h3⟩, fun ⟨_, _, he⟩ => by cases he⟩
    | prev =>
      obtain ⟨a, b⟩ := MCur.prev_spec parts hne c hr
      exact ⟨_, rfl, ⟨hne, hf, a, by rw [show MCur.step parts c .prev = c.prev parts from rfl, b]; exact h4⟩, fun ⟨_, _, he⟩ => by cases he⟩
    | seekGE x => exact absurd (hop.resolve_left (by simp [RowOp.isSeek])) hcon
    | seekLT x => exact absurd (hop.resolve_left (by simp [RowOp.isSeek])) hcon

theorem UserIter.At.steps {t : Table T F} (wf : t.WF) {idx : Index T} (hi : IsIndex t idx) {rows : List T} (ops : List (RowOp T))
    {it : UserIter} {p : RowPos} (h : it.At t idx rows p)
    (hop : (∀ op ∈ ops, op.isSeek = false) ∨ ((∃ e q, it = .single e q) ∧ rows.Pairwise (IdxLt t idx))) :
    ∃ it', it.steps (ops.map (·.call t idx)) = some it' ∧ it'.At t idx rows (ops.foldl (rowStep (IdxLt t idx) rows) p) := by
  induction ops generalizing it p with
  | nil => exact ⟨it, rfl, h⟩
  | cons op ops ih =>
    obtain ⟨it1, e1, h1, h2⟩ := h.step wf hi op (hop.imp (fun g => g op (by simp)) id)
    obtain ⟨it2, e2, h3⟩ := ih h1 (hop.imp (fun g o ho => g o (by simp [ho])) (fun g => ⟨h2 g.1, g.2⟩))
    exact ⟨it2, by rw [List.map_cons, UserIter.steps, e1]; exact e2, h3⟩

theorem UserIter.At.shows {t : Table T F} (wf : t.WF) (rt : t.RoundTripFresh) {idx : Index T} (hi : IsIndex t idx) {rows : List T}
    (hser : ∀ x ∈ rows, (t.ser x).isSome) {it : UserIter} {p : RowPos} (h : it.At t idx rows p) :
    Shows t idx it.entry (rowAt rows p) := by
  have key : ∀ q : Pos, Shows t idx (MCur.specEntry (rows.map (entryOf t idx)) q) (rowAt rows q.toRow) := by
    intro q
    cases q with
    | before => trivial
    | after => trivial
    | «at» i =>
      simp only [MCur.specEntry, Pos.toRow, rowAt, List.getElem?_map]
      cases hx : rows[i]? with
      | none => trivial
      | some x =>
        obtain ⟨b, hb⟩ := Option.isSome_iff_exists.1 (hser x (List.mem_of_getElem? hx))
        refine ⟨rfl, toDataKey_indexKey wf hi x, fun hid => ?_⟩
        simp only [if_pos hid, hb, Option.getD_some, Table.decode, rt x b hb]
  cases it with
  | single entries pos =>
    obtain ⟨rfl, rfl⟩ := h
    exact key pos
  | multi parts c =>
    obtain ⟨_, hf, hr, rfl⟩ := h
    have := key (MCur.abs parts c)
    rw [← hf, ← MCur.entry_spec parts c hr] at this
    exact this

/-- C116 (part): an iterator obtained with `Iter` for a selector, moved by any calls of which the first positions it, shows what a
cursor over the selected rows in the order of the scan would show after the same calls. Seeks only on selectors with one part (C116_refuted). -/
theorem C116_partial {t : Table T F} {env : Env T} {filt : F} {db : KV} {ob : Option Batch} {m : Rows T}
    (S : Setting t env filt db ob m) {idx : Index T} (hi : IsIndex t idx) {sel : Selector T} (hs : sel.OK idx) :
    ∃ rows, Yields t env filt db ob idx sel false rows ∧
      ∃ it, t.iter db ob idx sel = some it ∧
        ∀ (op : RowOp T) (ops : List (RowOp T)), op.positions = true → (sel.onePart = true ∨ ∀ o ∈ op :: ops, o.isSeek = false) →
          ∃ it', it.steps ((op :: ops).map (·.call t idx)) = some it' ∧
            Shows t idx it'.entry (rowAt rows ((op :: ops).foldl (rowStep (IdxLt t idx) rows) .front)) := by
  obtain ⟨V, hr, hH⟩ := S.content
  obtain ⟨h1, h2⟩ := iterBounds_eq S.wf hi hs
  obtain ⟨parts, hp1, hp2⟩ := scan_parts S.wf hi hH _ h2
  have hser : ∀ x ∈ parts.flatten, (t.ser x).isSome := by
    intro x hx
    obtain ⟨b, hb, _⟩ := hH.present _ x (hp2.indexed x hx).1
    simp [hb]
  have hparts : t.iterParts db ob idx sel = some (parts.map (fun rows => rows.map (entryOf t idx))) := by
    unfold Table.iterParts
    rw [h1, Option.map_some, ← hp1]
    unfold iterEntries
    rw [hr]
  have hfl : (parts.map (fun rows => rows.map (entryOf t idx))).flatten = parts.flatten.map (entryOf t idx) := by
    rw [List.map_flatten]
  refine ⟨parts.flatten, ⟨parts.flatten.length, fun fuel hf tr => by
    simpa [dir] using scanIndex_eq S.wf S.rt S.ok S.alive S.prefetch hi hr hH S.covers h1 h2 hp2 false tr hf⟩, ?_⟩
  have one : ∀ b, boundsOf t idx sel = [b] →
      ∀ (op : RowOp T) (ops : List (RowOp T)), op.positions = true →
        ∃ it', (UserIter.single ((parts.map (fun rows => rows.map (entryOf t idx))).headD []) .before).steps
            ((op :: ops).map (·.call t idx)) = some it' ∧
          Shows t idx it'.entry (rowAt parts.flatten ((op :: ops).foldl (rowStep (IdxLt t idx) parts.flatten) .front)) := by
    intro b hb op ops _
    rw [hb] at hp2
    cases hp2 with
    | cons a c =>
      cases c
      simp only [List.flatten_cons, List.flatten_nil, List.append_nil] at hser ⊢
      obtain ⟨it', e, hat⟩ := UserIter.At.steps S.wf hi (op :: ops) (it := .single ((List.map _ _)) .before) (p := .front) ⟨rfl, rfl⟩
        (Or.inr ⟨⟨_, _, rfl⟩, a.1⟩)
      exact ⟨it', e, hat.shows S.wf S.rt hi hser⟩
  have more : parts ≠ [] → ∀ (op : RowOp T) (ops : List (RowOp T)), op.positions = true → (∀ o ∈ op :: ops, o.isSeek = false) →
        ∃ it', (UserIter.multi (parts.map (fun rows => rows.map (entryOf t idx))) ⟨0, .before⟩).steps
            ((op :: ops).map (·.call t idx)) = some it' ∧
          Shows t idx it'.entry (rowAt parts.flatten ((op :: ops).foldl (rowStep (IdxLt t idx) parts.flatten) .front)) := by
    intro hne op ops hop hno
    have hne' : parts.map (fun rows => rows.map (entryOf t idx)) ≠ [] := by simpa using hne
    have hn : parts.flatten.length = (parts.map (fun rows => rows.map (entryOf t idx))).flatten.length := by rw [hfl, List.length_map]
    obtain ⟨g1, g2, _, _⟩ := toRow_specStep hn (IdxLt t idx) .before
    have start : ∃ it1, (UserIter.multi (parts.map (fun rows => rows.map (entryOf t idx))) ⟨0, .before⟩).step (op.call t idx) = some it1 ∧
        it1.At t idx parts.flatten (rowStep (IdxLt t idx) parts.flatten .front op) := by
      cases op with
      | first =>
        obtain ⟨a, b⟩ := MCur.first_spec _ hne' ⟨0, .before⟩
        exact ⟨_, rfl, hne', hfl, a, by rw [show MCur.step _ _ .first = MCur.first _ _ from rfl, b]; exact g1⟩
      | last =>
        obtain ⟨a, b⟩ := MCur.last_spec _ hne' ⟨0, .before⟩
        exact ⟨_, rfl, hne', hfl, a, by rw [show MCur.step _ _ .last = MCur.last _ _ from rfl, b]; exact g2⟩
      | next => cases hop
      | prev => cases hop
      | seekGE x => have := hno _ (List.mem_cons_self ..); cases this
      | seekLT x => have := hno _ (List.mem_cons_self ..); cases this
    obtain ⟨it1, e1, hat1⟩ := start
    obtain ⟨it', e, hat⟩ := UserIter.At.steps S.wf hi ops hat1 (Or.inl fun o ho => hno o (by simp [ho]))
    exact ⟨it', by rw [List.map_cons, UserIter.steps, e1]; exact e, hat.shows S.wf S.rt hi hser⟩
  have hbs : (boundsOf t idx sel) ≠ [] := by
    have := hs.1
    cases sel with
    | point p => simp [boundsOf]
    | range lo up => simp [boundsOf]
    | points ps => intro e; simp [boundsOf] at e; subst e; simp [Selector.elems] at this
    | ranges rs => intro e; simp [boundsOf] at e; subst e; simp [Selector.elems] at this
  have hne : parts ≠ [] := by
    rintro rfl
    have := congrArg List.length hp1
    simp at this
    exact hbs this
  unfold Table.iter
  rw [hparts, Option.map_some]
  cases sel with
  | point p => exact ⟨_, rfl, fun op ops hop _ => one _ rfl op ops hop⟩
  | range lo up => exact ⟨_, rfl, fun op ops hop _ => one _ rfl op ops hop⟩
  | points ps => exact ⟨_, rfl, fun op ops hop h => more hne op ops hop (h.resolve_left (by simp [Selector.onePart]))⟩
  | ranges rs => exact ⟨_, rfl, fun op ops hop h => more hne op ops hop (h.resolve_left (by simp [Selector.onePart]))⟩

/-- C116 is false as stated: on a table with two rows, `SeekGE` on the iterator of a selector with several points panics, whatever
key is sought and whatever was called before. -/
theorem C116_refuted : ∃ it, exTable.iter exDB none exIndex (.points [(0, 5), (0, 6)]) = some it ∧
    ((it.steps [.move .first]).bind (·.entry)).map Prod.fst = some (exTable.indexKey exIndex (1, 5)) ∧
    ∀ key, it.steps [.move .first, .seekGE key] = none ∧ it.steps [.move .first, .seekLT key] = none :=
  ⟨_, rfl, by decide +kernel, fun _ => ⟨rfl, rfl⟩⟩

example : ((exTable.iter exDB none exIndex (.range (0, 0) (9, 9))).bind
    (·.steps [.move .first, .move .next, .seekLT (exTable.indexKey exIndex (2, 6)), .move .next])).bind (·.entry) =
    some (exTable.indexKey exIndex (2, 6), []) := by decide +kernel

example : ∃ rows, Yields exTable (stdEnv exTable) () exDB none exIndex (.range (0, 0) (9, 9)) false rows :=
  let ⟨rows, h, _⟩ := C116_partial exSetting exIndex_is exRange_ok; ⟨rows, h⟩

end Bond
