import Verif.Pool
/-
Property C45: buffer pools.
-/
namespace Bond

/-- all buffers anywhere, without repetition, all allocated; the preallocated list within its size and full but for what is held -/
structure PoolInv (s : Pool × List Nat) : Prop where
  nodup : (s.2 ++ s.1.pre ++ s.1.bag).Nodup
  alloc : ∀ x ∈ s.2 ++ s.1.pre ++ s.1.bag, x < s.1.next
  le : s.1.pre.length ≤ s.1.size
  full : s.1.size ≤ s.1.pre.length + s.2.length

theorem pool_new (size : Nat) : Pool.new size = ⟨List.range size, size, [], size⟩ := by
  unfold Pool.new
  have : ∀ n, (List.range n).foldl (fun p _ => let r := p.syncGet none; { r.2 with pre := p.pre ++ [r.1] }) (⟨[], size, [], 0⟩ : Pool) =
      ⟨List.range n, size, [], n⟩ := by
    intro n
    induction n with
    | zero => rfl
    | succ n ih => rw [List.range_succ, List.foldl_append, ih]; simp [Pool.syncGet]
  exact this size

theorem poolInv_new (size : Nat) : PoolInv (Pool.new size, []) := by
  rw [pool_new]
  exact ⟨by simpa using List.nodup_range, by simp, by simp, by simp⟩

/-- what Get returns and leaves -/
theorem pool_get_cases {p : Pool} {held : List Nat} (hi : PoolInv (p, held)) (c : Option Nat) :
    (∃ init, p.pre = init ++ [(p.get c).1] ∧ (p.get c).2 = { p with pre := init }) ∨
    (p.pre = [] ∧ (p.get c).1 ∈ p.bag ∧ (p.get c).2 = { p with bag := p.bag.erase (p.get c).1 }) ∨
    (p.pre = [] ∧ (p.get c).1 = p.next ∧ (p.get c).2 = { p with next := p.next + 1 }) := by
  unfold Pool.get
  cases hl : p.pre.getLast? with
  | some x =>
    left
    refine ⟨p.pre.dropLast, ?_, rfl⟩
    obtain ⟨ys, hy⟩ := List.getLast?_eq_some_iff.1 hl
    simp [hy]
  | none =>
    right
    have hp : p.pre = [] := List.getLast?_eq_none_iff.1 hl
    unfold Pool.syncGet
    cases c with
    | none => right; exact ⟨hp, rfl, rfl⟩
    | some x =>
      by_cases hx : x ∈ p.bag
      · left; simp [hx, hp]
      · right; simp [hx, hp]

theorem poolInv_act {s : Pool × List Nat} (hi : PoolInv s) (a : PoolAct) : PoolInv (Pool.act s a) := by
  obtain ⟨p, held⟩ := s
  cases a with
  | get c =>
    simp only [Pool.act]
    rcases pool_get_cases hi c with ⟨init, h1, h2⟩ | ⟨h1, h2, h3⟩ | ⟨h1, h2, h3⟩
    · rw [h2]
      generalize (p.get c).1 = x at *
      obtain ⟨hn, ha, hl, hf⟩ := hi
      simp only [h1] at hn ha hl hf
      refine ⟨?_, ?_, ?_, ?_⟩
      · refine (List.Perm.nodup_iff ?_).1 hn
        have := List.perm_middle (l₁ := held ++ init) (l₂ := p.bag) (a := x)
        simpa using this
      · intro y hy
        apply ha
        simp at hy ⊢
        rcases hy with h | h | h | h <;> simp [h]
      · simp at hl ⊢; omega
      · simp at hf ⊢; omega
    · rw [h3]
      generalize (p.get c).1 = x at *
      obtain ⟨hn, ha, hl, hf⟩ := hi
      simp only [h1] at hn ha hl hf
      refine ⟨?_, ?_, by simp [h1], by simp [h1] at hf ⊢; omega⟩
      · simp only [h1]
        refine (List.Perm.nodup_iff ?_).1 hn
        simp only [List.append_nil, List.cons_append]
        exact ((List.perm_cons_erase h2).append_left held).trans List.perm_middle
      · intro y hy
        apply ha
        simp [h1] at hy ⊢
        rcases hy with rfl | h | h
        · exact Or.inr h2
        · exact Or.inl h
        · exact Or.inr (List.mem_of_mem_erase h)
    · rw [h3]
      rw [h2]
      obtain ⟨hn, ha, hl, hf⟩ := hi
      refine ⟨?_, ?_, hl, by simp at hf ⊢; omega⟩
      · simp only [List.cons_append, List.nodup_cons]
        exact ⟨fun h => Nat.lt_irrefl _ (ha _ h), hn⟩
      · intro y hy
        simp only [List.cons_append, List.mem_cons] at hy
        rcases hy with rfl | h
        · simp
        · have := ha y h
          simp at this ⊢; omega
  | put x =>
    simp only [Pool.act]
    by_cases hx : x ∈ held
    · rw [if_pos hx]
      obtain ⟨hn, ha, hl, hf⟩ := hi
      have hlen : 0 < held.length := List.length_pos_iff.2 (List.ne_nil_of_mem hx)
      have he := List.length_erase_of_mem hx
      have hperm : held.Perm (x :: held.erase x) := List.perm_cons_erase hx
      unfold Pool.put
      by_cases hlt : p.pre.length < p.size
      · rw [if_pos hlt]
        refine ⟨?_, ?_, by simp; omega, by simp [he]; simp at hf; omega⟩
        · refine (List.Perm.nodup_iff ?_).1 hn
          refine ((hperm.append_right p.pre).append_right p.bag).trans ?_
          have := (List.perm_middle (l₁ := held.erase x ++ p.pre) (l₂ := p.bag) (a := x)).symm
          simpa using this
        · intro y hy
          apply ha
          simp at hy ⊢
          rcases hy with h | h | rfl | h
          · exact Or.inl (List.mem_of_mem_erase h)
          · simp [h]
          · exact Or.inl hx
          · simp [h]
      · rw [if_neg hlt]
        refine ⟨?_, ?_, hl, by simp [he] at hf ⊢; omega⟩
        · refine (List.Perm.nodup_iff ?_).1 hn
          refine ((hperm.append_right p.pre).append_right p.bag).trans ?_
          simp only [List.cons_append, ← List.append_assoc]
          exact List.perm_append_singleton x _ |>.symm
        · intro y hy
          apply ha
          simp at hy ⊢
          rcases hy with h | h | h | rfl
          · exact Or.inl (List.mem_of_mem_erase h)
          · simp [h]
          · simp [h]
          · exact Or.inl hx
    · rw [if_neg hx]; exact hi
  | gc x =>
    obtain ⟨hn, ha, hl, hf⟩ := hi
    refine ⟨?_, ?_, hl, hf⟩
    · exact List.Nodup.sublist ((List.Sublist.refl _).append List.erase_sublist) hn
    · intro y hy
      apply ha
      simp only [Pool.act, List.mem_append] at hy ⊢
      rcases hy with h | h
      · exact Or.inl h
      · exact Or.inr (List.mem_of_mem_erase h)

theorem poolInv_run (size : Nat) (acts : List PoolAct) : PoolInv (Pool.run size acts) := by
  have : ∀ (acts : List PoolAct) s, PoolInv s → PoolInv (acts.foldl Pool.act s) := by
    intro acts
    induction acts with
    | nil => intro s h; exact h
    | cons a acts ih => intro s h; exact ih _ (poolInv_act h a)
  exact this acts _ (poolInv_new size)

/-- C45: after any history, Get returns a buffer that nobody holds, whatever sync.Pool chooses. -/
theorem C45_fresh (size : Nat) (acts : List PoolAct) (c : Option Nat) :
    ((Pool.run size acts).1.get c).1 ∉ (Pool.run size acts).2 := by
  have hi := poolInv_act (poolInv_run size acts) (.get c)
  have := hi.nodup
  simp only [Pool.act, List.cons_append, List.nodup_cons] at this
  intro h
  exact this.1 (by simp [h])

/-- C45: the buffers held at any time are pairwise different, and the preallocated list never exceeds its size. -/
theorem C45_held (size : Nat) (acts : List PoolAct) :
    (Pool.run size acts).2.Nodup ∧ (Pool.run size acts).1.pre.length ≤ size := by
  have hi := poolInv_run size acts
  have hs : ∀ (acts : List PoolAct) (s : Pool × List Nat), ((acts.foldl Pool.act s).1 : Pool).size = s.1.size := by
    intro acts
    induction acts with
    | nil => intro s; rfl
    | cons a acts ih =>
      intro s
      rw [List.foldl_cons, ih]
      cases a with
      | get c =>
        simp only [Pool.act, Pool.get]
        split
        · rfl
        · unfold Pool.syncGet
          split
          · split <;> rfl
          · rfl
      | put x =>
        simp only [Pool.act]
        split
        · unfold Pool.put; split <;> rfl
        · rfl
      | gc x => rfl
  refine ⟨?_, ?_⟩
  · have := hi.nodup
    rw [List.append_assoc, List.nodup_append] at this
    exact this.1
  · have := hi.le
    have h2 : (Pool.run size acts).1.size = size := by
      rw [Pool.run, hs, pool_new]
    omega

/-- C45: Get allocates nothing while fewer than `size` buffers are held. -/
theorem C45_prealloc (size : Nat) (acts : List PoolAct) (c : Option Nat) (h : (Pool.run size acts).2.length < (Pool.run size acts).1.size) :
    ((Pool.run size acts).1.get c).2.next = (Pool.run size acts).1.next := by
  have hi := poolInv_run size acts
  generalize Pool.run size acts = s at *
  obtain ⟨p, held⟩ := s
  rcases pool_get_cases hi c with ⟨init, h1, h2⟩ | ⟨h1, h2, h3⟩ | ⟨h1, h2, h3⟩
  · rw [h2]
  · rw [h3]
  · have := hi.full
    simp [h1] at this h
    omega

example : Pool.run 2 [.get none, .get none, .get none, .put 0, .put 1, .put 2, .get none, .get none, .get (some 2)] =
    (⟨[], 2, [], 3⟩, [2, 0, 1]) := by decide

/-- C45's condition on clients is needed: putting a buffer back twice makes the pool hand it to two clients at once. -/
theorem C45_double_put : let p := (Pool.new 2).get none
    let q := (p.2.get none).2
    let r := (q.put p.1).put p.1
    (r.get none).1 = ((r.get none).2.get none).1 := by decide

end Bond
