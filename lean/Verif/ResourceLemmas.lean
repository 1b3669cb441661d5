import Verif.Resources
/- Lemmas on Verif.Resources: what a piece of code does to the held resources, composed from its parts. -/
namespace Bond
open RM

/-- exactly `l` is held, and nothing wrong was done since `s` -/
def Holds.Now (s s' : RSt) (l : List Res) : Prop := s'.bad = s.bad ∧ s'.held.Perm l

/-- the outcome: `post` on top of `h` after a value, `h` after an error and, if `pan`, after a panic -/
def Holds.After {α : Type} (pan : Bool) (s : RSt) (h : List Res) (post : α → List Res) (r : ResOut α × RSt) : Prop :=
  (∀ a, r.1 = .ok a → Holds.Now s r.2 (post a ++ h)) ∧ (r.1 = .err → Holds.Now s r.2 h) ∧
    (pan = true → r.1 = .panic → Holds.Now s r.2 h)

/-- `m`, run while `pre` is held on top of any other resources (which include `B`), leaves `post` on top of the same
others if it ends with a value, and nothing on top of them if it ends with an error; if `pan`, also if it panics. It uses
and gives back only what is held. -/
def Moves {α : Type} (pan : Bool) (B pre : List Res) (m : RM α) (post : α → List Res) : Prop :=
  ∀ (s : RSt) (h : List Res), s.held.Perm (pre ++ h) → B ⊆ h → Holds.After pan s h post (m s)

/-- nothing on top before and after -/
abbrev Tidy {α : Type} (pan : Bool) (B : List Res) (m : RM α) : Prop := Moves pan B [] m (fun _ => [])

theorem Holds.after_ok {α : Type} {pan : Bool} {s s' : RSt} {h : List Res} {post : α → List Res} {a : α}
    (hn : Holds.Now s s' (post a ++ h)) : Holds.After pan s h post (.ok a, s') :=
  ⟨fun b e => by cases e; exact hn, fun e => (nomatch e), fun _ e => (nomatch e)⟩

theorem Holds.after_err {α : Type} {pan : Bool} {s s' : RSt} {h : List Res} {post : α → List Res}
    (hn : Holds.Now s s' h) : Holds.After pan s h post (.err, s') :=
  ⟨fun _ e => (nomatch e), fun _ => hn, fun _ e => (nomatch e)⟩

theorem Holds.after_panic {α : Type} {pan : Bool} {s s' : RSt} {h : List Res} {post : α → List Res}
    (hn : pan = true → Holds.Now s s' h) : Holds.After pan s h post (.panic, s') :=
  ⟨fun _ e => (nomatch e), fun e => (nomatch e), fun p _ => hn p⟩

open Holds

namespace Moves
variable {α β : Type} {pan : Bool} {B pre : List Res}

theorem pure (a : α) {post : α → List Res} (e : post a = pre) : Moves pan B pre (RM.pure a) post := by
  intro s h hp _
  exact after_ok ⟨rfl, by simpa [e] using hp⟩

theorem bind {m : RM α} {f : α → RM β} {mid : α → List Res} {post : β → List Res}
    (hm : Moves pan B pre m mid) (hf : ∀ a, Moves pan B (mid a) (f a) post) :
    Moves pan B pre (m >>= f) post := by
  intro s h hp hB
  have h1 := hm s h hp hB
  show After pan s h post (RM.bind m f s)
  unfold RM.bind
  revert h1
  rcases m s with ⟨o, s'⟩
  intro h1
  cases o with
  | ok a =>
    have h0 := h1.1 a rfl
    have h2 := hf a s' h h0.2 hB
    refine ⟨fun b e => ?_, fun e => ?_, fun p e => ?_⟩
    · exact ⟨(h2.1 b e).1.trans h0.1, (h2.1 b e).2⟩
    · exact ⟨(h2.2.1 e).1.trans h0.1, (h2.2.1 e).2⟩
    · exact ⟨(h2.2.2 p e).1.trans h0.1, (h2.2.2 p e).2⟩
  | err => exact after_err (h1.2.1 rfl)
  | panic => exact after_panic (fun p => h1.2.2 p rfl)

theorem fail (e : pre = []) {post : α → List Res} : Moves pan B pre (RM.fail : RM α) post := by
  intro s h hp _
  rw [e] at hp
  exact after_err ⟨rfl, hp⟩

theorem panicN {post : α → List Res} : Moves false B pre (RM.panic : RM α) post := by
  intro s h _ _
  exact after_panic (fun h => nomatch h)

theorem panicE (e : pre = []) {post : α → List Res} : Moves pan B pre (RM.panic : RM α) post := by
  intro s h hp _
  rw [e] at hp
  exact after_panic (fun _ => ⟨rfl, hp⟩)

theorem choose : Moves pan B pre RM.choose (fun _ => pre) := by
  intro s h hp _
  exact after_ok ⟨rfl, hp⟩

theorem acquire (k : ResKind) : Moves pan B pre (RM.acquire k) (fun r => r :: pre) := by
  intro s h hp _
  exact after_ok ⟨rfl, hp.cons _⟩

theorem release {r : Res} {pre : List Res} : Moves pan B (r :: pre) (RM.release r) (fun _ => pre) := by
  intro s h hp _
  have hr : r ∈ s.held := hp.mem_iff.2 (by simp)
  unfold RM.release
  rw [if_pos hr]
  exact after_ok ⟨rfl, by simpa using hp.erase r⟩

theorem touch {r : Res} (hr : r ∈ B ∨ r ∈ pre) : Moves pan B pre (RM.touch r) (fun _ => pre) := by
  intro s h hp hB
  have hr' : r ∈ s.held := hp.mem_iff.2 (by
    rcases hr with hr | hr
    · exact List.mem_append.2 (.inr (hB hr))
    · exact List.mem_append.2 (.inl hr))
  unfold RM.touch
  rw [if_pos hr']
  exact after_ok ⟨rfl, hp⟩

theorem perm {pre' : List Res} {m : RM α} {post : α → List Res} (hm : Moves pan B pre m post)
    (e : pre'.Perm pre) : Moves pan B pre' m post :=
  fun s h hp hB => hm s h (hp.trans (e.append_right h)) hB

theorem post_perm {m : RM α} {post post' : α → List Res} (hm : Moves pan B pre m post)
    (e : ∀ a, (post a).Perm (post' a)) : Moves pan B pre m post' := by
  intro s h hp hB
  have := hm s h hp hB
  exact ⟨fun a ha => ⟨(this.1 a ha).1, (this.1 a ha).2.trans ((e a).append_right h)⟩, this.2⟩

theorem ite {c : Prop} [Decidable c] {m m' : RM α} {post : α → List Res}
    (h1 : Moves pan B pre m post) (h2 : Moves pan B pre m' post) :
    Moves pan B pre (if c then m else m') post := by
  split
  · exact h1
  · exact h2

/-- an error seen by the code: what else is held stays -/
theorem attempt {m : RM α} {post : α → List Res} (hm : Moves pan B [] m post) (hl : pan = false ∨ pre = []) :
    Moves pan B pre (RM.attempt m) (fun o => o.elim pre (fun a => post a ++ pre)) := by
  intro s h hp hB
  have h1 := hm s (pre ++ h) hp (fun x hx => List.mem_append.2 (.inr (hB hx)))
  unfold RM.attempt
  revert h1
  rcases m s with ⟨o, s'⟩
  intro h1
  cases o with
  | ok a =>
    have := h1.1 a rfl
    exact after_ok ⟨this.1, by simpa using this.2⟩
  | err => exact after_ok (h1.2.1 rfl)
  | panic =>
    refine after_panic (fun hpt => ?_)
    rcases hl with hl | hl
    · rw [hl] at hpt; cases hpt
    · simpa [hl] using h1.2.2 hpt rfl

theorem withRes {k : ResKind} {body : Res → RM α} (hb : ∀ r, Moves pan (r :: B) pre (body r) (fun _ => [])) :
    Moves pan B pre (RM.withRes k body) (fun _ => []) := by
  intro s h hp hB
  unfold RM.withRes
  simp only [RM.acquire]
  have h1 := hb (s.next, k) { s with next := s.next + 1, held := (s.next, k) :: s.held } ((s.next, k) :: h)
    ((hp.cons _).trans List.perm_middle.symm) (by
      intro x hx
      rcases List.mem_cons.1 hx with rfl | hx
      · simp
      · exact List.mem_cons_of_mem _ (hB hx))
  revert h1
  rcases body (s.next, k) { s with next := s.next + 1, held := (s.next, k) :: s.held } with ⟨o, s'⟩
  intro h1
  have key : Now { s with next := s.next + 1, held := (s.next, k) :: s.held } s' ((s.next, k) :: h) →
      Now s (RM.release (s.next, k) s').2 h := by
    intro hq
    unfold RM.release
    rw [if_pos (hq.2.mem_iff.2 (by simp))]
    exact ⟨hq.1, by simpa using hq.2.erase (s.next, k)⟩
  cases o with
  | ok a => exact after_ok (key (h1.1 a rfl))
  | err => exact after_err (key (h1.2.1 rfl))
  | panic => exact after_panic (fun hpt => key (h1.2.2 hpt rfl))

theorem withMany {k : ResKind} {body : RM α} {n : Nat} (hb : ∀ B', Moves pan (B' ++ B) pre body (fun _ => [])) :
    Moves pan B pre (RM.withMany k n body) (fun _ => []) := by
  induction n generalizing B with
  | zero => exact hb []
  | succ n ih =>
    refine withRes (fun r => ih (fun B' => ?_))
    have := hb (B' ++ [r])
    simpa using this

theorem withKeyArray {body : RM α} {n : Nat} (hb : ∀ B', Moves pan (B' ++ B) pre body (fun _ => [])) :
    Moves pan B pre (RM.withKeyArray n body) (fun _ => []) := by
  refine withRes (fun r => withMany (fun B' => ?_))
  simpa using hb (B' ++ [r])

theorem withValueArray {body : RM α} {n : Nat} (hb : ∀ B', Moves pan (B' ++ B) pre body (fun _ => [])) :
    Moves pan B pre (RM.withValueArray n body) (fun _ => []) := by
  refine withRes (fun r => withMany (fun B' => ?_))
  simpa using hb (B' ++ [r])

theorem times {f : RM Unit} {n : Nat} (hf : Moves pan B pre f (fun _ => pre)) :
    Moves pan B pre (RM.times f n) (fun _ => pre) := by
  induction n with
  | zero => exact pure () rfl
  | succ n ih => exact bind hf (fun _ => ih)

theorem each {f : β → RM Unit} {l : List β} (hf : ∀ x, Moves pan B pre (f x) (fun _ => pre)) :
    Moves pan B pre (RM.each f l) (fun _ => pre) := by
  induction l with
  | nil => exact pure () rfl
  | cons x xs ih => exact bind (hf x) (fun _ => ih)

theorem releaseAll {l : List Res} : Moves pan B (l ++ pre) (RM.each RM.release l) (fun _ => pre) := by
  induction l with
  | nil => exact pure () rfl
  | cons x xs ih => exact bind (mid := fun _ => xs ++ pre) release (fun _ => ih)

theorem releaseAlls {l : List (List Res)} :
    Moves pan B (l.flatten ++ pre) (RM.each (fun b => RM.each RM.release b) l) (fun _ => pre) := by
  induction l with
  | nil => exact pure () rfl
  | cons x xs ih =>
    exact bind (mid := fun _ => xs.flatten ++ pre) (perm releaseAll (by simp)) (fun _ => ih)

theorem fallible : Tidy pan B RM.fallible :=
  bind (mid := fun _ => []) choose (fun _ => ite (fail rfl) (pure () rfl))

theorem userE : Tidy pan B RM.user :=
  bind (mid := fun _ => []) choose (fun _ => ite (panicE rfl) (pure () rfl))

theorem userN : Moves false B pre RM.user (fun _ => pre) :=
  bind (mid := fun _ => pre) choose (fun _ => ite panicN (pure () rfl))

end Moves

/-! ## iterators -/

/-- what an iterator holds -/
def RIter.own : RIter → List Res
  | .single it bufs => it.toList ++ bufs
  | .multi _ c opts => c.toList ++ opts.flatten
  | .error => []

namespace Moves
variable {pan : Bool} {B pre : List Res}

theorem newIter : Moves pan B pre newIterR (fun o => o.toList ++ pre) := by
  refine bind (mid := fun _ => pre) choose (fun _ => ?_)
  refine ite (pure none rfl) ?_
  exact bind (mid := fun r => r :: pre) (acquire _) (fun r => pure (some r) rfl)

theorem move {o : Option Res} (ho : ∀ r, o = some r → r ∈ B ∨ r ∈ pre) :
    Moves pan B pre (moveR o) (fun _ => pre) := by
  cases o with
  | none => exact pure false rfl
  | some r => exact bind (mid := fun _ => pre) (touch (ho r rfl)) (fun _ => choose)

theorem moveOwn {o : Option Res} : Moves pan B (o.toList ++ pre) (moveR o) (fun _ => o.toList ++ pre) :=
  move (fun r e => .inr (by simp [e]))

theorem close {o : Option Res} : Moves pan B (o.toList ++ pre) (closeR o) (fun _ => pre) := by
  cases o with
  | none => exact pure () rfl
  | some r => exact release

theorem firstLoop {opts : List (List Res)} {n i idx : Nat} {c : Option Res} :
    Moves pan B (c.toList ++ opts.flatten ++ pre) (RIter.firstLoop opts n i idx c) (fun p => p.1.own ++ pre) := by
  induction n generalizing i idx c with
  | zero => exact pure _ rfl
  | succ n ih =>
    rw [List.append_assoc]
    refine bind (mid := fun _ => opts.flatten ++ pre) close (fun _ => ?_)
    refine bind (mid := fun o => o.toList ++ (opts.flatten ++ pre)) newIter (fun c' => ?_)
    refine bind (mid := fun _ => c'.toList ++ (opts.flatten ++ pre)) moveOwn (fun v => ?_)
    refine ite (pure _ (by simp [RIter.own])) ?_
    have := ih (i := i + 1) (idx := i) (c := c')
    rwa [List.append_assoc] at this

theorem lastLoop {opts : List (List Res)} {n idx : Nat} {c : Option Res} :
    Moves pan B (c.toList ++ opts.flatten ++ pre) (RIter.lastLoop opts n idx c) (fun p => p.1.own ++ pre) := by
  induction n generalizing idx c with
  | zero => exact pure _ rfl
  | succ n ih =>
    rw [List.append_assoc]
    refine bind (mid := fun _ => opts.flatten ++ pre) close (fun _ => ?_)
    refine bind (mid := fun o => o.toList ++ (opts.flatten ++ pre)) newIter (fun c' => ?_)
    refine bind (mid := fun _ => c'.toList ++ (opts.flatten ++ pre)) moveOwn (fun v => ?_)
    refine ite (pure _ (by simp [RIter.own])) ?_
    have := ih (idx := n) (c := c')
    rwa [List.append_assoc] at this

theorem prevLoop {opts : List (List Res)} {n idx : Nat} {c : Option Res} :
    Moves pan B (c.toList ++ opts.flatten ++ pre) (RIter.prevLoop opts n idx c) (fun p => p.1.own ++ pre) := by
  induction n generalizing idx c with
  | zero => exact pure _ rfl
  | succ n ih =>
    rw [List.append_assoc]
    refine bind (mid := fun _ => c.toList ++ (opts.flatten ++ pre)) moveOwn (fun v => ?_)
    refine ite (pure _ (by simp [RIter.own])) (ite (pure _ (by simp [RIter.own])) ?_)
    refine bind (mid := fun _ => opts.flatten ++ pre) close (fun _ => ?_)
    refine bind (mid := fun o => o.toList ++ (opts.flatten ++ pre)) newIter (fun c' => ?_)
    refine bind (mid := fun _ => c'.toList ++ (opts.flatten ++ pre)) moveOwn (fun v => ?_)
    refine ite (pure _ (by simp [RIter.own])) ?_
    have := ih (idx := idx - 1) (c := c')
    rwa [List.append_assoc] at this

theorem nextLoop {opts : List (List Res)} {n idx : Nat} {c : Option Res} :
    Moves pan B (c.toList ++ opts.flatten ++ pre) (RIter.nextLoop opts n idx c) (fun p => p.1.own ++ pre) := by
  induction n generalizing idx c with
  | zero => exact pure _ rfl
  | succ n ih =>
    rw [List.append_assoc]
    refine bind (mid := fun _ => c.toList ++ (opts.flatten ++ pre)) moveOwn (fun v => ?_)
    refine ite (pure _ (by simp [RIter.own])) (ite (pure _ (by simp [RIter.own])) ?_)
    refine bind (mid := fun _ => opts.flatten ++ pre) close (fun _ => ?_)
    refine bind (mid := fun o => o.toList ++ (opts.flatten ++ pre)) newIter (fun c' => ?_)
    refine bind (mid := fun _ => c'.toList ++ (opts.flatten ++ pre)) moveOwn (fun v => ?_)
    refine ite (pure _ (by simp [RIter.own])) ?_
    have := ih (idx := idx + 1) (c := c')
    rwa [List.append_assoc] at this

theorem single {it : Option Res} {bufs : List Res} :
    Moves pan B (it.toList ++ bufs ++ pre) (do let v ← moveR it; return (RIter.single it bufs, v))
      (fun p => p.1.own ++ pre) :=
  bind (mid := fun _ => it.toList ++ bufs ++ pre) (by rw [List.append_assoc]; exact moveOwn) (fun _ => pure _ rfl)

theorem first {it : RIter} : Moves pan B (it.own ++ pre) it.first (fun p => p.1.own ++ pre) := by
  cases it with
  | single it bufs => exact single
  | multi idx c opts => exact firstLoop
  | error => exact pure _ rfl

theorem last {it : RIter} : Moves pan B (it.own ++ pre) it.last (fun p => p.1.own ++ pre) := by
  cases it with
  | single it bufs => exact single
  | multi idx c opts => exact lastLoop
  | error => exact pure _ rfl

theorem next {it : RIter} : Moves pan B (it.own ++ pre) it.next (fun p => p.1.own ++ pre) := by
  cases it with
  | single it bufs => exact single
  | multi idx c opts => exact nextLoop
  | error => exact pure _ rfl

theorem prev {it : RIter} : Moves pan B (it.own ++ pre) it.prev (fun p => p.1.own ++ pre) := by
  cases it with
  | single it bufs => exact single
  | multi idx c opts => exact prevLoop
  | error => exact pure _ rfl

theorem step {r : Bool} {it : RIter} : Moves pan B (it.own ++ pre) (stepR r it) (fun p => p.1.own ++ pre) :=
  ite prev next

theorem start {r : Bool} {it : RIter} : Moves pan B (it.own ++ pre) (startR r it) (fun p => p.1.own ++ pre) :=
  ite last first

/-- a closed iterator holds nothing -/
theorem closeIter {it : RIter} : Moves pan B (it.own ++ pre) it.close (fun _ => pre) := by
  cases it with
  | single it bufs =>
    refine bind (mid := fun _ => bufs ++ pre) (by rw [RIter.own, List.append_assoc]; exact close) (fun _ => ?_)
    exact bind (mid := fun _ => pre) releaseAll (fun _ => pure _ rfl)
  | multi idx c opts =>
    refine bind (mid := fun _ => opts.flatten ++ pre) (by rw [RIter.own, List.append_assoc]; exact close) (fun _ => ?_)
    exact bind (mid := fun _ => pre) releaseAlls (fun _ => pure _ rfl)
  | error => exact pure _ rfl

theorem iterClose' {it : RIter} {β : Type} {k : RIter → RM β} {post : β → List Res}
    (hk : ∀ it', Moves pan B pre (k it') post) : Moves pan B (it.own ++ pre) (it.close >>= k) post :=
  bind closeIter hk

theorem bounds : Moves false B pre boundsR (fun b => b ++ pre) := by
  refine bind (mid := fun r => r :: pre) (acquire _) (fun b1 => ?_)
  refine bind (mid := fun _ => b1 :: pre) userN (fun _ => ?_)
  refine bind (mid := fun r => r :: b1 :: pre) (acquire _) (fun b2 => ?_)
  refine bind (mid := fun _ => b2 :: b1 :: pre) userN (fun _ => ?_)
  refine perm (pure _ rfl) ?_
  exact List.Perm.swap _ _ _

theorem boundsMany {n : Nat} : Moves false B pre (boundsManyR n) (fun b => b.flatten ++ pre) := by
  induction n generalizing pre with
  | zero => exact pure [] rfl
  | succ n ih =>
    refine bind (mid := fun b => b ++ pre) bounds (fun b => ?_)
    refine bind (mid := fun bs => bs.flatten ++ (b ++ pre)) ih (fun bs => ?_)
    refine perm (pure _ rfl) ?_
    rw [List.flatten_cons, ← List.append_assoc]
    exact List.Perm.append_right _ List.perm_append_comm

theorem newMulti {opts : List (List Res)} :
    Moves false B (opts.flatten ++ pre) (newMultiR opts) (fun it => it.own ++ pre) := by
  refine ite panicN ?_
  refine bind (mid := fun o => o.toList ++ (opts.flatten ++ pre)) newIter (fun c => ?_)
  exact pure _ (by simp [RIter.own])

theorem indexIter {sel : RSel} : Moves false B pre (indexIterR sel) (fun it => it.own ++ pre) := by
  cases sel with
  | point | range =>
    refine bind (mid := fun b => b ++ pre) bounds (fun b => ?_)
    refine bind (mid := fun o => o.toList ++ (b ++ pre)) newIter (fun c => ?_)
    exact pure _ (by simp [RIter.own])
  | points n | ranges n =>
    exact bind (mid := fun b => b.flatten ++ pre) boundsMany (fun b => newMulti)
  | unknown => exact pure _ rfl

theorem withIter {body : Option Res → RM Unit} (h0 : Tidy pan B (body none))
    (hb : ∀ r, Tidy pan (r :: B) (body (some r))) : Tidy pan B (withIterR body) :=
  bind (mid := fun _ => []) choose (fun _ => ite h0 (withRes hb))

/-! ## writes -/

theorem batchWrite {b : Res} (hb : b ∈ B) : Tidy pan B (batchWriteR b) :=
  bind (mid := fun _ => []) (touch (.inl hb)) (fun _ => fallible)

theorem maybeTidy {m : RM Unit} (hm : Tidy pan B m) : Tidy pan B (RM.maybe m) :=
  bind (mid := fun _ => []) choose (fun _ => ite hm (pure () rfl))

theorem onInsert {b : Res} (hb : b ∈ B) : Tidy pan B (onInsertR b) :=
  bind (mid := fun _ => []) userE (fun _ => maybeTidy (batchWrite hb))

theorem onUpdate {b : Res} (hb : b ∈ B) : Tidy pan B (onUpdateR b) :=
  bind (mid := fun _ => []) userE (fun _ => bind (mid := fun _ => []) (maybeTidy (batchWrite hb))
    (fun _ => maybeTidy (batchWrite hb)))

theorem withBatch {ext : Option Res} {body : Res → RM Unit} (he : ∀ b, ext = some b → b ∈ B)
    (hb : ∀ b B', b ∈ B' → Tidy pan B' (body b)) : Tidy pan B (withBatchR ext body) := by
  cases ext with
  | some b => exact hb b B (he b rfl)
  | none =>
    refine withRes (fun r => ?_)
    refine bind (mid := fun _ => []) (hb r (r :: B) (by simp)) (fun _ => ?_)
    exact bind (mid := fun _ => []) (touch (.inl (by simp))) (fun _ => fallible)

theorem exist {it : Option Res} (hi : ∀ r, it = some r → r ∈ B) : Tidy pan B (existR it) :=
  maybeTidy (bind (mid := fun _ => []) (move (fun r e => .inl (hi r e))) (fun _ => pure () rfl))

/-- sequences in which nothing is held -/
theorem seq {α β : Type} {m : RM α} {f : α → RM β} (hm : Tidy pan B m) (hf : ∀ a, Tidy pan B (f a)) :
    Tidy pan B (m >>= f) := bind (mid := fun _ => []) hm hf

/-- the chunks of a write: an iterator for each -/
theorem chunk {body : Option Res → RM Unit} {n : Nat} {b : Res} (hb : b ∈ B)
    (h : ∀ it B', b ∈ B' → (∀ r, it = some r → r ∈ B') → Tidy pan B' (body it)) :
    Tidy pan B (withIterR fun it => RM.times (body it) n) :=
  withIter (times (h none B hb (fun _ e => nomatch e)))
    (fun r => times (h (some r) (r :: B) (List.mem_cons_of_mem _ hb) (fun r' e => by cases e; simp)))

theorem insert {ext : Option Res} {nIdx : Nat} {chunks : List Nat} (he : ∀ b, ext = some b → b ∈ B) :
    Tidy pan B (insertR ext nIdx chunks) := by
  refine withBatch he (fun b B1 hb => withRes (fun r => withKeyArray (fun B' => withRes (fun r' => each (fun n => ?_)))))
  have hb' : b ∈ r' :: (B' ++ r :: B1) := by simp [hb]
  refine seq userE (fun _ => chunk hb' (fun it B2 hb2 hi => ?_))
  exact seq fallible (fun _ => seq (exist hi) (fun _ => seq fallible (fun _ => seq fallible (fun _ =>
    seq (batchWrite hb2) (fun _ => times (onInsert hb2))))))

theorem update {ext : Option Res} {nIdx : Nat} {chunks : List Nat} (he : ∀ b, ext = some b → b ∈ B) :
    Tidy pan B (updateR ext nIdx chunks) := by
  refine withBatch he (fun b B1 hb => withRes (fun r => withRes (fun r2 => withKeyArray (fun B' =>
    withRes (fun r' => each (fun n => ?_))))))
  have hb' : b ∈ r' :: (B' ++ r2 :: r :: B1) := by simp [hb]
  refine seq userE (fun _ => chunk hb' (fun it B2 hb2 hi => ?_))
  refine seq fallible (fun _ => seq choose (fun _ => ite (pure () rfl) ?_))
  exact seq (move (fun r e => .inl (hi r e))) (fun _ => seq fallible (fun _ => seq fallible (fun _ =>
    seq fallible (fun _ => seq (batchWrite hb2) (fun _ => times (onUpdate hb2))))))

theorem delete {ext : Option Res} {nIdx : Nat} {rows : Nat} (he : ∀ b, ext = some b → b ∈ B) :
    Tidy pan B (deleteR ext nIdx rows) := by
  refine withBatch he (fun b B1 hb => withRes (fun r => withRes (fun r2 => times ?_)))
  have hb' : b ∈ r2 :: r :: B1 := by simp [hb]
  exact seq fallible (fun _ => seq userE (fun _ => seq (batchWrite hb') (fun _ => times (onInsert hb'))))

theorem upsert {ext : Option Res} {nIdx : Nat} {chunks : List Nat} (he : ∀ b, ext = some b → b ∈ B) :
    Tidy pan B (upsertR ext nIdx chunks) := by
  refine withBatch he (fun b B1 hb => withRes (fun r => withRes (fun r2 => withKeyArray (fun B' =>
    withRes (fun r' => each (fun n => ?_))))))
  have hb' : b ∈ r' :: (B' ++ r2 :: r :: B1) := by simp [hb]
  refine seq userE (fun _ => chunk hb' (fun it B2 hb2 hi => ?_))
  exact seq fallible (fun _ => seq (exist hi) (fun _ => seq (maybeTidy fallible) (fun _ => seq userE (fun _ =>
    seq fallible (fun _ => seq (batchWrite hb2) (fun _ => seq choose (fun _ =>
      ite (times (onUpdate hb2)) (times (onInsert hb2)))))))))

theorem unsafeInsert {ext : Option Res} {nIdx : Nat} {chunks : List Nat} (he : ∀ b, ext = some b → b ∈ B) :
    Tidy pan B (unsafeInsertR ext nIdx chunks) := by
  refine withBatch he (fun b B1 hb => withRes (fun r => withKeyArray (fun B' => withRes (fun r' => each (fun n => ?_)))))
  have hb' : b ∈ r' :: (B' ++ r :: B1) := by simp [hb]
  exact seq userE (fun _ => times (seq fallible (fun _ => seq fallible (fun _ => seq (batchWrite hb')
    (fun _ => times (onInsert hb'))))))

/-! ## reads -/

theorem existApi : Tidy pan B existApiR := by
  refine withRes (fun r => seq userE (fun _ => maybeTidy ?_))
  refine bind (mid := fun _ => []) (post_perm (attempt (post := fun _ => []) fallible (.inr rfl)) ?_) (fun o => ?_)
  · intro o; cases o <;> exact .refl _
  · cases o with
    | none => exact pure () rfl
    | some _ => exact withRes (fun r => pure () rfl)

theorem getPoint : Tidy pan B getPointR :=
  withRes (fun _ => seq userE (fun _ => seq fallible (fun _ => seq fallible (fun _ => withRes (fun _ => fallible)))))

theorem get {n : Nat} : Tidy pan B (getR n) := by
  refine ite (pure () rfl) ?_
  refine withIter (times ?_) (fun r => times ?_)
  · exact seq fallible (fun _ => seq (move (fun _ e => nomatch e)) (fun _ => fallible))
  · exact seq fallible (fun _ => seq (move (fun r' e => by cases e; exact .inl (by simp))) (fun _ => fallible))

theorem getPoints {n : Nat} : Tidy pan B (getPointsR n) :=
  withKeyArray (fun _ => withKeyArray (fun _ => seq userE (fun _ => seq get (fun _ => times fallible))))

/-- a callback that gives back what it takes by the time it returns -/
inductive CbTidy : List Res → CbR → Prop
  | ret {l : List Res} {m : RM Bool} (hm : ∀ B, Moves false B l m (fun _ => [])) : CbTidy l (.ret m)
  | get {l : List Res} {m : RM (List Res)} {k : List Res → Bool → CbR} (hm : ∀ B, Moves false B l m (fun l' => l'))
      (hk : ∀ l' ok, CbTidy l' (k l' ok)) : CbTidy l (.get m k)

/-- an error seen by the code, in a run in which something was held for it -/
theorem attemptOn {α : Type} {l : List Res} {m : RM α} {post : α → List Res} (hm : Moves false B l m post) :
    Moves false B (l ++ pre) (RM.attempt m) (fun o => o.elim pre (fun a => post a ++ pre)) := by
  intro s h hp hB
  rw [List.append_assoc] at hp
  have h1 := hm s (pre ++ h) hp (fun x hx => List.mem_append.2 (.inr (hB hx)))
  unfold RM.attempt
  revert h1
  rcases m s with ⟨o, s'⟩
  intro h1
  cases o with
  | ok a =>
    have := h1.1 a rfl
    exact after_ok ⟨this.1, by simpa using this.2⟩
  | err => exact after_ok (h1.2.1 rfl)
  | panic => exact after_panic (fun hpt => nomatch hpt)

theorem cbRun {lazy : RIter → RM (RIter × Bool)}
    (hl : ∀ it pre, Moves false B (it.own ++ pre) (lazy it) (fun p => p.1.own ++ pre))
    {cb : CbR} {l : List Res} (hc : CbTidy l cb) {it : RIter} :
    Moves false B (l ++ (it.own ++ pre)) (cb.run lazy it) (fun p => p.1.own ++ pre) := by
  induction hc generalizing it with
  | @ret l m hm =>
    refine bind (mid := fun _ => it.own ++ pre) (post_perm (attemptOn (hm B)) ?_) (fun r => pure _ rfl)
    intro o; cases o <;> exact .refl _
  | @get l m k hm hk ih =>
    rw [CbR.run]
    refine bind (mid := fun o : Option (List Res) => o.elim (it.own ++ pre) (fun l' => l' ++ (it.own ++ pre)))
      (attemptOn (hm B)) (fun o => ?_)
    cases o with
    | none => exact pure _ rfl
    | some l' =>
      refine bind (mid := fun p => l' ++ (p.1.own ++ pre)) ?_ (fun p => ih l' p.2)
      have e : ∀ x : List Res, (l' ++ (x ++ pre)).Perm (x ++ (l' ++ pre)) := by
        intro x
        rw [← List.append_assoc, ← List.append_assoc]
        exact List.Perm.append_right _ List.perm_append_comm
      exact post_perm (perm (hl it (l' ++ pre)) (e _)) (fun p => (e _).symm)

theorem lazyPrefetched {it : RIter} :
    Moves false B (it.own ++ pre) (do let ok ← RM.choose; return (it, ok)) (fun p => p.1.own ++ pre) :=
  bind (mid := fun _ => it.own ++ pre) choose (fun _ => pure _ rfl)

theorem cbPrefetched {cb : CbR} (hc : CbTidy [] cb) {it : RIter} :
    Moves false B (it.own ++ pre) (cb.run (fun it => do let ok ← RM.choose; return (it, ok)) it)
      (fun p => p.1.own ++ pre) := by
  have := cbRun (B := B) (pre := pre) (fun it pre => lazyPrefetched (it := it) (pre := pre)) hc (it := it)
  exact this

theorem closeThen {it : RIter} : Moves false B (it.own ++ pre) (do let _ ← it.close; return ()) (fun _ => pre) :=
  iterClose' (fun _ => pure _ rfl)

theorem closeFail {it : RIter} : Moves false B (it.own) (do let _ ← it.close; RM.fail : RM Unit) (fun _ => []) := by
  have := iterClose' (pan := false) (B := B) (pre := []) (it := it) (k := fun _ => (RM.fail : RM Unit))
    (post := fun _ => []) (fun _ => fail rfl)
  rwa [List.append_nil] at this

theorem closeDone {it : RIter} : Moves false B (it.own) (do let _ ← it.close; return ()) (fun _ => []) := by
  have := closeThen (B := B) (pre := []) (it := it)
  rwa [List.append_nil] at this

theorem nilRight {α : Type} {l : List Res} {m : RM α} {post : α → List Res}
    (h : Moves pan B (l ++ []) m (fun a => post a ++ [])) : Moves pan B l m post := by
  simpa using h

theorem primaryLoop {cb : CbR} (hc : CbTidy [] cb) {reverse : Bool} {fuel : Nat} {it : RIter} {v : Bool} :
    Moves false B it.own (primaryLoopR cb reverse fuel it v) (fun _ => []) := by
  induction fuel generalizing it v with
  | zero => exact closeDone
  | succ fuel ih =>
    refine ite ?_ closeDone
    refine bind (mid := fun _ => it.own) choose (fun _ => ite closeFail ?_)
    refine bind (mid := fun p => p.1.own) (nilRight (cbPrefetched hc)) (fun p => ?_)
    rcases p with ⟨it', r⟩
    match r with
    | some true => exact bind (mid := fun p => p.1.own) (nilRight step) (fun q => ih)
    | some false => exact closeDone
    | none => exact closeFail

theorem primaryScan {cb : CbR} (hc : CbTidy [] cb) {sel : RSel} {reverse : Bool} {fuel : Nat} :
    Tidy false B (primaryScanR sel cb reverse fuel) := by
  refine bind (mid := fun it => it.own) (nilRight indexIter) (fun it => ?_)
  exact bind (mid := fun p : RIter × Bool => p.1.own) (nilRight start) (fun p => primaryLoop hc)

theorem prefetch {reverse : Bool} {n : Nat} {it : RIter} :
    Moves false B (it.own ++ pre) (prefetchR reverse n it) (fun it' => it'.own ++ pre) := by
  induction n generalizing it with
  | zero => exact pure _ rfl
  | succ n ih =>
    refine bind (mid := fun p => p.1.own ++ pre) step (fun p => ite ih (pure _ rfl))

theorem lazyGet {reverse : Bool} {n : Nat} {it : RIter} :
    Moves false B (it.own ++ pre) (lazyR reverse n it) (fun p => p.1.own ++ pre) := by
  refine bind (mid := fun it' => it'.own ++ pre) prefetch (fun it' => ?_)
  refine bind (mid := fun _ => it'.own ++ pre) (post_perm (attempt (post := fun _ => []) get (.inl rfl)) ?_)
    (fun o => pure _ rfl)
  intro o; cases o <;> exact .refl _

theorem innerLoop {cb : CbR} (hc : CbTidy [] cb) {n : Nat} {it : RIter} :
    Moves false B (it.own ++ pre) (innerLoopR cb n it) (fun p => p.1.own ++ pre) := by
  induction n generalizing it with
  | zero => exact pure _ rfl
  | succ n ih =>
    refine bind (mid := fun p => p.1.own ++ pre) (cbPrefetched hc) (fun p => ?_)
    rcases p with ⟨it', r⟩
    match r with
    | some true => exact ih
    | some false => exact pure _ rfl
    | none => exact pure _ rfl

theorem secondaryLoop {cb : CbR} (hc : CbTidy [] cb) {reverse : Bool} {size inner fuel : Nat} {it : RIter} {v : Bool} :
    Moves false B it.own (secondaryLoopR cb reverse size inner fuel it v) (fun _ => []) := by
  induction fuel generalizing it v with
  | zero => exact closeDone
  | succ fuel ih =>
    refine ite ?_ closeDone
    refine bind (mid := fun _ => it.own) choose (fun _ => ite closeFail ?_)
    refine bind (mid := fun p => p.1.own) (nilRight (cbRun (l := []) (fun it pre => lazyGet) hc)) (fun p => ?_)
    rcases p with ⟨it', r⟩
    match r with
    | some true =>
      refine bind (mid := fun p => p.1.own) (nilRight (innerLoop hc)) (fun q => ?_)
      rcases q with ⟨it'', r⟩
      match r with
      | some true => exact bind (mid := fun p => p.1.own) (nilRight step) (fun q => ih)
      | some false => exact closeDone
      | none => exact closeFail
    | some false => exact closeDone
    | none => exact closeFail

theorem secondaryScan {cb : CbR} (hc : CbTidy [] cb) {sel : RSel} {reverse : Bool} {size inner fuel : Nat} :
    Tidy false B (secondaryScanR sel cb reverse size inner fuel) := by
  refine bind (mid := fun it => it.own) (nilRight indexIter) (fun it => ?_)
  refine withRes (fun _ => withRes (fun _ => withRes (fun _ => withValueArray (fun _ => ?_))))
  exact bind (mid := fun p : RIter × Bool => p.1.own) (nilRight start) (fun p => secondaryLoop hc)

theorem walk {fuel : Nat} {it : RIter} {v : Bool} : Moves false B it.own (walkR fuel it v) (fun _ => []) := by
  induction fuel generalizing it v with
  | zero => exact closeDone
  | succ fuel ih =>
    refine ite ?_ closeDone
    refine bind (mid := fun _ => it.own) choose (fun _ => ite closeFail ?_)
    exact bind (mid := fun p => p.1.own) (nilRight next) (fun q => ih)

theorem intersect {fuel : Nat} {sels : List RSel} : Tidy false B (intersectR fuel sels) := by
  refine each (fun sel => ?_)
  refine bind (mid := fun it => it.own) (nilRight indexIter) (fun it => ?_)
  exact bind (mid := fun p => p.1.own) (nilRight first) (fun p => walk)

theorem queryCb : CbTidy [] queryCbR := by
  refine .get (fun B => ?_) (fun l ok => .ret (fun B => ?_))
  · refine bind (mid := fun _ => []) choose (fun _ => ite ?_ (pure _ rfl))
    refine bind (mid := fun b => [b]) (acquire _) (fun b => ?_)
    exact bind (mid := fun _ => [b]) userN (fun _ => pure _ rfl)
  · refine ite ?_ ?_
    · refine bind (mid := fun _ => l) userN (fun _ => bind (mid := fun _ => []) ?_ (fun _ => choose))
      exact perm (releaseAll (pre := [])) (by simp)
    · refine bind (mid := fun _ => []) ?_ (fun _ => fail rfl)
      exact perm (releaseAll (pre := [])) (by simp)

theorem querySkipCb : CbTidy [] querySkipCbR :=
  .ret (fun _ => seq (maybeTidy (withRes (fun _ => userE))) (fun _ => pure _ rfl))

theorem queryIntersect {fuel n : Nat} {sels : List RSel} : Tidy false B (queryIntersectR fuel sels n) :=
  seq fallible (fun _ => seq intersect (fun _ => seq get (fun _ => times (seq fallible (fun _ => userE)))))

end Moves
/-! ## iterators of an index -/

theorem Moves.calls {pan : Bool} {B pre : List Res} (ops : List CurOp) {it : RIter} :
    Moves pan B (it.own ++ pre) (RIter.calls ops it) (fun it' => it'.own ++ pre) := by
  induction ops generalizing it with
  | nil => exact pure _ rfl
  | cons op ops ih =>
    refine bind (mid := fun p => p.1.own ++ pre) ?_ (fun p => ih)
    cases op
    · exact first
    · exact last
    · exact next
    · exact prev

/-- what values a piece of code returns -/
def Rets {α : Type} (m : RM α) (P : α → Prop) : Prop := ∀ s a s', m s = (.ok a, s') → P a

theorem bind_ok {α β : Type} {m : RM α} {f : α → RM β} {s s' : RSt} {b : β} (h : (m >>= f) s = (.ok b, s')) :
    ∃ a s1, m s = (.ok a, s1) ∧ f a s1 = (.ok b, s') := by
  change RM.bind m f s = _ at h
  unfold RM.bind at h
  revert h
  rcases m s with ⟨o, s1⟩
  cases o with
  | ok a => exact fun h => ⟨a, s1, rfl, h⟩
  | err => intro h; cases h
  | panic => intro h; cases h

theorem Rets.bind {α β : Type} {m : RM α} {f : α → RM β} {P : α → Prop} {Q : β → Prop} (hm : Rets m P)
    (hf : ∀ a, P a → Rets (f a) Q) : Rets (m >>= f) Q := by
  intro s b s' h
  obtain ⟨a, s1, h1, h2⟩ := bind_ok h
  exact hf a (hm _ _ _ h1) _ _ _ h2

theorem Rets.pure {α : Type} {a : α} {P : α → Prop} (h : P a) : Rets (RM.pure a) P := by
  intro s b s' e
  cases e
  exact h

theorem Rets.any {α : Type} {m : RM α} : Rets m (fun _ => True) := fun _ _ _ _ => trivial

theorem Rets.acquire {k : ResKind} : Rets (RM.acquire k) (fun r => r.2 = k) := by
  intro s b s' e
  cases e
  rfl

/-- an iterator whose bounds are key buffers and whose pebble iterator is one -/
def RIter.Kinds : RIter → Prop
  | .single it bufs => (∀ r, it = some r → r.2 = .iter) ∧ ∀ b ∈ bufs, b.2 = .keyBuf
  | .multi _ c opts => (∀ r, c = some r → r.2 = .iter) ∧ ∀ b ∈ opts.flatten, b.2 = .keyBuf
  | .error => True

theorem Rets.newIter : Rets newIterR (fun o => ∀ r, o = some r → r.2 = .iter) := by
  refine .bind .any (fun _ _ => ?_)
  split
  · exact .pure (fun r e => nomatch e)
  · exact .bind .acquire (fun r hr => .pure (fun r' e => by cases e; exact hr))

theorem Rets.bounds : Rets boundsR (fun l => ∀ b ∈ l, b.2 = .keyBuf) :=
  .bind .acquire (fun b1 h1 => .bind .any (fun _ _ => .bind .acquire (fun b2 h2 => .bind .any (fun _ _ => .pure (by
    intro b hb
    rcases List.mem_cons.1 hb with rfl | hb
    · exact h1
    · rcases List.mem_cons.1 hb with rfl | hb
      · exact h2
      · cases hb)))))

theorem Rets.boundsMany {n : Nat} : Rets (boundsManyR n) (fun l => ∀ b ∈ l.flatten, b.2 = .keyBuf) := by
  induction n with
  | zero => exact .pure (fun b hb => by simp at hb)
  | succ n ih =>
    refine .bind .bounds (fun b hb => .bind ih (fun bs hbs => .pure ?_))
    intro x hx
    rw [List.flatten_cons] at hx
    rcases List.mem_append.1 hx with h | h
    · exact hb x h
    · exact hbs x h

theorem Rets.newMulti {opts : List (List Res)} (h : ∀ b ∈ opts.flatten, b.2 = .keyBuf) :
    Rets (newMultiR opts) RIter.Kinds := by
  unfold newMultiR
  split
  · intro s a s' e; cases e
  · exact .bind .newIter (fun c hc => .pure ⟨hc, h⟩)

theorem Rets.indexIter {sel : RSel} : Rets (indexIterR sel) RIter.Kinds := by
  cases sel with
  | point | range => exact .bind .bounds (fun b hb => .bind .newIter (fun it hi => .pure ⟨hi, hb⟩))
  | points n | ranges n => exact .bind .boundsMany (fun b hb => .newMulti hb)
  | unknown => exact .pure trivial

theorem Rets.firstLoop {opts : List (List Res)} (ho : ∀ b ∈ opts.flatten, b.2 = .keyBuf) {n i idx : Nat}
    {c : Option Res} (hc : ∀ r, c = some r → r.2 = .iter) :
    Rets (RIter.firstLoop opts n i idx c) (fun p => p.1.Kinds) := by
  induction n generalizing i idx c with
  | zero => exact .pure ⟨hc, ho⟩
  | succ n ih =>
    refine .bind .any (fun _ _ => .bind .newIter (fun c' hc' => .bind .any (fun v _ => ?_)))
    split
    · exact .pure ⟨hc', ho⟩
    · exact ih hc'

theorem Rets.lastLoop {opts : List (List Res)} (ho : ∀ b ∈ opts.flatten, b.2 = .keyBuf) {n idx : Nat}
    {c : Option Res} (hc : ∀ r, c = some r → r.2 = .iter) :
    Rets (RIter.lastLoop opts n idx c) (fun p => p.1.Kinds) := by
  induction n generalizing idx c with
  | zero => exact .pure ⟨hc, ho⟩
  | succ n ih =>
    refine .bind .any (fun _ _ => .bind .newIter (fun c' hc' => .bind .any (fun v _ => ?_)))
    split
    · exact .pure ⟨hc', ho⟩
    · exact ih hc'

theorem Rets.prevLoop {opts : List (List Res)} (ho : ∀ b ∈ opts.flatten, b.2 = .keyBuf) {n idx : Nat}
    {c : Option Res} (hc : ∀ r, c = some r → r.2 = .iter) :
    Rets (RIter.prevLoop opts n idx c) (fun p => p.1.Kinds) := by
  induction n generalizing idx c with
  | zero => exact .pure ⟨hc, ho⟩
  | succ n ih =>
    refine .bind .any (fun v _ => ?_)
    split
    · exact .pure ⟨hc, ho⟩
    · split
      · exact .pure ⟨hc, ho⟩
      · refine .bind .any (fun _ _ => .bind .newIter (fun c' hc' => .bind .any (fun v _ => ?_)))
        split
        · exact .pure ⟨hc', ho⟩
        · exact ih hc'

theorem Rets.nextLoop {opts : List (List Res)} (ho : ∀ b ∈ opts.flatten, b.2 = .keyBuf) {n idx : Nat}
    {c : Option Res} (hc : ∀ r, c = some r → r.2 = .iter) :
    Rets (RIter.nextLoop opts n idx c) (fun p => p.1.Kinds) := by
  induction n generalizing idx c with
  | zero => exact .pure ⟨hc, ho⟩
  | succ n ih =>
    refine .bind .any (fun v _ => ?_)
    split
    · exact .pure ⟨hc, ho⟩
    · split
      · exact .pure ⟨hc, ho⟩
      · refine .bind .any (fun _ _ => .bind .newIter (fun c' hc' => .bind .any (fun v _ => ?_)))
        split
        · exact .pure ⟨hc', ho⟩
        · exact ih hc'

theorem Rets.call {it : RIter} (h : it.Kinds) (op : CurOp) : Rets (it.call op) (fun p => p.1.Kinds) := by
  cases it with
  | single it bufs => cases op <;> exact .bind .any (fun v _ => .pure h)
  | multi idx c opts =>
    cases op
    · exact .firstLoop h.2 h.1
    · exact .lastLoop h.2 h.1
    · exact .nextLoop h.2 h.1
    · exact .prevLoop h.2 h.1
  | error => cases op <;> exact .pure trivial

theorem Rets.calls {ops : List CurOp} {it : RIter} (h : it.Kinds) : Rets (RIter.calls ops it) RIter.Kinds := by
  induction ops generalizing it with
  | nil => exact .pure h
  | cons op ops ih => exact .bind (.call h op) (fun p hp => ih hp)

/-- the pebble iterators among resources -/
def openIters (l : List Res) : Nat := l.countP (fun r => decide (r.2 = .iter))

theorem kinds_open {it : RIter} (h : it.Kinds) : openIters it.own ≤ 1 := by
  have key : ∀ (c : Option Res) (l : List Res), (∀ b ∈ l, b.2 = .keyBuf) → openIters (c.toList ++ l) ≤ 1 := by
    intro c l hl
    have hz : openIters l = 0 := by
      unfold openIters
      rw [List.countP_eq_zero]
      intro b hb
      simp [hl b hb]
    unfold openIters at hz ⊢
    rw [List.countP_append, hz]
    cases c with
    | none => simp
    | some r => simp [List.countP_cons]; split <;> simp
  cases it with
  | single it bufs => exact key _ _ h.2
  | multi idx c opts => exact key _ _ h.2
  | error => simp [RIter.own, openIters]

theorem Rets.openCalls {sel : RSel} {ops : List CurOp} : Rets (Bond.openCalls sel ops) RIter.Kinds :=
  .bind .indexIter (fun _ h => .calls h)

theorem Moves.openCalls {B pre : List Res} (sel : RSel) (ops : List CurOp) :
    Moves false B pre (Bond.openCalls sel ops) (fun it => it.own ++ pre) :=
  bind (mid := fun it => it.own ++ pre) indexIter (fun _ => calls ops)


/-! ## ReIndex and UnsafeUpdate: what is known of successful runs -/

/-- like `Moves`, but only for runs that end with a value -/
def OkMoves {α : Type} (B pre : List Res) (m : RM α) (post : α → List Res) : Prop :=
  ∀ (s : RSt) (h : List Res), s.held.Perm (pre ++ h) → B ⊆ h → ∀ a s', m s = (.ok a, s') →
    Holds.Now s s' (post a ++ h)

namespace OkMoves
variable {α β : Type} {B pre : List Res}

theorem of {pan : Bool} {m : RM α} {post : α → List Res} (hm : Moves pan B pre m post) : OkMoves B pre m post := by
  intro s h hp hB a s' e
  have := (hm s h hp hB).1 a (by rw [e])
  rwa [e] at this

theorem bind {m : RM α} {f : α → RM β} {mid : α → List Res} {post : β → List Res}
    (hm : OkMoves B pre m mid) (hf : ∀ a, OkMoves B (mid a) (f a) post) : OkMoves B pre (m >>= f) post := by
  intro s h hp hB b s' e
  obtain ⟨a, s1, h1, h2⟩ := bind_ok e
  have k1 := hm s h hp hB a s1 h1
  have k2 := hf a s1 h k1.2 hB b s' h2
  exact ⟨k2.1.trans k1.1, k2.2⟩

theorem fail {post : α → List Res} : OkMoves B pre (RM.fail : RM α) post := by
  intro s h _ _ a s' e
  cases e

theorem thenFail {m : RM β} {post : α → List Res} : OkMoves B pre (m >>= fun _ => (RM.fail : RM α)) post := by
  intro s h _ _ a s' e
  obtain ⟨_, _, _, h2⟩ := bind_ok e
  cases h2

theorem times {f : RM Unit} {n : Nat} (hf : OkMoves B pre f (fun _ => pre)) :
    OkMoves B pre (RM.times f n) (fun _ => pre) := by
  induction n with
  | zero => exact of (pan := false) (.pure () rfl)
  | succ n ih => exact bind hf (fun _ => ih)

theorem attempt {m : RM α} (hm : Tidy false B m) : OkMoves B pre (RM.attempt m) (fun _ => pre) :=
  of (Moves.post_perm (Moves.attempt (post := fun _ => []) hm (.inl rfl)) (fun o => by cases o <;> exact .refl _))

theorem withRes {k : ResKind} {body : Res → RM α} {post : α → List Res}
    (hb : ∀ r, OkMoves (r :: B) pre (body r) post) : OkMoves B pre (RM.withRes k body) post := by
  intro s h hp hB a s' e
  unfold RM.withRes at e
  simp only [RM.acquire] at e
  have h1 := hb (s.next, k) { s with next := s.next + 1, held := (s.next, k) :: s.held } ((s.next, k) :: h)
    ((hp.cons _).trans List.perm_middle.symm) (by
      intro x hx
      rcases List.mem_cons.1 hx with rfl | hx
      · simp
      · exact List.mem_cons_of_mem _ (hB hx))
  revert h1 e
  rcases body (s.next, k) { s with next := s.next + 1, held := (s.next, k) :: s.held } with ⟨o, s1⟩
  intro e h1
  cases o with
  | err => cases e
  | panic => cases e
  | ok x =>
    have h2 := h1 x s1 rfl
    have hq : s1.held.Perm ((s.next, k) :: (post x ++ h)) := h2.2.trans List.perm_middle
    have hr : (s.next, k) ∈ s1.held := hq.mem_iff.2 (by simp)
    have e' : x = a ∧ { s1 with held := s1.held.erase (s.next, k) } = s' := by
      unfold RM.release at e
      rw [if_pos hr] at e
      cases e
      exact ⟨rfl, rfl⟩
    obtain ⟨rfl, rfl⟩ := e'
    exact ⟨h2.1, by simpa using hq.erase (s.next, k)⟩

end OkMoves

/-- the rows of UnsafeUpdate and its commit -/
theorem OkMoves.unsafeUpdate {B : List Res} {ext : Option Res} {nIdx rows : Nat} (he : ∀ b, ext = some b → b ∈ B)
    (s : RSt) (h : List Res) (hp : s.held.Perm h) (hB : B ⊆ h) (s' : RSt)
    (e : unsafeUpdateR ext nIdx rows s = (.ok (), s')) :
    match ext with
    | some _ => Holds.Now s s' h
    | none => ∃ r : Res, r.2 = .batch ∧ Holds.Now s s' (r :: h) := by
  have body : ∀ (b : Res) (own : Bool) (B : List Res), b ∈ B → OkMoves B [] (RM.withRes .keyBuf fun _ =>
      RM.withRes .keyBuf fun _ => RM.withRes .keyBuf fun _ => RM.withRes .valueBuf fun _ => do
      RM.times (do
        RM.fallible
        RM.user
        RM.fallible
        match ← RM.attempt (batchWriteR b) with
        | some _ => RM.times (onUpdateR b) nIdx
        | none => do RM.release b; RM.fail) rows
      if own then do
        RM.touch b
        match ← RM.attempt RM.fallible with
        | some _ => return ()
        | none => do RM.release b; RM.fail
      else return ()) (fun _ => []) := by
    intro b own B hb
    refine withRes (fun r1 => withRes (fun r2 => withRes (fun r3 => withRes (fun r4 => ?_))))
    have hb' : b ∈ r4 :: r3 :: r2 :: r1 :: B := by simp [hb]
    refine bind (mid := fun _ => []) (times ?_) (fun _ => ?_)
    · refine bind (mid := fun _ => []) (of (pan := false) .fallible) (fun _ => ?_)
      refine bind (mid := fun _ => []) (of (pan := false) .userE) (fun _ => ?_)
      refine bind (mid := fun _ => []) (of (pan := false) .fallible) (fun _ => ?_)
      refine bind (mid := fun _ => []) (attempt (.batchWrite hb')) (fun o => ?_)
      cases o with
      | none => exact thenFail
      | some _ => exact of (pan := false) (.times (.onUpdate hb'))
    · cases own with
      | false => exact of (pan := false) (.pure () rfl)
      | true =>
        refine bind (mid := fun _ => []) (of (pan := false) (.touch (.inl hb'))) (fun _ => ?_)
        refine bind (mid := fun _ => []) (attempt .fallible) (fun o => ?_)
        cases o with
        | none => exact thenFail
        | some _ => exact of (pan := false) (.pure () rfl)
  cases ext with
  | some b => exact body b false B (he b rfl) s h hp hB () s' e
  | none =>
    have := body (s.next, .batch) true ((s.next, .batch) :: B) (by simp)
      { s with next := s.next + 1, held := (s.next, .batch) :: s.held } ((s.next, .batch) :: h) (hp.cons _)
      (fun x hx => by
        rcases List.mem_cons.1 hx with rfl | hx
        · simp
        · exact List.mem_cons_of_mem _ (hB hx)) () s' e
    exact ⟨_, rfl, this⟩

/-- the rows of ReIndex: the batches left behind are as many as the full blocks -/
theorem reIndexRows_ok {it : Option Res} {nIdx size : Nat} (hs : 0 < size) {rows k : Nat} (hk : k < size) {b b' : Res}
    (hb : b.2 = .batch) {s s' : RSt} {h : List Res} (hp : s.held.Perm (b :: h)) (hi : ∀ r, it = some r → r ∈ h)
    (e : reIndexRowsR it nIdx size rows k b s = (.ok (b', true), s')) :
    b'.2 = .batch ∧ ∃ l : List Res, l.length = (k + rows) / size ∧ (∀ r ∈ l, r.2 = .batch) ∧
      Holds.Now s s' (b' :: (l ++ h)) := by
  induction rows generalizing k b s h with
  | zero =>
    cases e
    exact ⟨hb, [], by simp [Nat.div_eq_of_lt hk], by simp, rfl, hp⟩
  | succ rows ih =>
    rw [reIndexRowsR] at e
    obtain ⟨o, s1, h1, h2⟩ := bind_ok e
    have hb1 : b ∈ b :: h := by simp
    have t1 : Tidy false (b :: h) (do RM.fallible; RM.times (onInsertR b) nIdx) :=
      .seq .fallible (fun _ => .times (.onInsert hb1))
    have n1 := OkMoves.attempt (pre := []) t1 s (b :: h) hp (fun _ hx => hx) _ _ h1
    cases o with
    | none => cases h2
    | some _ =>
      simp only at h2
      split at h2
      · obtain ⟨_, s2, h3, h4⟩ := bind_ok h2
        have n2 := OkMoves.of (Moves.touch (pan := false) (pre := []) (.inl hb1)) s1 (b :: h) n1.2 (fun _ hx => hx) _ _ h3
        obtain ⟨o2, s3, h5, h6⟩ := bind_ok h4
        have n3 := OkMoves.attempt (pre := []) (B := b :: h) .fallible s2 (b :: h) n2.2 (fun _ hx => hx) _ _ h5
        cases o2 with
        | none => cases h6
        | some _ =>
          simp only at h6
          obtain ⟨b2, s4, h7, h8⟩ := bind_ok h6
          have n4 := OkMoves.of (Moves.acquire (pan := false) (B := b :: h) (pre := []) _) s3 (b :: h) n3.2
            (fun _ hx => hx) _ _ h7
          have kb2 : b2.2 = .batch := Rets.acquire _ _ _ h7
          obtain ⟨_, s5, h9, h10⟩ := bind_ok h8
          have n5 := OkMoves.of (Moves.move (pan := false) (B := b2 :: b :: h) (pre := [])
            (fun r e => .inl (by simp [hi r e]))) s4 (b2 :: b :: h) n4.2 (fun _ hx => hx) _ _ h9
          obtain ⟨kb', l, hl, hlb, hn⟩ := ih hs kb2 n5.2 (fun r e => List.mem_cons_of_mem _ (hi r e)) h10
          refine ⟨kb', l ++ [b], ?_, ?_, ?_, ?_⟩
          · have hk' : k + 1 = size := by omega
            simp only [List.length_append, hl, List.length_cons, List.length_nil, Nat.zero_add]
            rw [show k + (rows + 1) = rows + size by omega, Nat.add_div_right _ hs]
          · intro r hr
            rcases List.mem_append.1 hr with hr | hr
            · exact hlb r hr
            · rw [List.mem_singleton.1 hr]; exact hb
          · exact hn.1.trans (n5.1.trans (n4.1.trans (n3.1.trans (n2.1.trans n1.1))))
          · simpa using hn.2
      · obtain ⟨_, s2, h3, h4⟩ := bind_ok h2
        have n2 := OkMoves.of (Moves.move (pan := false) (B := b :: h) (pre := [])
            (fun r e => .inl (by simp [hi r e]))) s1 (b :: h) n1.2 (fun _ hx => hx) _ _ h3
        obtain ⟨kb', l, hl, hlb, hn⟩ := ih (k := k + 1) (by omega) hb n2.2 hi h4
        exact ⟨kb', l, by rw [hl]; congr 1; omega, hlb, hn.1.trans (n2.1.trans n1.1), hn.2⟩

theorem reIndex_ok {nIdx size rows : Nat} (hs : 0 < size) {s s' : RSt}
    (e : reIndexR nIdx size rows s = (.ok (), s')) :
    ∃ l : List Res, l.length = rows / size ∧ (∀ r ∈ l, r.2 = .batch) ∧ Holds.Now s s' (l ++ s.held) := by
  unfold reIndexR at e
  obtain ⟨_, s1, h1, e⟩ := bind_ok e
  have n1 := OkMoves.of (B := []) (Moves.times (pan := false) (pre := []) (n := nIdx) .fallible) s s.held (.refl _)
    (fun _ hx => nomatch hx) _ _ h1
  obtain ⟨it, s2, h2, e⟩ := bind_ok e
  have n2 := OkMoves.of (B := []) (Moves.newIter (pan := false) (pre := [])) s1 s.held n1.2 (fun _ hx => nomatch hx)
    _ _ h2
  obtain ⟨b, s3, h3, e⟩ := bind_ok e
  have n3 := OkMoves.of (Moves.acquire (pan := false) (B := []) (pre := it.toList) _) s2 s.held
    (by simpa using n2.2) (fun _ hx => nomatch hx) _ _ h3
  have kb : b.2 = .batch := Rets.acquire _ _ _ h3
  obtain ⟨p, s4, h4, e⟩ := bind_ok e
  rcases p with ⟨b', ok⟩
  cases ok with
  | false =>
    obtain ⟨_, _, _, h5⟩ := bind_ok e
    cases h5
  | true =>
    obtain ⟨kb', l, hl, hlb, n4⟩ := reIndexRows_ok hs (k := 0) hs kb (h := it.toList ++ s.held) n3.2
      (fun r e => by simp [e]) h4
    obtain ⟨_, s5, h5, e⟩ := bind_ok e
    have n5 := OkMoves.of (Moves.touch (pan := false) (B := b' :: (l ++ (it.toList ++ s.held))) (pre := [])
      (.inl (by simp))) s4 (b' :: (l ++ (it.toList ++ s.held))) n4.2 (fun _ hx => hx) _ _ h5
    obtain ⟨o, s6, h6, e⟩ := bind_ok e
    have n6 := OkMoves.attempt (pre := []) (B := []) .fallible s5 _ n5.2 (fun _ hx => nomatch hx) _ _ h6
    cases o with
    | none =>
      obtain ⟨_, _, _, h7⟩ := bind_ok e
      cases h7
    | some _ =>
      simp only at e
      obtain ⟨_, s7, h7, h8⟩ := bind_ok e
      have q6 : s6.held.Perm (it.toList ++ (b' :: (l ++ s.held))) := by
        refine n6.2.trans ?_
        refine .trans (.cons _ ?_) (List.perm_middle.symm)
        show (l ++ (it.toList ++ s.held)).Perm (it.toList ++ (l ++ s.held))
        rw [← List.append_assoc, ← List.append_assoc]
        exact List.Perm.append_right _ List.perm_append_comm
      have n7 := OkMoves.of (B := []) (Moves.close (pan := false) (pre := [])) s6 (b' :: (l ++ s.held))
        (by simpa using q6) (fun _ hx => nomatch hx) _ _ h7
      have n8 := OkMoves.of (B := []) (Moves.release (pan := false) (r := b') (pre := [])) s7 (l ++ s.held)
        (by simpa using n7.2) (fun _ hx => nomatch hx) _ _ h8
      exact ⟨l, by simpa using hl, hlb, n8.1.trans (n7.1.trans (n6.1.trans (n5.1.trans (n4.1.trans
        (n3.1.trans (n2.1.trans n1.1)))))), n8.2⟩

end Bond
