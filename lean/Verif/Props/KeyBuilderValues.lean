import Verif.KeyBuilderMemLemmas
import Verif.GoSlice
/-
C109: a key builder is a value (keys.go:11-145).
-/
namespace Bond
open Spec

/-- what a program means if builders are values: every statement adds one builder at most, and changes none -/
def Spec.builders : List KeyBuilder → List KStmt → List KeyBuilder
  | bs, [] => bs
  | bs, .new xs _ :: prog => Spec.builders (bs ++ [KeyBuilder.new xs]) prog
  | bs, .add i f :: prog =>
    match (bs[i]?).bind (fun b => b.addField f) with
    | some b => Spec.builders (bs ++ [b]) prog
    | none => Spec.builders bs prog

/-- the builders that a program adds fields to, one entry for each time -/
def Spec.bases : List KStmt → List Nat
  | [] => []
  | .new _ _ :: prog => Spec.bases prog
  | .add i _ :: prog => i :: Spec.bases prog

/-- the builders of a state and the values they stand for; `used` are those that fields have been added to -/
structure BuildersOK (used : List Nat) (st : KSt) (vs : List KeyBuilder) : Prop where
  length : st.bs.length = vs.length
  ok : ∀ b ∈ st.bs, b.buff.OK st.mem ∧ b.buff.off = 0
  val : ∀ (i : Nat) (b : KBM), st.bs[i]? = some b → vs[i]? = some (KeyBuilder.mk (st.mem.read b.buff) b.fid)
  top : ∀ (i : Nat) (b : KBM), i ∉ used → st.bs[i]? = some b → ∀ (k : Nat) (c : KBM), k ≠ i → st.bs[k]? = some c → c.buff.arr = b.buff.arr → c.buff.len < b.buff.len

theorem getElem?_concat_cases {α : Type} {l : List α} {x y : α} {i : Nat} (h : (l ++ [x])[i]? = some y) :
    (i < l.length ∧ l[i]? = some y) ∨ (i = l.length ∧ y = x) := by
  rw [List.getElem?_append] at h
  split at h
  · exact Or.inl ⟨by assumption, h⟩
  · rename_i hi
    have : i - l.length = 0 := by
      by_cases h0 : i - l.length = 0
      · exact h0
      · rw [List.getElem?_eq_none (by simp; omega)] at h; cases h
    rw [this] at h
    simp at h
    exact Or.inr ⟨by omega, h.symm⟩

theorem getElem?_lt {α : Type} {l : List α} {y : α} {i : Nat} (h : l[i]? = some y) : i < l.length := by
  by_cases hi : i < l.length
  · exact hi
  · rw [List.getElem?_eq_none (by omega)] at h; cases h

theorem buildersOK_new (grow : Nat → Nat → Nat) {used : List Nat} {st : KSt} {vs : List KeyBuilder} (h : BuildersOK used st vs) (xs : Bytes) (cap : Nat) :
    BuildersOK used (st.step grow (.new xs cap)) (vs ++ [KeyBuilder.new xs]) := by
  have hread : ∀ b ∈ st.bs, ({ st.mem.write st.mem.next 0 xs with next := st.mem.next + 1 } : Mem).read b.buff = st.mem.read b.buff := fun b hb =>
    st.mem.read_write_dis (Or.inl (Nat.ne_of_lt (h.ok b hb).1.1))
  refine ⟨by simp [KSt.step, h.length], ?_, ?_, ?_⟩
  · intro b hb
    simp only [KSt.step, List.mem_append, List.mem_singleton] at hb
    rcases hb with hb | rfl
    · exact ⟨(h.ok b hb).1.mono (Nat.le_succ _), (h.ok b hb).2⟩
    · exact ⟨⟨Nat.lt_succ_self _, Nat.le_max_left _ _⟩, rfl⟩
  · intro i b hb
    rcases getElem?_concat_cases hb with ⟨hi, hb⟩ | ⟨hi, rfl⟩
    · rw [List.getElem?_append_left (by rw [← h.length]; exact hi), h.val i b hb]
      simp only [KSt.step]
      rw [hread b (List.mem_of_getElem? hb)]
    · rw [hi, h.length, List.getElem?_concat_length]
      have := st.mem.read_write_append ⟨st.mem.next, 0, 0, 0⟩ xs
      simp only [Nat.zero_add] at this
      simp only [KSt.step, KeyBuilder.new, Option.some.injEq, KeyBuilder.mk.injEq, and_true]
      exact this.symm
  · intro i b hi hb k c hk hc harr
    rcases getElem?_concat_cases hb with ⟨_, hb⟩ | ⟨hi', rfl⟩ <;> rcases getElem?_concat_cases hc with ⟨_, hc⟩ | ⟨hk', rfl⟩
    · exact h.top i b hi hb k c hk hc harr
    · exact absurd harr.symm (Nat.ne_of_lt (h.ok b (List.mem_of_getElem? hb)).1.1)
    · exact absurd harr (Nat.ne_of_lt (h.ok c (List.mem_of_getElem? hc)).1.1)
    · exact absurd (hk'.trans hi'.symm) hk

theorem buildersOK_add (grow : Nat → Nat → Nat) {used : List Nat} {st : KSt} {vs : List KeyBuilder} (h : BuildersOK used st vs) (i : Nat) (hi : i ∉ used)
    (f : Field) : BuildersOK (i :: used) (st.step grow (.add i f))
      (match (vs[i]?).bind (fun b => b.addField f) with | some b => vs ++ [b] | none => vs) := by
  have weaken : ∀ {st vs}, BuildersOK used st vs → BuildersOK (i :: used) st vs := fun h =>
    ⟨h.length, h.ok, h.val, fun j b hj => h.top j b (fun hm => hj (List.mem_cons_of_mem _ hm))⟩
  simp only [KSt.step]
  cases hb : st.bs[i]? with
  | none =>
    have : vs[i]? = none := by
      rw [List.getElem?_eq_none_iff] at hb ⊢
      rw [← h.length]; exact hb
    simp only [this, Option.bind_none]
    exact weaken h
  | some b =>
    have hm := List.mem_of_getElem? hb
    have hok := (h.ok b hm).1
    have hspec := addFieldM_spec grow hok f
    rw [h.val i b hb]
    simp only [Option.bind_some]
    -- nothing else is changed
    have hkeep : ∀ {m' s'}, SlExtends st.mem b.buff m' s' → ∀ (j : Nat) (c : KBM), st.bs[j]? = some c → m'.read c.buff = st.mem.read c.buff := by
      intro m' s' he j c hc
      apply he.read (h.ok c (List.mem_of_getElem? hc)).1
      by_cases hj : j = i
      · subst hj
        rw [hb] at hc
        cases hc
        exact Or.inr (Or.inl (Nat.le_refl _))
      · by_cases harr : c.buff.arr = b.buff.arr
        · have := h.top i b hi hb j c hj hc harr
          have e1 := (h.ok b hm).2
          have e2 := (h.ok c (List.mem_of_getElem? hc)).2
          exact Or.inr (Or.inl (by omega))
        · exact Or.inl harr
    cases hr : b.addField grow st.mem f with
    | mk m' ob =>
    rw [hr] at hspec
    cases ob with
    | none =>
      cases hk : KeyBuilder.addField ⟨st.mem.read b.buff, b.fid⟩ f with
      | some k => rw [hk] at hspec; exact hspec.elim
      | none =>
        rw [hk] at hspec
        obtain ⟨s', he⟩ := hspec
        apply weaken
        exact ⟨h.length, fun c hc => ⟨(h.ok c hc).1.mono he.next_le, (h.ok c hc).2⟩,
          fun j c hc => by rw [h.val j c hc]; simp only; rw [hkeep he j c hc], h.top⟩
    | some b' =>
      cases hk : KeyBuilder.addField ⟨st.mem.read b.buff, b.fid⟩ f with
      | none => rw [hk] at hspec; exact hspec.elim
      | some k =>
        rw [hk] at hspec
        obtain ⟨he, hkv, hlt⟩ := hspec
        refine ⟨by simp [h.length], ?_, ?_, ?_⟩
        · intro c hc
          simp only [List.mem_append, List.mem_singleton] at hc
          rcases hc with hc | rfl
          · exact ⟨(h.ok c hc).1.mono he.next_le, (h.ok c hc).2⟩
          · refine ⟨he.ok, ?_⟩
            rcases he.place with ⟨_, e, _⟩ | ⟨_, e⟩
            · rw [e]; exact (h.ok b hm).2
            · exact e
        · intro j c hc
          rcases getElem?_concat_cases hc with ⟨hj, hc⟩ | ⟨hj, rfl⟩
          · rw [List.getElem?_append_left (by rw [← h.length]; exact hj), h.val j c hc]
            simp only
            rw [hkeep he j c hc]
          · rw [hj, h.length, List.getElem?_concat_length, hkv]
        · intro j c hj hc k' d hkj hd harr
          rw [List.mem_cons, not_or] at hj
          rcases getElem?_concat_cases hc with ⟨_, hc1⟩ | ⟨hj', rfl⟩ <;> rcases getElem?_concat_cases hd with ⟨_, hd⟩ | ⟨hk', rfl⟩
          · exact h.top j c hj.2 hc1 k' d hkj hd harr
          · -- the new builder on the array of an unused one: then that one and the base were both the longest
            exfalso
            have hcok := (h.ok c (List.mem_of_getElem? hc1)).1.1
            rcases he.place with ⟨e, _, _⟩ | ⟨e, _⟩
            · have a1 := h.top j c hj.2 hc1 i b (Ne.symm hj.1) hb (by rw [← harr, e])
              have a2 := h.top i b hi hb j c hj.1 hc1 (by rw [← harr, e])
              omega
            · omega
          · have hdok := (h.ok d (List.mem_of_getElem? hd)).1.1
            rcases he.place with ⟨e, _, _⟩ | ⟨e, _⟩
            · by_cases hki : k' = i
              · subst hki
                rw [hb] at hd
                cases hd
                exact hlt
              · have := h.top i b hi hb k' d hki hd (by rw [harr, e])
                omega
            · omega
          · exact absurd (hk'.trans hj'.symm) hkj

theorem buildersOK_run (grow : Nat → Nat → Nat) (prog : List KStmt) : ∀ {used : List Nat} {st : KSt} {vs : List KeyBuilder}, BuildersOK used st vs →
    (Spec.bases prog).Nodup → (∀ i ∈ Spec.bases prog, i ∉ used) → ∃ used', BuildersOK used' (st.run grow prog) (Spec.builders vs prog) := by
  induction prog with
  | nil => intro used st vs h _ _; exact ⟨used, h⟩
  | cons s prog ih =>
    intro used st vs h hn hu
    cases s with
    | new xs cap => exact ih (buildersOK_new grow h xs cap) hn hu
    | add i f =>
      simp only [Spec.bases, List.nodup_cons] at hn
      have h1 := buildersOK_add grow h i (hu i (by simp [Spec.bases])) f
      obtain ⟨u, h2⟩ := ih h1 hn.2 (fun j hj => by
        rw [List.mem_cons, not_or]
        exact ⟨fun e => hn.1 (e ▸ hj), hu j (by simp [Spec.bases, hj])⟩)
      refine ⟨u, ?_⟩
      simp only [Spec.builders]
      cases hbd : (vs[i]?).bind (fun b => b.addField f) with
      | none => rw [hbd] at h2; exact h2
      | some b => rw [hbd] at h2; exact h2

/-- C109 for programs that add to no builder twice, whatever buffers they give and whatever capacities the runtime chooses: in the end
every builder, old or new, has the bytes of its own fields.
Missing for the full C109: adding twice to one builder, see `C109_refuted`. -/
theorem C109_partial (grow : Nat → Nat → Nat) (prog : List KStmt) (h : (Spec.bases prog).Nodup) (i : Nat) :
    (KSt.start.run grow prog).bytes i = ((Spec.builders [] prog)[i]?).map KeyBuilder.bytes := by
  obtain ⟨u, hb⟩ := buildersOK_run grow prog (used := []) (st := KSt.start) (vs := [])
    ⟨rfl, (by intro b hb; cases hb), (by intro i b hb; simp [KSt.start] at hb), (by intro i b _ hb; simp [KSt.start] at hb)⟩ h (by simp)
  unfold KSt.bytes
  cases he : (KSt.start.run grow prog).bs[i]? with
  | some b => rw [hb.val i b he]; rfl
  | none =>
    have : (Spec.builders [] prog)[i]? = none := by
      rw [List.getElem?_eq_none_iff] at he ⊢
      rw [← hb.length]; exact he
    rw [this]; rfl

/-- a program with two keys of two fields each and a failing big integer -/
def exKeyProg : List KStmt := [.new [] 128, .add 0 (.u16 5), .new [7] 0, .add 2 (.big (-3) 16), .add 1 (.str [9]), .add 4 (.big 300 8)]

example : (Spec.bases exKeyProg).Nodup ∧ (KSt.start.run doubling exKeyProg).bytes 4 = some [1, 0, 5, 2, 9] ∧
    (KSt.start.run doubling exKeyProg).bytes 1 = some [1, 0, 5] ∧ (KSt.start.run doubling exKeyProg).bytes 3 = some [7, 1, 0, 255, 252] ∧
    (KSt.start.run doubling exKeyProg).bytes 5 = none := by
  decide +kernel

/-- the memory of a program is in order: every builder lies in an allocated array -/
theorem builders_alloc (grow : Nat → Nat → Nat) (prog : List KStmt) : ∀ {st : KSt}, (∀ b ∈ st.bs, b.buff.OK st.mem) →
    ∀ b ∈ (st.run grow prog).bs, b.buff.OK (st.run grow prog).mem := by
  induction prog with
  | nil => intro st h; exact h
  | cons s prog ih =>
    intro st h
    apply ih
    cases s with
    | new xs cap =>
      intro b hb
      simp only [KSt.step, List.mem_append, List.mem_singleton] at hb ⊢
      rcases hb with hb | rfl
      · exact (h b hb).mono (Nat.le_succ _)
      · exact ⟨Nat.lt_succ_self _, Nat.le_max_left _ _⟩
    | add i f =>
      simp only [KSt.step]
      cases hb : st.bs[i]? with
      | none => exact h
      | some b =>
        have hspec := addFieldM_spec grow (h b (List.mem_of_getElem? hb)) f
        cases hr : b.addField grow st.mem f with
        | mk m' ob =>
        rw [hr] at hspec
        cases ob with
        | none =>
          cases hk : KeyBuilder.addField ⟨st.mem.read b.buff, b.fid⟩ f with
          | some k => rw [hk] at hspec; exact hspec.elim
          | none =>
            rw [hk] at hspec
            obtain ⟨s', he⟩ := hspec
            simp only [hr]
            exact fun c hc => (h c hc).mono he.next_le
        | some b' =>
          cases hk : KeyBuilder.addField ⟨st.mem.read b.buff, b.fid⟩ f with
          | none => rw [hk] at hspec; exact hspec.elim
          | some k =>
            rw [hk] at hspec
            simp only [hr]
            intro c hc
            simp only [List.mem_append, List.mem_singleton] at hc
            rcases hc with hc | rfl
            · exact (h c hc).mono hspec.1.next_le
            · exact hspec.1.ok

/-- C109 for the key built last, in any program, also one that adds to a builder many times: the new builder has the bytes of the builder
it was made from followed by the field, and that builder has not changed.
Missing for the full C109: the other builders. -/
theorem C109_last_partial (grow : Nat → Nat → Nat) (prog : List KStmt) (i : Nat) (f : Field) {b : KBM}
    (hb : (KSt.start.run grow prog).bs[i]? = some b) {k : KeyBuilder}
    (hk : KeyBuilder.addField ⟨(KSt.start.run grow prog).mem.read b.buff, b.fid⟩ f = some k) :
    let st := (KSt.start.run grow prog).step grow (.add i f)
    st.bytes (KSt.start.run grow prog).bs.length = some k.bytes ∧ st.bs[i]? = some b ∧ st.bytes i = (KSt.start.run grow prog).bytes i := by
  have hok := builders_alloc grow prog (st := KSt.start) (by intro b hb; cases hb) b (List.mem_of_getElem? hb)
  generalize KSt.start.run grow prog = st0 at *
  have hspec := addFieldM_spec grow hok f
  simp only [KSt.step, hb]
  cases hr : b.addField grow st0.mem f with
  | mk m' ob =>
  rw [hr, hk] at hspec
  cases ob with
  | none => exact hspec.elim
  | some b' =>
    obtain ⟨he, hkv, _⟩ := hspec
    have hi := getElem?_lt hb
    refine ⟨by simp [KSt.bytes, hkv, KeyBuilder.bytes], by simp only; rw [List.getElem?_append_left hi, hb], ?_⟩
    simp only [KSt.bytes]
    rw [List.getElem?_append_left hi, hb]
    simp only [Option.map_some, Option.some.injEq]
    exact he.read hok (Or.inr (Or.inl (Nat.le_refl _)))

example : ∃ b k, (KSt.start.run doubling exKeyProg).bs[1]? = some b ∧
    KeyBuilder.addField ⟨(KSt.start.run doubling exKeyProg).mem.read b.buff, b.fid⟩ (.byte 8) = some k ∧ k.bytes = [1, 0, 5, 2, 8] := by
  refine ⟨⟨⟨0, 0, 3, 128⟩, 1⟩, ⟨[1, 0, 5, 2, 8], 2⟩, by decide +kernel, by decide +kernel, rfl⟩

/-- the keys a loop gets that adds one field after the other to the same builder and looks at each key before it makes the next -/
def loopKeys (grow : Nat → Nat → Nat) (i : Nat) : KSt → List Field → List (Option Bytes)
  | _, [] => []
  | st, f :: fs => let st' := st.step grow (.add i f); st'.bytes st.bs.length :: loopKeys grow i st' fs

/-- C109 for loops: a program that makes many keys from one builder, and is done with each of them before it makes the next, gets each
of them right.
Missing for the full C109: keys that are used later, see `C109_refuted`. -/
theorem C109_loop_partial (grow : Nat → Nat → Nat) (prog : List KStmt) (i : Nat) {b : KBM} (hb : (KSt.start.run grow prog).bs[i]? = some b)
    (fs : List Field) (hf : ∀ f ∈ fs, (KeyBuilder.addField ⟨(KSt.start.run grow prog).mem.read b.buff, b.fid⟩ f).isSome) :
    loopKeys grow i (KSt.start.run grow prog) fs =
      fs.map (fun f => (KeyBuilder.addField ⟨(KSt.start.run grow prog).mem.read b.buff, b.fid⟩ f).map KeyBuilder.bytes) := by
  induction fs generalizing prog with
  | nil => rfl
  | cons f fs ih =>
    obtain ⟨k, hk⟩ := Option.isSome_iff_exists.1 (hf f (by simp))
    have h := C109_last_partial grow prog i f hb hk
    simp only at h
    have e : (KSt.start.run grow prog).step grow (.add i f) = KSt.start.run grow (prog ++ [.add i f]) := by
      unfold KSt.run; rw [List.foldl_append]; rfl
    have hr : (KSt.start.run grow (prog ++ [.add i f])).mem.read b.buff = (KSt.start.run grow prog).mem.read b.buff := by
      have := h.2.2
      rw [e] at this
      unfold KSt.bytes at this
      rw [← e, h.2.1, hb] at this
      simpa only [Option.map_some, Option.some.injEq, e] using this
    simp only [loopKeys, List.map_cons]
    have ih' := ih (prog ++ [.add i f]) (by rw [← e]; exact h.2.1) (by rw [hr]; exact fun g hg => hf g (by simp [hg]))
    rw [hr] at ih'
    rw [h.1, hk, e, ih']
    rfl

example : loopKeys doubling 1 (KSt.start.run doubling exKeyProg) [.byte 8, .u16 9] = [some [1, 0, 5, 2, 8], some [1, 0, 5, 2, 0, 9]] := by
  decide +kernel

/-- C109 is false: two keys are made from one builder, and the second overwrites the first. This happens with a buffer given by the
program, and also without one, since `append` makes more room than is needed (8 bytes at least in the Go runtime). -/
theorem C109_refuted :
    (let prog : List KStmt := [.new [] 128, .add 0 (.byte 1), .add 1 (.byte 2)]
     (KSt.start.run doubling prog).bytes 2 = some [1, 1, 2, 2] ∧
     (KSt.start.run doubling (prog ++ [.add 1 (.byte 3)])).bytes 2 = some [1, 1, 2, 3]) ∧
    (let prog : List KStmt := [.new [] 0, .add 0 (.byte 1), .add 1 (.byte 2)]
     (KSt.start.run (fun _ n => max 8 n) prog).bytes 2 = some [1, 1, 2, 2] ∧
     (KSt.start.run (fun _ n => max 8 n) (prog ++ [.add 1 (.byte 3)])).bytes 2 = some [1, 1, 2, 3]) := by
  decide +kernel

end Bond
