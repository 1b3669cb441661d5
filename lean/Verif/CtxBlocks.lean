import Verif.ScanLemmas
import Verif.Spec.Cancelled

/-!
Scans of secondary indexes ask the context once per block of prefetched rows (table.go:1158-1193).
-/

namespace Bond
open Spec
variable {T F σ : Type}

/-- rows of the block that are left after the callback was called for its first row: a callback that reads the record prefetches a
block, one that does not is alone (table.go:1128-1179) -/
def Spec.blockLeft (pre : Nat) : Cb σ T → Nat
  | .ret .. => 0
  | .get .. => pre - 1

/-- What a scan of a secondary index does with a context (table.go:1158-1193): `n` counts the questions to the context, `left` are the
rows that are handed out before the next one. -/
def Spec.ctxBlocks (d : Nat → Bool) (f : σ → Bytes → Cb σ T) (pre : Nat) : Nat → Nat → List (Bytes × T) → σ → ScanOut σ
  | _, _, [], s => ⟨s, none⟩
  | n, 0, (k, x) :: rest, s =>
    if d n then ⟨s, some .ctxDone⟩
    else
      let (s', cont, err) := (f s k).run (.ok x)
      if !cont || err.isSome then ⟨s', err⟩ else Spec.ctxBlocks d f pre (n + 1) (blockLeft pre (f s k)) rest s'
  | n, left + 1, (k, x) :: rest, s =>
    let (s', cont, err) := (f s k).run (.ok x)
    if !cont || err.isSome then ⟨s', err⟩ else Spec.ctxBlocks d f pre n left rest s'

theorem ctxBlocks_stop {d : Nat → Bool} {f : σ → Bytes → Cb σ T} {pre n left : Nat} {k : Bytes} {x : T} {rest : List (Bytes × T)} {s s' : σ} {cont : Bool}
    {err : Option Err} (h : (f s k).run (.ok x) = (s', cont, err)) (hc : (!cont || err.isSome) = true) :
    ctxBlocks d f pre n (left + 1) ((k, x) :: rest) s = ⟨s', err⟩ := by
  rw [ctxBlocks, h]; simp only [hc, if_true]

theorem ctxBlocks_go {d : Nat → Bool} {f : σ → Bytes → Cb σ T} {pre n left : Nat} {k : Bytes} {x : T} {rest : List (Bytes × T)} {s s' : σ} {cont : Bool}
    {err : Option Err} (h : (f s k).run (.ok x) = (s', cont, err)) (hc : ¬ (!cont || err.isSome) = true) :
    ctxBlocks d f pre n (left + 1) ((k, x) :: rest) s = ctxBlocks d f pre n left rest s' := by
  rw [ctxBlocks, h]; simp only [hc]; rfl

theorem ctxBlocks_ask_stop {d : Nat → Bool} {f : σ → Bytes → Cb σ T} {pre n : Nat} {k : Bytes} {x : T} {rest : List (Bytes × T)} {s s' : σ} {cont : Bool}
    {err : Option Err} (hd : d n = false) (h : (f s k).run (.ok x) = (s', cont, err)) (hc : (!cont || err.isSome) = true) :
    ctxBlocks d f pre n 0 ((k, x) :: rest) s = ⟨s', err⟩ := by
  rw [ctxBlocks, h, hd]; simp only [hc, if_true]; rfl

theorem ctxBlocks_ask_go {d : Nat → Bool} {f : σ → Bytes → Cb σ T} {pre n : Nat} {k : Bytes} {x : T} {rest : List (Bytes × T)} {s s' : σ} {cont : Bool}
    {err : Option Err} (hd : d n = false) (h : (f s k).run (.ok x) = (s', cont, err)) (hc : ¬ (!cont || err.isSome) = true) :
    ctxBlocks d f pre n 0 ((k, x) :: rest) s = ctxBlocks d f pre (n + 1) (blockLeft pre (f s k)) rest s' := by
  rw [ctxBlocks, h, hd]; simp only [hc]; rfl

/-- loop over the prefetched rows: the context is not asked -/
theorem innerLoop_blocks {t : Table T F} (rt : t.RoundTripFresh) {filt : F} {view : σ → KV × Option Batch}
    {f : σ → Bytes → Cb σ T} {fetched : σ → Prop}
    (hf : FetchesAll f fetched) {inv : List (Bytes × T) → σ → Prop} (hk : KeepsRows t filt view f inv)
    (d : Nat → Bool) (pre n : Nat) (more todo done : List (Bytes × T)) (left fuel : Nat) (p : PSt) (s : σ)
    (hser : ∀ r ∈ todo, (t.ser r.2).isSome)
    (hv : p.values = serAll t (done ++ todo)) (hkeys : p.indexKeys = (done ++ todo).map Prod.fst)
    (hi : p.vidx = done.length) (hfe : fetched s) (hinv : inv (todo ++ more) s) (hfuel : todo.length ≤ fuel)
    (hleft : todo.length = left ∨ (todo.length ≤ left ∧ more = [])) :
    (∃ o, t.innerLoop f fuel p s = .stop o ∧ ctxBlocks d f pre n left (todo ++ more) s = o) ∨
    (∃ p' s', t.innerLoop f fuel p s = .go (p', s') ∧ p'.rest = p.rest ∧
      ctxBlocks d f pre n left (todo ++ more) s = ctxBlocks d f pre n 0 more s' ∧ inv more s') := by
  induction todo generalizing done left fuel p s with
  | nil =>
    right
    refine ⟨p, s, ?_, rfl, ?_, hinv⟩
    rotate_left
    · rcases hleft with h | ⟨_, h⟩
      · rw [← h]; rfl
      · subst h; rfl
    have : ¬ p.vidx < p.values.length := by rw [hv, hi, serAll]; simp
    cases fuel <;> rw [Table.innerLoop, if_neg this]
  | cons r todo ih =>
    obtain ⟨k, x⟩ := r
    obtain ⟨fuel, rfl⟩ : ∃ n, fuel = n + 1 := ⟨fuel - 1, by simp at hfuel; omega⟩
    obtain ⟨left, rfl⟩ : ∃ n, left = n + 1 := ⟨left - 1, by simp at hleft; omega⟩
    have hlt : p.vidx < p.values.length := by rw [hv, hi, serAll]; simp
    have hkey : p.indexKeys[p.vidx]? = some k := by
      rw [hkeys, hi, List.map_append, List.getElem?_append_right (by simp)]; simp
    rw [Table.innerLoop, if_pos hlt]
    simp only [hkey]
    obtain ⟨s0, g, hg, hng⟩ := hf.after s k hfe
    have hget := getPrefetched_eq (todo := todo) rt hv hi (hser (k, x) (by simp))
    have hrun : t.runInner p (f s k) = some ({ p with vidx := done.length + 1 }, (f s k).run (.ok x)) := by
      rw [hg, Table.runInner, hget]
      simp only
      obtain ⟨s1, c1, e1, h1⟩ := hng (.ok x)
      rw [h1, Table.runInner, Cb.run, h1, Cb.run]
    rw [hrun]
    simp only
    have hone : (f s k).oneGet := ⟨s0, g, hg, hng⟩
    generalize hout : (f s k).run (.ok x) = out
    obtain ⟨s', cont, err⟩ := out
    by_cases hc : (!cont || err.isSome) = true
    · left
      simp only [hc, if_true]
      exact ⟨_, rfl, ctxBlocks_stop hout hc⟩
    · simp only [hc]
      rw [List.cons_append, ctxBlocks_go hout hc]
      have hct : cont = true := by
        cases cont <;> simp_all
      have hinv' := hk.step k x (todo ++ more) s hinv (by rw [hout]; exact hct)
      rw [hout] at hinv'
      have hfe' := hf.stays s k (.ok x) hone (by rw [hout]; exact hct)
      rw [hout] at hfe'
      exact ih (done ++ [(k, x)]) left fuel { p with vidx := done.length + 1 } s' (fun r hr => hser r (by simp [hr]))
        (by simp [hv]) (by simp [hkeys]) (by simp) hfe' hinv' (by simp at hfuel; omega)
        (by simp only [List.length_cons] at hleft; rcases hleft with h | ⟨h, h'⟩
            · exact Or.inl (by omega)
            · exact Or.inr ⟨by omega, h'⟩)

/-- the outer loop: the context is asked once per block -/
theorem outerLoop_blocks {t : Table T F} (rt : t.RoundTripFresh) {env : Env T} (ok : env.OK t)
    {filt : F} {view : σ → KV × Option Batch} (hp : 0 < t.prefetch) {f : σ → Bytes → Cb σ T} {fetched : σ → Prop}
    (hf : FetchesAll f fetched) {inv : List (Bytes × T) → σ → Prop} (hk : KeepsRows t filt view f inv)
    (val : Bytes × T → Bytes) (innerFuel : Nat) (fuel : Nat) (rows : List (Bytes × T)) (hr : RowKeys t rows)
    (clock : Nat) (s : σ) (hinv : inv rows s) (h1 : rows.length ≤ fuel) (h2 : rows.length ≤ innerFuel) :
    t.outerLoop env filt view f innerFuel fuel clock
      { rest := rows.map (fun r => (r.1, val r)), keys := [], indexKeys := [], values := [], vidx := 0 } s =
      some (ctxBlocks env.done f t.prefetch clock 0 rows s) := by
  induction fuel generalizing rows clock s with
  | zero =>
    have : rows = [] := List.eq_nil_of_length_eq_zero (by omega)
    subst this
    rw [Table.outerLoop]; rfl
  | succ fuel ih =>
    cases rows with
    | nil => rw [Table.outerLoop]; rfl
    | cons r rows =>
      obtain ⟨k, x⟩ := r
      rw [Table.outerLoop]
      simp only [List.map_cons]
      by_cases hdone : env.done clock = true
      · rw [if_pos hdone, ctxBlocks, if_pos hdone]
      rw [if_neg hdone]
      have hdf : env.done clock = false := by simpa using hdone
      rcases hf.once s k with hno | hone
      · -- the callback skips the row
        obtain ⟨s', cont, err, he⟩ := hno
        have hout : (f s k).run (.ok x) = (s', cont, err) := by rw [he, Cb.run]
        rw [he, Table.runOuter]
        simp only
        by_cases hc : (!cont || err.isSome) = true
        · simp only [hc, if_true]
          rw [ctxBlocks_ask_stop hdf hout hc]
        · simp only [hc]
          rw [ctxBlocks_ask_go hdf hout hc, he, blockLeft]
          have hct : cont = true := by cases cont <;> simp_all
          have hinv' := hk.step k x rows s hinv (by rw [hout]; exact hct)
          rw [hout] at hinv'
          have hin : ∀ p : PSt, p.values = [] → t.innerLoop f innerFuel p s' = .go (p, s') := by
            intro p hp0
            have : ¬ p.vidx < p.values.length := by rw [hp0]; simp
            cases innerFuel <;> rw [Table.innerLoop, if_neg this]
          rw [hin _ rfl]
          simp only [List.tail_cons]
          exact ih rows (fun r hr' => hr r (by simp [hr'])) (clock + 1) s' hinv' (by simp at h1; omega) (by simp at h2; omega)
      · obtain ⟨s0, g, hg, hng⟩ := hone
        have hs := hk.sees k x rows s s0 g hinv hg
        obtain ⟨rest', keys', hpre, htail⟩ := prefetch_eq (view := view) rt ok hp val hr (fun r hr' => hs r (List.mem_of_mem_take hr'))
        simp only [List.map_cons] at hpre
        have hrun : t.runOuter env filt view
            { rest := (k, val (k, x)) :: rows.map (fun r => (r.1, val r)), keys := [], indexKeys := [], values := [], vidx := 0 } (f s k) =
            some ({ rest := rest', keys := keys', indexKeys := (((k, x) :: rows).take t.prefetch).map Prod.fst, values := serAll t (((k, x) :: rows).take t.prefetch), vidx := 1 }, (f s k).run (.ok x)) := by
          rw [hg, Table.runOuter, hpre]
          simp only
          obtain ⟨s1, c1, e1, h1⟩ := hng (.ok x)
          rw [h1, Table.runOuter, Cb.run, h1, Cb.run]
        rw [hrun]
        have hone : (f s k).oneGet := ⟨s0, g, hg, hng⟩
        simp only
        generalize hout : (f s k).run (.ok x) = out
        obtain ⟨s', cont, err⟩ := out
        by_cases hc : (!cont || err.isSome) = true
        · simp only [hc, if_true]
          rw [ctxBlocks_ask_stop hdf hout hc]
        · simp only [hc]
          have hct : cont = true := by cases cont <;> simp_all
          have hinv' := hk.step k x rows s hinv (by rw [hout]; exact hct)
          rw [hout] at hinv'
          have hfe' := hf.stays s k (.ok x) hone (by rw [hout]; exact hct)
          rw [hout] at hfe'
          obtain ⟨n, hn⟩ : ∃ n, t.prefetch = n + 1 := ⟨t.prefetch - 1, by omega⟩
          simp only [hn, List.take_succ_cons, List.drop_succ_cons] at htail ⊢
          rw [ctxBlocks_ask_go hdf hout hc, hg, blockLeft, Nat.add_sub_cancel]
          have hin := innerLoop_blocks rt hf hk env.done (n + 1) (clock + 1) (rows.drop n) (rows.take n) [(k, x)] n innerFuel
            { rest := rest', keys := keys', indexKeys := ((k, x) :: rows.take n).map Prod.fst,
              values := serAll t ((k, x) :: rows.take n), vidx := 1 } s'
            (fun r hr' => by
              obtain ⟨b, hb, _⟩ := hs r (by simp [List.mem_of_mem_take hr'])
              simp [hb])
            rfl rfl rfl hfe' (by rw [List.take_append_drop]; exact hinv') (by simp at h2 ⊢; omega)
            (by
              rw [List.length_take]
              by_cases hle : n ≤ rows.length
              · exact Or.inl (by omega)
              · exact Or.inr ⟨by omega, List.drop_eq_nil_of_le (by omega)⟩)
          rw [List.take_append_drop] at hin
          rcases hin with ⟨o, ho, hrr⟩ | ⟨p', s'', ho, hrest, hrr, hinv''⟩
          · rw [ho]; simp only; rw [hrr]; rfl
          · rw [ho]; simp only
            rw [hrest, htail, hrr, ← hn]
            apply ih (rows.drop n) (fun r hr' => hr r (by simp [List.mem_of_mem_drop hr'])) (clock + 1) s'' hinv''
            · simp at h1 ⊢; omega
            · simp at h2 ⊢; omega

end Bond
