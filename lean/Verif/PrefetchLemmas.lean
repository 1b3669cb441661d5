import Verif.ReadLemmas
import Verif.Spec.Scans
/-
The loops of `scanForEachSecondaryIndex` call the callback once per row.
-/
namespace Bond
open Spec
variable {T F σ : Type}

/-- In state `s` the data of all the given rows (index key, record) is readable. -/
def Sees (t : Table T F) (filt : F) (view : σ → KV × Option Batch) (s : σ) (rows : List (Bytes × T)) : Prop :=
  ∀ r ∈ rows, ∃ b, t.ser r.2 = some b ∧ lookup t filt (view s).1 (view s).2 (t.key r.2) = some b

/-- the keys of the rows are index keys of the records -/
def RowKeys (t : Table T F) (rows : List (Bytes × T)) : Prop := ∀ r ∈ rows, toDataKeyBytes r.1 = some (t.key r.2)

/-- The callback keeps the rows it has not seen yet readable; `inv` holds before each call for the rows not yet
visited. -/
structure KeepsRows (t : Table T F) (filt : F) (view : σ → KV × Option Batch) (f : σ → Bytes → Cb σ T)
    (inv : List (Bytes × T) → σ → Prop) : Prop where
  sees : ∀ k x rows s s0 g, inv ((k, x) :: rows) s → f s k = .get s0 g → Sees t filt view s0 ((k, x) :: rows)
  step : ∀ k x rows s, inv ((k, x) :: rows) s → ((f s k).run (.ok x)).2.1 = true → inv rows ((f s k).run (.ok x)).1

/-- the serialized rows -/
def serAll (t : Table T F) (rows : List (Bytes × T)) : List Bytes := rows.map (fun r => (t.ser r.2).getD [])

theorem getPrefetched_eq {t : Table T F} (rt : t.RoundTripFresh) {done todo : List (Bytes × T)} {k : Bytes} {x : T}
    {p : PSt} (hv : p.values = serAll t (done ++ (k, x) :: todo)) (hi : p.vidx = done.length) (hs : (t.ser x).isSome) :
    t.getPrefetchedValue p = some ({ p with vidx := done.length + 1 }, .ok x) := by
  obtain ⟨b, hb⟩ := Option.isSome_iff_exists.1 hs
  unfold Table.getPrefetchedValue
  have : p.values[p.vidx]? = some b := by
    rw [hv, hi, serAll, List.map_append, List.getElem?_append_right (by simp)]
    simp [hb]
  rw [this]
  simp only [rt x b hb]
  rw [hi]

theorem noGet_run {c : Cb σ T} (h : c.noGet) (r r' : Except Err T) : c.run r = c.run r' := by
  obtain ⟨s, cont, err, rfl⟩ := h; rfl

theorem runRows_cons_stop {f : σ → Bytes → Cb σ T} {k : Bytes} {x : T} {rest : List (Bytes × T)} {s s' : σ} {cont : Bool}
    {err : Option Err} (h : (f s k).run (.ok x) = (s', cont, err)) (hc : (!cont || err.isSome) = true) :
    runRows f ((k, x) :: rest) s = ⟨s', err⟩ := by
  rw [runRows, h]; simp only [hc, if_true]

theorem runRows_cons_go {f : σ → Bytes → Cb σ T} {k : Bytes} {x : T} {rest : List (Bytes × T)} {s s' : σ} {cont : Bool}
    {err : Option Err} (h : (f s k).run (.ok x) = (s', cont, err)) (hc : ¬ (!cont || err.isSome) = true) :
    runRows f ((k, x) :: rest) s = runRows f rest s' := by
  rw [runRows, h]; simp only [hc]; rfl

/-- loop over the prefetched rows -/
theorem innerLoop_eq {t : Table T F} (rt : t.RoundTripFresh) {filt : F} {view : σ → KV × Option Batch}
    {f : σ → Bytes → Cb σ T} {fetched : σ → Prop}
    (hf : FetchesAll f fetched) {inv : List (Bytes × T) → σ → Prop} (hk : KeepsRows t filt view f inv)
    (more todo done : List (Bytes × T)) (fuel : Nat) (p : PSt) (s : σ)
    (hser : ∀ r ∈ todo, (t.ser r.2).isSome)
    (hv : p.values = serAll t (done ++ todo)) (hkeys : p.indexKeys = (done ++ todo).map Prod.fst)
    (hi : p.vidx = done.length) (hfe : fetched s) (hinv : inv (todo ++ more) s) (hfuel : todo.length ≤ fuel) :
    (∃ o, t.innerLoop f fuel p s = .stop o ∧ runRows f (todo ++ more) s = o) ∨
    (∃ p' s', t.innerLoop f fuel p s = .go (p', s') ∧ p'.rest = p.rest ∧
      runRows f (todo ++ more) s = runRows f more s' ∧ inv more s') := by
  induction todo generalizing done fuel p s with
  | nil =>
    right
    refine ⟨p, s, ?_, rfl, rfl, hinv⟩
    have : ¬ p.vidx < p.values.length := by rw [hv, hi, serAll]; simp
    cases fuel <;> rw [Table.innerLoop, if_neg this]
  | cons r todo ih =>
    obtain ⟨k, x⟩ := r
    obtain ⟨fuel, rfl⟩ : ∃ n, fuel = n + 1 := ⟨fuel - 1, by simp at hfuel; omega⟩
    have hlt : p.vidx < p.values.length := by rw [hv, hi, serAll]; simp
    have hkey : p.indexKeys[p.vidx]? = some k := by
      rw [hkeys, hi, List.map_append, List.getElem?_append_right (by simp)]; simp
    rw [Table.innerLoop, if_pos hlt]
    simp only [hkey]
    obtain ⟨s0, g, hg, hng⟩ := hf.after s k hfe
    have hget := getPrefetched_eq (todo := todo) rt hv hi (hser (k, x) (by simp))
    have hrun : t.runInner p (f s k) = some ({ p with vidx := done.length + 1 }, (f s k).run (.ok x)) := by
      rw [hg, Table.runInner, hget]
      simp only
      obtain ⟨s1, c1, e1, h1⟩ := hng (.ok x)
      rw [h1, Table.runInner, Cb.run, h1, Cb.run]
    rw [hrun]
    simp only
    have hone : (f s k).oneGet := ⟨s0, g, hg, hng⟩
    generalize hout : (f s k).run (.ok x) = out
    obtain ⟨s', cont, err⟩ := out
    by_cases hc : (!cont || err.isSome) = true
    · left
      simp only [hc, if_true]
      exact ⟨_, rfl, runRows_cons_stop hout hc⟩
    · simp only [hc]
      rw [List.cons_append, runRows_cons_go hout hc]
      have hct : cont = true := by
        cases cont <;> simp_all
      have hinv' := hk.step k x (todo ++ more) s hinv (by rw [hout]; exact hct)
      rw [hout] at hinv'
      have hfe' := hf.stays s k (.ok x) hone (by rw [hout]; exact hct)
      rw [hout] at hfe'
      exact ih (done ++ [(k, x)]) fuel { p with vidx := done.length + 1 } s' (fun r hr => hser r (by simp [hr]))
        (by simp [hv]) (by simp [hkeys]) (by simp) hfe' hinv' (by simp at hfuel; omega)

/-- what `prefetchAndGetValue` collects: the next rows up to the prefetch size -/
theorem collectKeys_eq (t : Table T F) (rows : List (Bytes × T)) (val : Bytes × T → Bytes) (hr : RowKeys t rows)
    (keys ikeys : List Bytes)
    (hk : keys.length < t.prefetch) : ∃ rest', t.collectKeys (rows.map (fun r => (r.1, val r))) keys ikeys =
      some (rest', keys ++ (rows.take (t.prefetch - keys.length)).map (fun r => t.key r.2),
        ikeys ++ (rows.take (t.prefetch - keys.length)).map Prod.fst) ∧
      rest'.tail = (rows.drop (t.prefetch - keys.length)).map (fun r => (r.1, val r)) := by
  induction rows generalizing keys ikeys with
  | nil => exact ⟨[], by simp [Table.collectKeys], by simp⟩
  | cons r rows ih =>
    obtain ⟨k, x⟩ := r
    have hx : toDataKeyBytes k = some (t.key x) := hr (k, x) (by simp)
    simp only [List.map_cons, Table.collectKeys, hx]
    obtain ⟨n, hn⟩ : ∃ n, t.prefetch - keys.length = n + 1 := ⟨t.prefetch - keys.length - 1, by omega⟩
    rw [hn]
    simp only [List.take_succ_cons, List.map_cons, List.drop_succ_cons]
    by_cases hlt : (keys ++ [t.key x]).length < t.prefetch
    · rw [if_pos hlt]
      obtain ⟨rest', h1, h2⟩ := ih (fun r hr' => hr r (by simp [hr'])) (keys ++ [t.key x]) (ikeys ++ [k]) hlt
      have hn' : t.prefetch - (keys ++ [t.key x]).length = n := by simp; omega
      rw [hn'] at h1 h2
      exact ⟨rest', by rw [h1]; simp, h2⟩
    · rw [if_neg hlt]
      have hn' : n = 0 := by simp at hlt; omega
      subst hn'
      exact ⟨(k, val (k, x)) :: rows.map (fun r => (r.1, val r)), by simp, by simp⟩

theorem blt_key_end (t : Table T F) (x : T) : blt (t.key x) t.dataKeySpaceEnd = true := by
  unfold Table.key Table.dataKeySpaceEnd
  rw [dataKey_eq]; simp [blt]

/-- the first `Get` on a fresh row -/
theorem prefetch_eq {t : Table T F} (rt : t.RoundTripFresh) {env : Env T} (ok : env.OK t) {filt : F} {view : σ → KV × Option Batch}
    (hp : 0 < t.prefetch) {s : σ} {k : Bytes} {x : T} {rows : List (Bytes × T)} (val : Bytes × T → Bytes)
    (hr : RowKeys t ((k, x) :: rows)) (hs : Sees t filt view s (((k, x) :: rows).take t.prefetch)) :
    ∃ rest' keys', t.prefetchAndGetValue env filt (view s).1 (view s).2
        { rest := ((k, x) :: rows).map (fun r => (r.1, val r)), keys := [], indexKeys := [], values := [], vidx := 0 } =
      some ({ rest := rest', keys := keys', indexKeys := (((k, x) :: rows).take t.prefetch).map Prod.fst,
              values := serAll t (((k, x) :: rows).take t.prefetch), vidx := 1 }, .ok x) ∧
      rest'.tail = (((k, x) :: rows).drop t.prefetch).map (fun r => (r.1, val r)) := by
  obtain ⟨rest', h1, h2⟩ := collectKeys_eq t ((k, x) :: rows) val hr [] [] hp
  simp only [List.length_nil, Nat.sub_zero, List.nil_append] at h1 h2
  unfold Table.prefetchAndGetValue
  simp only [h1]
  have hval : t.getKeys env filt (view s).1 (view s).2 ((((k, x) :: rows).take t.prefetch).map (fun r => t.key r.2)) t.prefetch true
      = .ok (serAll t (((k, x) :: rows).take t.prefetch)) := by
    rw [getKeys_ok t ok filt _ _ ?_ ?_ true ?_]
    · unfold serAll
      rw [List.map_map]
      congr 1
      apply List.map_congr_left
      intro r hr'
      obtain ⟨b, hb, hl⟩ := hs r hr'
      simp [hl, hb]
    · intro k' hk'
      obtain ⟨r, _, rfl⟩ := List.mem_map.1 hk'
      exact blt_key_end t r.2
    · simp; omega
    · intro _ k' hk'
      obtain ⟨r, hr', rfl⟩ := List.mem_map.1 hk'
      obtain ⟨b, _, hl⟩ := hs r hr'
      simp [hl]
  rw [hval]
  simp only
  obtain ⟨n, hn⟩ : ∃ n, t.prefetch = n + 1 := ⟨t.prefetch - 1, by omega⟩
  have hx : (t.ser x).isSome := by
    obtain ⟨b, hb, _⟩ := hs (k, x) (by rw [hn]; simp); simp [hb]
  refine ⟨rest', if List.map (fun r => t.key r.snd) (List.take t.prefetch ((k, x) :: rows)) = [] then [] else
    (sortKeys env (List.map (fun r => t.key r.snd) (List.take t.prefetch ((k, x) :: rows)))).map Prod.fst, ?_, h2⟩
  rw [getPrefetched_eq (done := []) (todo := rows.take n) (k := k) rt (by simp [hn]) rfl hx]
  rfl

/-- the outer loop -/
theorem outerLoop_eq {t : Table T F} (rt : t.RoundTripFresh) {env : Env T} (ok : env.OK t) (hd : ∀ n, env.done n = false)
    {filt : F} {view : σ → KV × Option Batch} (hp : 0 < t.prefetch) {f : σ → Bytes → Cb σ T} {fetched : σ → Prop}
    (hf : FetchesAll f fetched) {inv : List (Bytes × T) → σ → Prop} (hk : KeepsRows t filt view f inv)
    (val : Bytes × T → Bytes) (innerFuel : Nat) (fuel : Nat) (rows : List (Bytes × T)) (hr : RowKeys t rows)
    (clock : Nat) (s : σ) (hinv : inv rows s) (h1 : rows.length ≤ fuel) (h2 : rows.length ≤ innerFuel) :
    t.outerLoop env filt view f innerFuel fuel clock
      { rest := rows.map (fun r => (r.1, val r)), keys := [], indexKeys := [], values := [], vidx := 0 } s =
      some (runRows f rows s) := by
  induction fuel generalizing rows clock s with
  | zero =>
    have : rows = [] := List.eq_nil_of_length_eq_zero (by omega)
    subst this
    rw [Table.outerLoop]; rfl
  | succ fuel ih =>
    cases rows with
    | nil => rw [Table.outerLoop]; rfl
    | cons r rows =>
      obtain ⟨k, x⟩ := r
      rw [Table.outerLoop]
      simp only [List.map_cons, hd, Bool.false_eq_true, if_false]
      rcases hf.once s k with hno | hone
      · -- the callback skips the row
        obtain ⟨s', cont, err, he⟩ := hno
        have hout : (f s k).run (.ok x) = (s', cont, err) := by rw [he, Cb.run]
        rw [he, Table.runOuter]
        simp only
        by_cases hc : (!cont || err.isSome) = true
        · simp only [hc, if_true]
          rw [runRows_cons_stop hout hc]
        · simp only [hc]
          rw [runRows_cons_go hout hc]
          have hct : cont = true := by cases cont <;> simp_all
          have hinv' := hk.step k x rows s hinv (by rw [hout]; exact hct)
          rw [hout] at hinv'
          have hin : ∀ p : PSt, p.values = [] → t.innerLoop f innerFuel p s' = .go (p, s') := by
            intro p hp0
            have : ¬ p.vidx < p.values.length := by rw [hp0]; simp
            cases innerFuel <;> rw [Table.innerLoop, if_neg this]
          rw [hin _ rfl]
          simp only [List.tail_cons]
          exact ih rows (fun r hr' => hr r (by simp [hr'])) (clock + 1) s' hinv' (by simp at h1; omega) (by simp at h2; omega)
      · obtain ⟨s0, g, hg, hng⟩ := hone
        have hs := hk.sees k x rows s s0 g hinv hg
        obtain ⟨rest', keys', hpre, htail⟩ := prefetch_eq (view := view) rt ok hp val hr (fun r hr' => hs r (List.mem_of_mem_take hr'))
        simp only [List.map_cons] at hpre
        have hrun : t.runOuter env filt view
            { rest := (k, val (k, x)) :: rows.map (fun r => (r.1, val r)), keys := [], indexKeys := [], values := [], vidx := 0 } (f s k) =
            some ({ rest := rest', keys := keys', indexKeys := (((k, x) :: rows).take t.prefetch).map Prod.fst, values := serAll t (((k, x) :: rows).take t.prefetch), vidx := 1 }, (f s k).run (.ok x)) := by
          rw [hg, Table.runOuter, hpre]
          simp only
          obtain ⟨s1, c1, e1, h1⟩ := hng (.ok x)
          rw [h1, Table.runOuter, Cb.run, h1, Cb.run]
        rw [hrun]
        have hone : (f s k).oneGet := ⟨s0, g, hg, hng⟩
        simp only
        generalize hout : (f s k).run (.ok x) = out
        obtain ⟨s', cont, err⟩ := out
        by_cases hc : (!cont || err.isSome) = true
        · simp only [hc, if_true]
          rw [runRows_cons_stop hout hc]
        · simp only [hc]
          have hct : cont = true := by cases cont <;> simp_all
          have hinv' := hk.step k x rows s hinv (by rw [hout]; exact hct)
          rw [hout] at hinv'
          have hfe' := hf.stays s k (.ok x) hone (by rw [hout]; exact hct)
          rw [hout] at hfe'
          obtain ⟨n, hn⟩ : ∃ n, t.prefetch = n + 1 := ⟨t.prefetch - 1, by omega⟩
          simp only [hn, List.take_succ_cons, List.drop_succ_cons] at htail ⊢
          rw [runRows_cons_go hout hc]
          have hin := innerLoop_eq rt hf hk (rows.drop n) (rows.take n) [(k, x)] innerFuel
            { rest := rest', keys := keys', indexKeys := ((k, x) :: rows.take n).map Prod.fst,
              values := serAll t ((k, x) :: rows.take n), vidx := 1 } s'
            (fun r hr' => by
              obtain ⟨b, hb, _⟩ := hs r (by simp [List.mem_of_mem_take hr'])
              simp [hb])
            rfl rfl rfl hfe' (by rw [List.take_append_drop]; exact hinv') (by simp at h2 ⊢; omega)
          rw [List.take_append_drop] at hin
          rcases hin with ⟨o, ho, hrr⟩ | ⟨p', s'', ho, hrest, hrr, hinv''⟩
          · rw [ho]; simp only; rw [hrr]; rfl
          · rw [ho]; simp only
            rw [hrest, htail, hrr]
            apply ih (rows.drop n) (fun r hr' => hr r (by simp [List.mem_of_mem_drop hr'])) (clock + 1) s'' hinv''
            · simp at h1 ⊢; omega
            · simp at h2 ⊢; omega

end Bond
