import Verif.ScanLemmas
import Verif.LiveScanLemmas
import Verif.Spec.Unreadable
/-
The loops of the scans over rows that may fail to decode.
-/
namespace Bond
open Spec
variable {T F σ : Type}

/-- entries (index key, stored bytes) as the callback sees them -/
def decoded (t : Table T F) (l : List (Bytes × Bytes)) : List (Bytes × Except Err T) := l.map (fun e => (e.1, t.decode e.2))

theorem runReads_stop {f : σ → Bytes → Cb σ T} {k : Bytes} {r : Except Err T} {rest : List (Bytes × Except Err T)} {s s' : σ} {cont : Bool}
    {err : Option Err} (h : (f s k).run r = (s', cont, err)) (hc : (!cont || err.isSome) = true) :
    runReads f ((k, r) :: rest) s = ⟨s', err⟩ := by
  rw [runReads, h]; simp only [hc, if_true]

theorem runReads_go {f : σ → Bytes → Cb σ T} {k : Bytes} {r : Except Err T} {rest : List (Bytes × Except Err T)} {s s' : σ} {cont : Bool}
    {err : Option Err} (h : (f s k).run r = (s', cont, err)) (hc : ¬ (!cont || err.isSome) = true) :
    runReads f ((k, r) :: rest) s = runReads f rest s' := by
  rw [runReads, h]; simp only [hc]; rfl

theorem scanPrimaryLoop_reads (t : Table T F) {done : Nat → Bool} (hd : ∀ n, done n = false) (f : σ → Bytes → Cb σ T)
    (l : List (Bytes × Bytes)) (clock : Nat) (s : σ) : t.scanPrimaryLoop done f l clock s = runReads f (decoded t l) s := by
  induction l generalizing clock s with
  | nil => rfl
  | cons e l ih =>
    obtain ⟨k, v⟩ := e
    rw [Table.scanPrimaryLoop]
    simp only [hd, Bool.false_eq_true, if_false, decoded, List.map_cons, runReads]
    split
    · rfl
    · exact ih _ _

/-- the row under the prefetch index -/
theorem getPrefetched_reads (t : Table T F) {done todo : List (Bytes × Bytes)} {k v : Bytes} {p : PSt}
    (hv : p.values = (done ++ (k, v) :: todo).map Prod.snd) (hi : p.vidx = done.length) :
    ∃ p', t.getPrefetchedValue p = some (p', t.decode v) ∧
      (∀ x, t.decode v = .ok x → p' = { p with vidx := done.length + 1 }) := by
  have hg : p.values[p.vidx]? = some v := by
    rw [hv, hi, List.map_append, List.getElem?_append_right (by simp)]; simp
  unfold Table.getPrefetchedValue Table.decode
  rw [hg]
  simp only
  cases t.deser t.nil v with
  | none => exact ⟨p, rfl, fun x h => by cases h⟩
  | some x => exact ⟨_, rfl, fun _ _ => by rw [hi]⟩

/-- loop over the prefetched rows -/
theorem innerLoop_reads (t : Table T F) {f : σ → Bytes → Cb σ T} {fetched : σ → Prop} (hf : FetchesAll f fetched)
    (hst : StopsOnError f) (more todo done : List (Bytes × Bytes)) (fuel : Nat) (p : PSt) (s : σ)
    (hv : p.values = (done ++ todo).map Prod.snd) (hkeys : p.indexKeys = (done ++ todo).map Prod.fst)
    (hi : p.vidx = done.length) (hfe : fetched s) (hfuel : todo.length ≤ fuel) :
    (∃ o, t.innerLoop f fuel p s = .stop o ∧ runReads f (decoded t (todo ++ more)) s = o) ∨
    (∃ p' s', t.innerLoop f fuel p s = .go (p', s') ∧ p'.rest = p.rest ∧
      runReads f (decoded t (todo ++ more)) s = runReads f (decoded t more) s') := by
  induction todo generalizing done fuel p s with
  | nil =>
    right
    refine ⟨p, s, ?_, rfl, rfl⟩
    have : ¬ p.vidx < p.values.length := by rw [hv, hi]; simp
    cases fuel <;> rw [Table.innerLoop, if_neg this]
  | cons r todo ih =>
    obtain ⟨k, v⟩ := r
    obtain ⟨fuel, rfl⟩ : ∃ n, fuel = n + 1 := ⟨fuel - 1, by simp at hfuel; omega⟩
    have hlt : p.vidx < p.values.length := by rw [hv, hi]; simp
    have hkey : p.indexKeys[p.vidx]? = some k := by
      rw [hkeys, hi, List.map_append, List.getElem?_append_right (by simp)]; simp
    rw [Table.innerLoop, if_pos hlt]
    simp only [hkey]
    obtain ⟨s0, g, hg, hng⟩ := hf.after s k hfe
    obtain ⟨p', hget, hp'⟩ := getPrefetched_reads t hv hi
    have hone : (f s k).oneGet := ⟨s0, g, hg, hng⟩
    have hrun : t.runInner p (f s k) = some (p', (f s k).run (t.decode v)) := by
      rw [hg, Table.runInner, hget]
      simp only
      obtain ⟨s1, c1, e1, h1⟩ := hng (t.decode v)
      rw [h1, Table.runInner, Cb.run, h1, Cb.run]
    rw [hrun]
    simp only
    generalize hout : (f s k).run (t.decode v) = out
    obtain ⟨s', cont, err⟩ := out
    by_cases hc : (!cont || err.isSome) = true
    · left
      simp only [hc, if_true]
      exact ⟨_, rfl, runReads_stop hout hc⟩
    · simp only [hc]
      obtain ⟨hct, hen⟩ := go_cases hc
      have hok : ∃ x, t.decode v = .ok x := by
        cases hd : t.decode v with
        | ok x => exact ⟨x, rfl⟩
        | error e =>
          rw [hd] at hout
          have := hst s k e hone (by rw [hout]; exact hct)
          rw [hout, hen] at this
          cases this
      obtain ⟨x, hx⟩ := hok
      have hpe := hp' x hx
      subst hpe
      rw [List.cons_append, show decoded t ((k, v) :: (todo ++ more)) = (k, t.decode v) :: decoded t (todo ++ more) from rfl,
        runReads_go hout hc]
      have hfe' := hf.stays s k _ hone (by rw [hout]; exact hct)
      rw [hout] at hfe'
      exact ih (done ++ [(k, v)]) fuel { p with vidx := done.length + 1 } s'
        (by simp [hv]) (by simp [hkeys]) (by simp) hfe' (by simp at hfuel; omega)

/-- entries of an index with the stored bytes of the rows they lead to -/
def Leads (t : Table T F) (filt : F) (db : KV) (ob : Option Batch) (l : List (Bytes × Bytes)) : Prop :=
  ∀ e ∈ l, ∃ x : T, toDataKeyBytes e.1 = some (t.key x) ∧ lookup t filt db ob (t.key x) = some e.2

theorem collectKeys_reads (t : Table T F) {filt : F} {db : KV} {ob : Option Batch} (l : List (Bytes × Bytes)) (hl : Leads t filt db ob l)
    (val : Bytes × Bytes → Bytes) (keys ikeys : List Bytes) (hk : keys.length < t.prefetch) :
    ∃ rest' ks, t.collectKeys (l.map (fun r => (r.1, val r))) keys ikeys =
      some (rest', keys ++ ks, ikeys ++ (l.take (t.prefetch - keys.length)).map Prod.fst) ∧
      ks.length = (l.take (t.prefetch - keys.length)).length ∧ (∀ k ∈ ks, ∃ x, k = t.key x) ∧
      ks.map (lookup t filt db ob) = (l.take (t.prefetch - keys.length)).map (fun e => some e.2) ∧
      rest'.tail = (l.drop (t.prefetch - keys.length)).map (fun r => (r.1, val r)) := by
  induction l generalizing keys ikeys with
  | nil => exact ⟨[], [], by simp [Table.collectKeys], by simp, by simp, by simp, by simp⟩
  | cons r l ih =>
    obtain ⟨k, v⟩ := r
    obtain ⟨x, hx, hlk⟩ := hl (k, v) (by simp)
    simp only at hx hlk
    simp only [List.map_cons, Table.collectKeys, hx]
    obtain ⟨n, hn⟩ : ∃ n, t.prefetch - keys.length = n + 1 := ⟨t.prefetch - keys.length - 1, by omega⟩
    rw [hn]
    simp only [List.take_succ_cons, List.map_cons, List.drop_succ_cons]
    by_cases hlt : (keys ++ [t.key x]).length < t.prefetch
    · rw [if_pos hlt]
      obtain ⟨rest', ks, h1, h2, h3, h4, h5⟩ := ih (fun r hr' => hl r (by simp [hr'])) (keys ++ [t.key x]) (ikeys ++ [k]) hlt
      have hn' : t.prefetch - (keys ++ [t.key x]).length = n := by simp; omega
      rw [hn'] at h1 h2 h4 h5
      refine ⟨rest', t.key x :: ks, by rw [h1]; simp, by simp [h2], ?_, by simp [h4, hlk], h5⟩
      intro k' hk'
      rcases List.mem_cons.1 hk' with rfl | hk'
      · exact ⟨x, rfl⟩
      · exact h3 k' hk'
    · rw [if_neg hlt]
      have hn' : n = 0 := by simp at hlt; omega
      subst hn'
      exact ⟨(k, val (k, v)) :: l.map (fun r => (r.1, val r)), [t.key x], by simp, by simp, fun k' hk' => ⟨x, List.mem_singleton.1 hk'⟩, by simp [hlk], by simp⟩

/-- the first `Get` on a fresh row -/
theorem prefetch_reads {t : Table T F} {env : Env T} (ok : env.OK t) {filt : F} {db : KV} {ob : Option Batch}
    (hp : 0 < t.prefetch) {k v : Bytes} {l : List (Bytes × Bytes)} (val : Bytes × Bytes → Bytes)
    (hl : Leads t filt db ob ((k, v) :: l)) :
    ∃ p', t.prefetchAndGetValue env filt db ob
        { rest := ((k, v) :: l).map (fun r => (r.1, val r)), keys := [], indexKeys := [], values := [], vidx := 0 } =
      some (p', t.decode v) ∧
      (∀ x, t.decode v = .ok x → p'.indexKeys = (((k, v) :: l).take t.prefetch).map Prod.fst ∧
        p'.values = (((k, v) :: l).take t.prefetch).map Prod.snd ∧ p'.vidx = 1 ∧
        p'.rest.tail = (((k, v) :: l).drop t.prefetch).map (fun r => (r.1, val r))) := by
  obtain ⟨rest', ks, h1, h2, h3, h4, h5⟩ := collectKeys_reads t ((k, v) :: l) hl val [] [] hp
  simp only [List.length_nil, Nat.sub_zero, List.nil_append] at h1 h2 h4 h5
  have hval : t.getKeys env filt db ob ks t.prefetch true = .ok ((((k, v) :: l).take t.prefetch).map Prod.snd) := by
    rw [getKeys_ok t ok filt _ _ ?_ ?_ true ?_]
    · congr 1
      have : ks.map (fun k => (lookup t filt db ob k).getD []) = (ks.map (lookup t filt db ob)).map (fun o => o.getD []) := by simp
      rw [this, h4, List.map_map]
      rfl
    · intro k' hk'
      obtain ⟨x, rfl⟩ := h3 k' hk'
      exact blt_key_end t x
    · rw [h2]; simp; omega
    · intro _ k' hk'
      have : lookup t filt db ob k' ∈ ks.map (lookup t filt db ob) := List.mem_map_of_mem hk'
      rw [h4] at this
      obtain ⟨e, _, he⟩ := List.mem_map.1 this
      rw [← he]; rfl
  obtain ⟨n, hn⟩ : ∃ n, t.prefetch = n + 1 := ⟨t.prefetch - 1, by omega⟩
  unfold Table.prefetchAndGetValue
  simp only [h1, hval]
  obtain ⟨p', hg, hp'⟩ := getPrefetched_reads t (done := []) (todo := l.take n) (k := k) (v := v)
    (p := { rest := rest', keys := if ks = [] then [] else (sortKeys env ks).map Prod.fst,
            indexKeys := (((k, v) :: l).take t.prefetch).map Prod.fst,
            values := (((k, v) :: l).take t.prefetch).map Prod.snd, vidx := 0 }) (by simp [hn]) rfl
  refine ⟨p', hg, fun x hx => ?_⟩
  rw [hp' x hx]
  exact ⟨rfl, rfl, rfl, h5⟩

/-- the outer loop -/
theorem outerLoop_reads {t : Table T F} {env : Env T} (ok : env.OK t) (hd : ∀ n, env.done n = false)
    {filt : F} {db : KV} {ob : Option Batch} (hp : 0 < t.prefetch) {f : σ → Bytes → Cb σ T} {fetched : σ → Prop}
    (hf : FetchesAll f fetched) (hst : StopsOnError f) (val : Bytes × Bytes → Bytes) (innerFuel fuel : Nat)
    (l : List (Bytes × Bytes)) (hl : Leads t filt db ob l) (clock : Nat) (s : σ) (h1 : l.length ≤ fuel) (h2 : l.length ≤ innerFuel) :
    t.outerLoop env filt (fun _ => (db, ob)) f innerFuel fuel clock
      { rest := l.map (fun r => (r.1, val r)), keys := [], indexKeys := [], values := [], vidx := 0 } s =
      some (runReads f (decoded t l) s) := by
  induction fuel generalizing l clock s with
  | zero =>
    have : l = [] := List.eq_nil_of_length_eq_zero (by omega)
    subst this
    rw [Table.outerLoop]; rfl
  | succ fuel ih =>
    cases l with
    | nil => rw [Table.outerLoop]; rfl
    | cons r l =>
      obtain ⟨k, v⟩ := r
      rw [Table.outerLoop]
      simp only [List.map_cons, hd, Bool.false_eq_true, if_false]
      rw [show decoded t ((k, v) :: l) = (k, t.decode v) :: decoded t l from rfl]
      rcases hf.once s k with hno | hone
      · obtain ⟨s', cont, err, he⟩ := hno
        have hout : (f s k).run (t.decode v) = (s', cont, err) := by rw [he, Cb.run]
        rw [he, Table.runOuter]
        simp only
        by_cases hc : (!cont || err.isSome) = true
        · simp only [hc, if_true]
          rw [runReads_stop hout hc]
        · simp only [hc]
          rw [runReads_go hout hc]
          have hin : ∀ p : PSt, p.values = [] → t.innerLoop f innerFuel p s' = .go (p, s') := by
            intro p hp0
            have : ¬ p.vidx < p.values.length := by rw [hp0]; simp
            cases innerFuel <;> rw [Table.innerLoop, if_neg this]
          rw [hin _ rfl]
          simp only [List.tail_cons]
          exact ih l (fun r hr' => hl r (by simp [hr'])) (clock + 1) s' (by simp at h1; omega) (by simp at h2; omega)
      · obtain ⟨s0, g, hg, hng⟩ := hone
        obtain ⟨p', hpre, hp'⟩ := prefetch_reads (env := env) ok hp val hl
        simp only [List.map_cons] at hpre
        have hrun : t.runOuter env filt (fun _ => (db, ob))
            { rest := (k, val (k, v)) :: l.map (fun r => (r.1, val r)), keys := [], indexKeys := [], values := [], vidx := 0 } (f s k) =
            some (p', (f s k).run (t.decode v)) := by
          rw [hg, Table.runOuter]
          simp only [hpre]
          obtain ⟨s1, c1, e1, h1⟩ := hng (t.decode v)
          rw [h1, Table.runOuter, Cb.run, h1, Cb.run]
        rw [hrun]
        have hone : (f s k).oneGet := ⟨s0, g, hg, hng⟩
        simp only
        generalize hout : (f s k).run (t.decode v) = out
        obtain ⟨s', cont, err⟩ := out
        by_cases hc : (!cont || err.isSome) = true
        · simp only [hc, if_true]
          rw [runReads_stop hout hc]
        · simp only [hc]
          obtain ⟨hct, hen⟩ := go_cases hc
          have hok : ∃ x, t.decode v = .ok x := by
            cases hdv : t.decode v with
            | ok x => exact ⟨x, rfl⟩
            | error e =>
              rw [hdv] at hout
              have := hst s k e hone (by rw [hout]; exact hct)
              rw [hout, hen] at this
              cases this
          obtain ⟨x, hx⟩ := hok
          obtain ⟨q1, q2, q3, q4⟩ := hp' x hx
          have hfe' := hf.stays s k _ hone (by rw [hout]; exact hct)
          rw [hout] at hfe'
          obtain ⟨n, hn⟩ : ∃ n, t.prefetch = n + 1 := ⟨t.prefetch - 1, by omega⟩
          simp only [hn, List.take_succ_cons, List.drop_succ_cons] at q1 q2 q4
          rw [runReads_go hout hc]
          have hin := innerLoop_reads t hf hst (l.drop n) (l.take n) [(k, v)] innerFuel p' s'
            q2 q1 q3 hfe' (by simp at h2 ⊢; omega)
          rw [List.take_append_drop] at hin
          rcases hin with ⟨o, ho, hrr⟩ | ⟨p'', s'', ho, hrest, hrr⟩
          · rw [ho]; simp only; rw [hrr]; rfl
          · rw [ho]; simp only
            rw [hrest, q4, hrr]
            apply ih (l.drop n) (fun r hr' => hl r (by simp [List.mem_of_mem_drop hr'])) (clock + 1) s''
            · simp at h1 ⊢; omega
            · simp at h2 ⊢; omega

end Bond
