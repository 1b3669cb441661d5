import Verif.ScanLemmas
import Verif.Spec.LiveScan
/-
Scans while others write: what the loops of `scanForEachSecondaryIndex` do.
-/
namespace Bond
open Spec
variable {T F σ : Type}

theorem tick_run (n : Nat) (r : Except Err T) (c : Cb σ T) :
    (c.tick n).run r = (((c.run r).1, n + 1), (c.run r).2.1, (c.run r).2.2) := by
  induction c with
  | ret s cont err => rfl
  | get s k ih => exact ih r

theorem getKeys_missing (t : Table T F) {env : Env T} (ok : env.OK t) (f : F) (db : KV) (ob : Option Batch) {keys : List Bytes}
    (hk : ∀ k ∈ keys, blt k t.dataKeySpaceEnd = true) {cap : Nat} (hc : keys.length ≤ cap)
    (hs : ∃ k ∈ keys, lookup t f db ob k = none) : t.getKeys env f db ob keys cap true = .error .notFound := by
  obtain ⟨k0, hk0, hn⟩ := hs
  have hne : keys ≠ [] := by intro e; subst e; simp at hk0
  unfold Table.getKeys
  rw [if_neg hne]
  have haux := getKeys_aux t ok f db ob hk
  have hlen : ((sortKeys env keys).map Prod.fst).length = keys.length := by
    have := (getD_sort t ok keys).length_eq; simpa using this
  have hmem : k0 ∈ (sortKeys env keys).map Prod.fst := by
    obtain ⟨i, hi, rfl⟩ := List.mem_iff_getElem.1 hk0
    have : i ∈ (sortKeys env keys).map Prod.snd := (getD_sort t ok keys).mem_iff.2 (by simpa using hi)
    unfold sortKeys at this ⊢
    rw [List.map_map, List.mem_map] at this ⊢
    obtain ⟨j, hj, rfl⟩ := this
    exact ⟨j, hj, by simp at hi; simp [List.getD, hi]⟩
  simp only
  have loop : ∀ (l : List Bytes) (cap : Nat), l.length ≤ cap → k0 ∈ l →
      (∀ k ∈ l, (if t.mayContain f k then seekExact (iterEntries db ob (((sortKeys env keys).map Prod.fst).headD []) t.dataKeySpaceEnd) k
      else none) = lookup t f db ob k) →
      t.getLoop f (iterEntries db ob (((sortKeys env keys).map Prod.fst).headD []) t.dataKeySpaceEnd) true l cap = .error .notFound := by
    intro l
    induction l with
    | nil => intro _ _ h; simp at h
    | cons a l ih =>
      intro cap hcap hm hl
      rw [Table.getLoop, hl a (by simp)]
      by_cases ha : lookup t f db ob a = none
      · simp [ha]
      · have hm' : k0 ∈ l := by
          rcases List.mem_cons.1 hm with rfl | h
          · exact absurd hn ha
          · exact h
        simp only [List.length_cons] at hcap
        rw [ih (cap - 1) (by omega) hm' (fun k hk => hl k (by simp [hk]))]
        have hx : ¬ ((lookup t f db ob a).isNone && true) = true := by
          cases hlk : lookup t f db ob a with
          | none => exact absurd hlk ha
          | some v => simp
        rw [if_neg hx, if_neg (by omega)]
        rfl
  rw [loop _ cap (by omega) hmem (fun k hk => (haux k hk).2)]
  rfl

/-- the current record of a row, if it is there -/
def cur (t : Table T F) (m : Rows T) (x : T) : T := (m (t.pk x)).getD x

theorem cur_eq {t : Table T F} {m : Rows T} {x : T} (h : (m (t.pk x)).isSome) : m (t.pk x) = some (cur t m x) := by
  unfold cur; cases hm : m (t.pk x) with
  | none => simp [hm] at h
  | some r => rfl

theorem pk_cur {t : Table T F} {db : KV} {m : Rows T} (hH : Holds t db m) (x : T) : t.pk (cur t m x) = t.pk x := by
  unfold cur; cases hm : m (t.pk x) with
  | none => rfl
  | some r => exact hH.row_pk _ _ hm

theorem key_cur {t : Table T F} {db : KV} {m : Rows T} (hH : Holds t db m) (x : T) : t.key (cur t m x) = t.key x := by
  unfold Table.key; rw [pk_cur hH]

/-- the rows as the block read sees them -/
def curRows (t : Table T F) (idx : Index T) (m : Rows T) (rows : List T) : List (Bytes × T) :=
  rows.map (fun x => (t.indexKey idx x, cur t m x))

theorem tick_oneGet {f : σ → Bytes → Cb σ T} {s : σ} {k : Bytes} (n : Nat) (h : (f s k).oneGet) :
    ∃ s0 g, tickCb f (s, n) k = .get (s0, n + 1) g ∧ ∀ r, ∃ c e, g r = .ret (((f s k).run r).1, n + 1) c e ∧
      c = ((f s k).run r).2.1 ∧ e = ((f s k).run r).2.2 := by
  obtain ⟨s0, g, hg, hng⟩ := h
  refine ⟨s0, fun r => (g r).tick n, by simp [tickCb, hg, Cb.tick], fun r => ?_⟩
  obtain ⟨s1, c1, e1, h1⟩ := hng r
  exact ⟨c1, e1, by simp [hg, Cb.run, h1, Cb.tick], by rw [hg, Cb.run, h1, Cb.run], by rw [hg, Cb.run, h1, Cb.run]⟩

theorem go_cases {cont : Bool} {err : Option Err} (h : ¬ (!cont || err.isSome) = true) : cont = true ∧ err = none := by
  cases cont <;> cases err <;> simp_all

theorem stop_cases {cont : Bool} {err : Option Err} (h : (!cont || err.isSome) = true) : cont = true → err.isSome := by
  cases cont <;> cases err <;> simp_all

theorem liveInner {t : Table T F} (rt : t.RoundTripFresh) {m : Nat → Rows T} {idx : Index T} {N n' : Nat} (hN : n' ≤ N)
    {f : σ → Bytes → Cb σ T} {fetched : σ → Prop} (hf : FetchesAll f fetched)
    (todo : List T) (done : List (Bytes × T)) (fuel : Nat) (p : PSt) (s : σ) (c : Nat)
    (hm : ∀ x ∈ todo, (m n' (t.pk x)).isSome) (hser : ∀ x ∈ todo, (t.ser (cur t (m n') x)).isSome)
    (hv : p.values = serAll t (done ++ curRows t idx (m n') todo))
    (hkeys : p.indexKeys = (done ++ curRows t idx (m n') todo).map Prod.fst)
    (hi : p.vidx = done.length) (hfe : fetched s) (hfuel : todo.length ≤ fuel) :
    (∃ o c', t.innerLoop (tickCb f) fuel p (s, c) = .stop ⟨(o.s, c'), o.err⟩ ∧
      ∀ more, Visited t m idx N f n' (todo ++ more) s o) ∨
    (∃ p' s', t.innerLoop (tickCb f) fuel p (s, c) = .go (p', (s', c + todo.length)) ∧ p'.rest = p.rest ∧
      ∀ more o, Visited t m idx N f n' more s' o → Visited t m idx N f n' (todo ++ more) s o) := by
  induction todo generalizing done fuel p s c with
  | nil =>
    right
    refine ⟨p, s, ?_, rfl, fun _ _ h => h⟩
    have : ¬ p.vidx < p.values.length := by rw [hv, hi, serAll]; simp [curRows]
    cases fuel <;> rw [Table.innerLoop, if_neg this] <;> rfl
  | cons x todo ih =>
    obtain ⟨fuel, rfl⟩ : ∃ n, fuel = n + 1 := ⟨fuel - 1, by simp at hfuel; omega⟩
    have hcr : curRows t idx (m n') (x :: todo) = (t.indexKey idx x, cur t (m n') x) :: curRows t idx (m n') todo := rfl
    rw [hcr] at hv hkeys
    have hlt : p.vidx < p.values.length := by rw [hv, hi, serAll]; simp
    have hkey : p.indexKeys[p.vidx]? = some (t.indexKey idx x) := by
      rw [hkeys, hi, List.map_append, List.getElem?_append_right (by simp)]; simp
    rw [Table.innerLoop, if_pos hlt]
    simp only [hkey]
    have hone := hf.after s (t.indexKey idx x) hfe
    obtain ⟨s0, g, hg, hng⟩ := tick_oneGet c hone
    have hget := getPrefetched_eq (todo := curRows t idx (m n') todo) rt hv hi (hser x (by simp))
    obtain ⟨c1, e1, h1, h1c, h1e⟩ := hng (.ok (cur t (m n') x))
    have hrun : t.runInner p (tickCb f (s, c) (t.indexKey idx x)) = some ({ p with vidx := done.length + 1 },
        (((f s (t.indexKey idx x)).run (.ok (cur t (m n') x))).1, c + 1), c1, e1) := by
      rw [hg, Table.runInner, hget]
      simp only
      rw [h1, Table.runInner]
    rw [hrun]
    simp only
    generalize hout : (f s (t.indexKey idx x)).run (.ok (cur t (m n') x)) = out
    obtain ⟨s', cont, err⟩ := out
    rw [hout] at h1c h1e
    simp only at h1c h1e
    subst h1c; subst h1e
    have hmx := cur_eq (hm x (by simp))
    by_cases hc : (!c1 || e1.isSome) = true
    · left
      simp only [hc, if_true]
      exact ⟨⟨s', e1⟩, c + 1, rfl, fun more => .rowStop (Nat.le_refl _) hN hmx hout (stop_cases hc)⟩
    · simp only [hc]
      obtain ⟨rfl, rfl⟩ := go_cases hc
      have hfe' := hf.stays s (t.indexKey idx x) (.ok (cur t (m n') x)) hone (by rw [hout])
      rw [hout] at hfe'
      rcases ih (done ++ [(t.indexKey idx x, cur t (m n') x)]) fuel { p with vidx := done.length + 1 } s' (c + 1)
        (fun y hy => hm y (by simp [hy])) (fun y hy => hser y (by simp [hy]))
        (by simp [hv]) (by simp [hkeys]) (by simp) hfe' (by simp at hfuel; omega) with ⟨o, c', h1, h2⟩ | ⟨p', s'', h1, h2, h3⟩
      · exact Or.inl ⟨o, c', h1, fun more => .row (Nat.le_refl _) hN hmx hout (h2 more)⟩
      · refine Or.inr ⟨p', s'', ?_, h2, fun more o h => .row (Nat.le_refl _) hN hmx hout (h3 more o h)⟩
        simp only [Bool.false_eq_true, if_false]
        rw [h1]; simp only [List.length_cons]; congr 3; omega

/-- the outer loop while others write -/
theorem liveOuter {t : Table T F} {env : Env T} {filt : F} {h : Nat → KV} {m : Nat → Rows T} (S : LiveSetting t env filt h m)
    {idx : Index T} (hi : IsIndex t idx) {f : σ → Bytes → Cb σ T} {fetched : σ → Prop} (hf : FetchesAll f fetched)
    (hst : StopsOnError f) (N innerFuel fuel : Nat) (rows : List T) (clock n n0 : Nat) (s : σ) (hn0 : n0 ≤ n)
    (h1 : rows.length ≤ fuel) (h2 : rows.length ≤ innerFuel) (hN : n + rows.length ≤ N) :
    ∃ o n', t.outerLoop env filt (fun s => (h s.2, none)) (tickCb f) innerFuel fuel clock
      { rest := (seen t idx rows).map (fun r => (r.1, [])), keys := [], indexKeys := [], values := [], vidx := 0 } (s, n) =
      some ⟨(o.s, n'), o.err⟩ ∧ Visited t m idx N f n0 rows s o := by
  induction fuel generalizing rows clock s n n0 with
  | zero =>
    have : rows = [] := List.eq_nil_of_length_eq_zero (by omega)
    subst this
    exact ⟨⟨s, none⟩, n, by rw [Table.outerLoop]; rfl, .nil⟩
  | succ fuel ih =>
    cases rows with
    | nil => exact ⟨⟨s, none⟩, n, by rw [Table.outerLoop]; rfl, .nil⟩
    | cons x rows =>
      have hseen : ∀ l : List T, (seen t idx l).map (fun r => (r.1, ([] : Bytes))) = (curRows t idx (m (n + 1)) l).map (fun r => (r.1, (fun _ => []) r)) := by
        intro l; simp [seen, curRows, Function.comp_def]
      rw [Table.outerLoop]
      simp only [seen, List.map_cons, S.alive, Bool.false_eq_true, if_false]
      rcases hf.once s (t.indexKey idx x) with ⟨s', cont, err, he⟩ | hone
      · have htick : tickCb f (s, n) (t.indexKey idx x) = .ret (s', n + 1) cont err := by simp [tickCb, he, Cb.tick]
        rw [htick, Table.runOuter]
        simp only
        by_cases hc : (!cont || err.isSome) = true
        · simp only [hc, if_true]
          exact ⟨⟨s', err⟩, n + 1, rfl, .skipStop he (stop_cases hc)⟩
        · simp only [hc]
          obtain ⟨rfl, rfl⟩ := go_cases hc
          have hin : ∀ p : PSt, p.values = [] → t.innerLoop (tickCb f) innerFuel p (s', n + 1) = .go (p, (s', n + 1)) := by
            intro p hp0
            have : ¬ p.vidx < p.values.length := by rw [hp0]; simp
            cases innerFuel <;> rw [Table.innerLoop, if_neg this]
          rw [hin _ rfl]
          simp only [List.tail_cons, List.length_cons] at *
          obtain ⟨o, n', ho, hv⟩ := ih rows (clock + 1) (n + 1) n0 s' (by omega) (by omega) (by omega) (by omega)
          exact ⟨o, n', by simpa [seen] using ho, .skip he hv⟩
      · have hH := S.content (n + 1)
        have hrk : RowKeys t (curRows t idx (m (n + 1)) (x :: rows)) := by
          intro r hr
          obtain ⟨y, _, rfl⟩ := List.mem_map.1 hr
          simp only [key_cur hH]
          exact toDataKey_indexKey S.wf hi y
        obtain ⟨s0, g, hg, hng⟩ := tick_oneGet n hone
        simp only [List.length_cons] at h1 h2 hN
        by_cases hall : ∀ y ∈ (x :: rows).take t.prefetch, (m (n + 1) (t.pk y)).isSome
        · have hsees : Sees t filt (fun s : σ × Nat => (h s.2, none)) (s0, n + 1) ((curRows t idx (m (n + 1)) (x :: rows)).take t.prefetch) := by
            unfold curRows
            rw [← List.map_take]
            intro r hr
            obtain ⟨y, hy, rfl⟩ := List.mem_map.1 hr
            have hm := cur_eq (hall y hy)
            obtain ⟨b, hb, hgb⟩ := hH.present _ _ hm
            refine ⟨b, hb, ?_⟩
            simp only [key_cur hH]
            unfold Table.key
            rw [lookup_eq ((rfl : readable (h (n + 1)) none = some (h (n + 1)))) hH (S.covers _)]
            exact hgb
          obtain ⟨rest', keys', hpre, htail⟩ := prefetch_eq (view := fun s : σ × Nat => (h s.2, none)) S.rt S.ok S.prefetch (fun _ => []) hrk hsees
          obtain ⟨k, hk⟩ : ∃ k, t.prefetch = k + 1 := ⟨t.prefetch - 1, by have := S.prefetch; omega⟩
          have htk : ((t.indexKey idx x, cur t (m (n + 1)) x) :: rows.map (fun x => (t.indexKey idx x, cur t (m (n + 1)) x))).take t.prefetch =
              (t.indexKey idx x, cur t (m (n + 1)) x) :: curRows t idx (m (n + 1)) (rows.take k) := by
            rw [hk, List.take_succ_cons, ← List.map_take]; rfl
          have hdr : ((t.indexKey idx x, cur t (m (n + 1)) x) :: rows.map (fun x => (t.indexKey idx x, cur t (m (n + 1)) x))).drop t.prefetch =
              curRows t idx (m (n + 1)) (rows.drop k) := by
            rw [hk, List.drop_succ_cons, ← List.map_drop]; rfl
          rw [htk] at hpre
          rw [hdr] at htail
          have hrest : (List.map (fun r : Bytes × T => (r.1, ([] : Bytes))) (List.map (fun x => (t.indexKey idx x, x)) rows)) =
              List.map (fun r : Bytes × T => (r.1, ([] : Bytes))) (List.map (fun x => (t.indexKey idx x, cur t (m (n + 1)) x)) rows) := by
            simp [Function.comp_def]
          rw [hrest]
          simp only [List.map_cons] at hpre
          obtain ⟨c1, e1, hr1, hrc, hre⟩ := hng (.ok (cur t (m (n + 1)) x))
          rw [hg, Table.runOuter, hpre]
          simp only
          rw [hr1, Table.runOuter]
          simp only
          generalize hout : (f s (t.indexKey idx x)).run (.ok (cur t (m (n + 1)) x)) = out
          obtain ⟨s', cont, err⟩ := out
          rw [hout] at hrc hre
          simp only at hrc hre
          subst hrc; subst hre
          have hm0 := cur_eq (hall x (by rw [hk]; simp))
          have hx : ∀ y ∈ rows.take k, (m (n + 1) (t.pk y)).isSome := fun y hy => hall y (by rw [hk, List.take_succ_cons]; exact List.mem_cons_of_mem _ hy)
          by_cases hc : (!c1 || e1.isSome) = true
          · simp only [hc, if_true]
            exact ⟨⟨s', e1⟩, n + 1, rfl, .rowStop (n' := n + 1) (by omega) (by omega) hm0 hout (stop_cases hc)⟩
          · simp only [hc]
            obtain ⟨rfl, rfl⟩ := go_cases hc
            have hfe' := hf.stays s (t.indexKey idx x) (.ok (cur t (m (n + 1)) x)) hone (by rw [hout])
            rw [hout] at hfe'
            have hin := liveInner (idx := idx) (N := N) (n' := n + 1) S.rt (by omega) hf (rows.take k) [(t.indexKey idx x, cur t (m (n + 1)) x)] innerFuel
              { rest := rest', keys := keys', indexKeys := t.indexKey idx x :: (curRows t idx (m (n + 1)) (rows.take k)).map Prod.fst,
                values := serAll t ((t.indexKey idx x, cur t (m (n + 1)) x) :: curRows t idx (m (n + 1)) (rows.take k)), vidx := 1 } s' (n + 1)
              hx (fun y hy => by obtain ⟨b, hb, _⟩ := hH.present _ _ (cur_eq (hx y hy)); simp [hb])
              rfl rfl rfl hfe' (by simp; omega)
            rcases hin with ⟨o, c', ho, hv⟩ | ⟨p', s'', ho, hrest', hv⟩
            · rw [ho]
              have := hv (rows.drop k)
              rw [List.take_append_drop] at this
              exact ⟨o, c', rfl, .row (n' := n + 1) (by omega) (by omega) hm0 hout this⟩
            · rw [ho]
              simp only [Bool.false_eq_true, if_false]
              rw [hrest', htail, ← hseen]
              obtain ⟨o, n', ho', hv'⟩ := ih (rows.drop k) (clock + 1) (n + 1 + (rows.take k).length) (n + 1) s'' (by omega)
                (by simp; omega) (by simp; omega) (by simp; omega)
              have := hv _ _ hv'
              rw [List.take_append_drop] at this
              exact ⟨o, n', ho', .row (n' := n + 1) (by omega) (by omega) hm0 hout this⟩
        · -- a row of the block is gone
          have hex : ∃ y ∈ (x :: rows).take t.prefetch, m (n + 1) (t.pk y) = none := by
            apply Classical.byContradiction
            intro hno
            apply hall
            intro y hy
            cases hm : m (n + 1) (t.pk y) with
            | none => exact absurd ⟨y, hy, hm⟩ hno
            | some r => rfl
          obtain ⟨y, hy, hmy⟩ := hex
          obtain ⟨rest', hcol, _⟩ := collectKeys_eq t (curRows t idx (m (n + 1)) (x :: rows)) (fun _ => []) hrk [] [] S.prefetch
          simp only [List.length_nil, Nat.sub_zero, List.nil_append] at hcol
          have hrest : ((t.indexKey idx x, ([] : Bytes)) :: List.map (fun r : Bytes × T => (r.1, ([] : Bytes))) (List.map (fun x => (t.indexKey idx x, x)) rows)) =
              List.map (fun r : Bytes × T => (r.1, ([] : Bytes))) (curRows t idx (m (n + 1)) (x :: rows)) := by
            simp [curRows, Function.comp_def]
          have hgk : t.getKeys env filt (h (n + 1)) none (((curRows t idx (m (n + 1)) (x :: rows)).take t.prefetch).map (fun r => t.key r.2)) t.prefetch true =
              .error .notFound := by
            apply getKeys_missing t S.ok
            · intro k' hk'
              obtain ⟨r, _, rfl⟩ := List.mem_map.1 hk'
              exact blt_key_end t r.2
            · simp; omega
            · refine ⟨t.key y, ?_, ?_⟩
              · unfold curRows
                rw [← List.map_take, List.map_map]
                exact List.mem_map.2 ⟨y, hy, key_cur hH y⟩
              · unfold Table.key
                rw [lookup_eq ((rfl : readable (h (n + 1)) none = some (h (n + 1)))) hH (S.covers _)]
                exact hH.absent _ hmy
          have hpre : ∃ p', t.prefetchAndGetValue env filt (h (n + 1)) none
              { rest := (t.indexKey idx x, ([] : Bytes)) :: List.map (fun r : Bytes × T => (r.1, ([] : Bytes))) (List.map (fun x => (t.indexKey idx x, x)) rows),
                keys := [], indexKeys := [], values := [], vidx := 0 } = some (p', .error .notFound) := by
            unfold Table.prefetchAndGetValue
            simp only [hrest, hcol, hgk]
            exact ⟨_, rfl⟩
          obtain ⟨p', hpre⟩ := hpre
          rw [hg, Table.runOuter]
          simp only [hpre]
          obtain ⟨c1, e1, hr1, hrc, hre⟩ := hng (.error .notFound)
          rw [hr1, Table.runOuter]
          simp only
          have hstop := hst s (t.indexKey idx x) .notFound hone
          rw [← hrc, ← hre] at hstop
          have hc : (!c1 || e1.isSome) = true := by
            cases c1 with
            | false => rfl
            | true => simp [hstop rfl]
          simp only [hc, if_true]
          refine ⟨⟨((f s (t.indexKey idx x)).run (.error .notFound)).1, e1⟩, n + 1, rfl,
            .gone (n' := n + 1) (cont := c1) (by omega) (by omega) (List.mem_of_mem_take hy) hmy ?_ hstop⟩
          rw [hrc, hre]

end Bond
