import Verif.LiveScanLemmas
import Verif.Spec.OwnWrites
/-
Scans whose callback writes: what the loops of `scanForEachSecondaryIndex` do.
-/
namespace Bond
open Spec
variable {T F σ : Type}

theorem oneGet_asked {c : Cb σ T} (h : c.oneGet) :
    ∃ s0 g, c = .get s0 g ∧ c.asked = some s0 ∧ ∀ r, g r = .ret (c.run r).1 (c.run r).2.1 (c.run r).2.2 := by
  obtain ⟨s0, g, rfl, hg⟩ := h
  refine ⟨s0, g, rfl, rfl, fun r => ?_⟩
  obtain ⟨s1, c1, e1, h1⟩ := hg r
  simp [Cb.run, h1]

theorem ownInner {t : Table T F} (rt : t.RoundTripFresh) {m : σ → Rows T} {idx : Index T} {n : Nat} {m0 : Rows T}
    {f : σ → Bytes → Cb σ T} {fetched : σ → Prop} (hf : FetchesAll f fetched) {inv : σ → Prop} (hinv : CbInv f inv)
    (todo : List T) (done : List (Bytes × T)) (fuel : Nat) (p : PSt) (s : σ)
    (hser : ∀ x ∈ todo, (t.ser (cur t m0 x)).isSome)
    (hv : p.values = serAll t (done ++ curRows t idx m0 todo))
    (hkeys : p.indexKeys = (done ++ curRows t idx m0 todo).map Prod.fst)
    (hi : p.vidx = done.length) (hfe : fetched s) (hs : inv s) (hfuel : todo.length ≤ fuel) :
    (∃ o, t.innerLoop f fuel p s = .stop o ∧ ∀ more, runBlocks t idx n m f todo.length m0 (todo ++ more) s = o) ∨
    (∃ p' s', t.innerLoop f fuel p s = .go (p', s') ∧ p'.rest = p.rest ∧ inv s' ∧
      ∀ more, runBlocks t idx n m f todo.length m0 (todo ++ more) s = runBlocks t idx n m f 0 m0 more s') := by
  induction todo generalizing done fuel p s with
  | nil =>
    right
    refine ⟨p, s, ?_, rfl, hs, fun _ => rfl⟩
    have : ¬ p.vidx < p.values.length := by rw [hv, hi, serAll]; simp [curRows]
    cases fuel <;> rw [Table.innerLoop, if_neg this]
  | cons x todo ih =>
    obtain ⟨fuel, rfl⟩ : ∃ n, fuel = n + 1 := ⟨fuel - 1, by simp at hfuel; omega⟩
    have hcr : curRows t idx m0 (x :: todo) = (t.indexKey idx x, cur t m0 x) :: curRows t idx m0 todo := rfl
    rw [hcr] at hv hkeys
    have hlt : p.vidx < p.values.length := by rw [hv, hi, serAll]; simp
    have hkey : p.indexKeys[p.vidx]? = some (t.indexKey idx x) := by
      rw [hkeys, hi, List.map_append, List.getElem?_append_right (by simp)]; simp
    have hone := hf.after s (t.indexKey idx x) hfe
    obtain ⟨s0, g, hg, hask, hng⟩ := oneGet_asked hone
    have hget := getPrefetched_eq (todo := curRows t idx m0 todo) rt hv hi (hser x (by simp))
    have hrun : t.runInner p (f s (t.indexKey idx x)) = some ({ p with vidx := done.length + 1 },
        ((f s (t.indexKey idx x)).run (.ok (cur t m0 x)))) := by
      rw [hg, Table.runInner, hget]
      simp only
      rw [hng, Table.runInner, hg]
    have hspec : ∀ more, runBlocks t idx n m f (x :: todo).length m0 ((x :: todo) ++ more) s =
        (let out := (f s (t.indexKey idx x)).run (.ok (cur t m0 x))
         if !out.2.1 || out.2.2.isSome then ⟨out.1, out.2.2⟩ else runBlocks t idx n m f todo.length m0 (todo ++ more) out.1) := by
      intro more
      simp only [List.cons_append, runBlocks, hask, List.length_cons, Nat.add_sub_cancel, if_neg (Nat.succ_ne_zero _)]
      rfl
    rw [Table.innerLoop, if_pos hlt]
    simp only [hkey, hrun]
    have hinv' := hinv.returns s (t.indexKey idx x) (.ok (cur t m0 x)) hs
    have hstay := hf.stays s (t.indexKey idx x) (.ok (cur t m0 x)) hone
    generalize (f s (t.indexKey idx x)).run (.ok (cur t m0 x)) = out at *
    obtain ⟨s', c1, e1⟩ := out
    simp only at *
    by_cases hc : (!c1 || e1.isSome) = true
    · left
      simp only [hc, if_true] at hspec ⊢
      exact ⟨_, rfl, hspec⟩
    · simp only [hc] at hspec ⊢
      obtain ⟨rfl, rfl⟩ := go_cases hc
      rcases ih (done ++ [(t.indexKey idx x, cur t m0 x)]) fuel { p with vidx := done.length + 1 } s'
        (fun y hy => hser y (by simp [hy])) (by simp [hv]) (by simp [hkeys]) (by simp) (hstay rfl) hinv'
        (by simp at hfuel; omega) with ⟨o, h1, h2⟩ | ⟨p', s'', h1, h2, h3, h4⟩
      · exact Or.inl ⟨o, by simpa using h1, fun more => by rw [hspec]; exact h2 more⟩
      · exact Or.inr ⟨p', s'', by simpa using h1, h2, h3, fun more => by rw [hspec]; exact h4 more⟩

/-- the outer loop with a callback that writes -/
theorem ownOuter {t : Table T F} {env : Env T} {filt : F} {view : σ → KV × Option Batch} {inv : σ → Prop} {m : σ → Rows T}
    (S : OwnSetting t env filt view inv m) {idx : Index T} (hi : IsIndex t idx) {f : σ → Bytes → Cb σ T} {fetched : σ → Prop}
    (hf : FetchesAll f fetched) (hst : StopsOnError f) (hinv : CbInv f inv) (innerFuel fuel : Nat) (rows : List T) (clock : Nat) (s : σ)
    (hs : inv s) (blk : Rows T) (h1 : rows.length ≤ fuel) (h2 : rows.length ≤ innerFuel) :
    t.outerLoop env filt view f innerFuel fuel clock
      { rest := (seen t idx rows).map (fun r => (r.1, [])), keys := [], indexKeys := [], values := [], vidx := 0 } s =
      some (runBlocks t idx t.prefetch m f 0 blk rows s) := by
  induction fuel generalizing rows clock s blk with
  | zero =>
    have : rows = [] := List.eq_nil_of_length_eq_zero (by omega)
    subst this
    rw [Table.outerLoop]; rfl
  | succ fuel ih =>
    cases rows with
    | nil => rw [Table.outerLoop]; rfl
    | cons x rows =>
      rw [Table.outerLoop]
      simp only [seen, List.map_cons, S.alive, Bool.false_eq_true, if_false]
      simp only [List.length_cons] at h1 h2
      rcases hf.once s (t.indexKey idx x) with ⟨s', cont, err, he⟩ | hone
      · have hspec : runBlocks t idx t.prefetch m f 0 blk (x :: rows) s =
            if !cont || err.isSome then ⟨s', err⟩ else runBlocks t idx t.prefetch m f 0 blk rows s' := by
          simp only [runBlocks, he, Cb.asked, Cb.run]
        have hinv' := hinv.returns s (t.indexKey idx x) (.error .notFound) hs
        rw [he] at hinv'
        rw [he, Table.runOuter, hspec]
        simp only
        by_cases hc : (!cont || err.isSome) = true
        · simp only [hc, if_true]
        · simp only [hc]
          have hin : ∀ p : PSt, p.values = [] → t.innerLoop f innerFuel p s' = .go (p, s') := by
            intro p hp0
            have : ¬ p.vidx < p.values.length := by rw [hp0]; simp
            cases innerFuel <;> rw [Table.innerLoop, if_neg this]
          rw [hin _ rfl]
          simp only [List.tail_cons]
          exact ih rows (clock + 1) s' hinv' blk (by omega) (by omega)
      · obtain ⟨s0, g, hg, hask, hng⟩ := oneGet_asked hone
        have hs0 := hinv.asks s _ s0 hs hask
        obtain ⟨V, hV, hH⟩ := S.content s0 hs0
        have hcov := S.covers s0 hs0
        have hrk : RowKeys t (curRows t idx (m s0) (x :: rows)) := by
          intro r hr
          obtain ⟨y, _, rfl⟩ := List.mem_map.1 hr
          simp only [key_cur hH]
          exact toDataKey_indexKey S.wf hi y
        have hrest : (List.map (fun r : Bytes × T => (r.1, ([] : Bytes))) (List.map (fun x => (t.indexKey idx x, x)) rows)) =
            List.map (fun r : Bytes × T => (r.1, ([] : Bytes))) (List.map (fun x => (t.indexKey idx x, cur t (m s0) x)) rows) := by
          simp [Function.comp_def]
        by_cases hall : ∀ y ∈ (x :: rows).take t.prefetch, (m s0 (t.pk y)).isSome
        · have hsees : Sees t filt view s0 ((curRows t idx (m s0) (x :: rows)).take t.prefetch) := by
            unfold curRows
            rw [← List.map_take]
            intro r hr
            obtain ⟨y, hy, rfl⟩ := List.mem_map.1 hr
            have hm := cur_eq (hall y hy)
            obtain ⟨b, hb, hgb⟩ := hH.present _ _ hm
            refine ⟨b, hb, ?_⟩
            simp only [key_cur hH]
            unfold Table.key
            rw [lookup_eq hV hH hcov]
            exact hgb
          obtain ⟨rest', keys', hpre, htail⟩ := prefetch_eq (view := view) S.rt S.ok S.prefetch (fun _ => []) hrk hsees
          obtain ⟨k, hk⟩ : ∃ k, t.prefetch = k + 1 := ⟨t.prefetch - 1, by have := S.prefetch; omega⟩
          have htk : ((t.indexKey idx x, cur t (m s0) x) :: rows.map (fun x => (t.indexKey idx x, cur t (m s0) x))).take t.prefetch =
              (t.indexKey idx x, cur t (m s0) x) :: curRows t idx (m s0) (rows.take k) := by
            rw [hk, List.take_succ_cons, ← List.map_take]; rfl
          have hdr : ((t.indexKey idx x, cur t (m s0) x) :: rows.map (fun x => (t.indexKey idx x, cur t (m s0) x))).drop t.prefetch =
              curRows t idx (m s0) (rows.drop k) := by
            rw [hk, List.drop_succ_cons, ← List.map_drop]; rfl
          rw [htk] at hpre
          rw [hdr] at htail
          rw [hrest]
          simp only [List.map_cons] at hpre
          have hrun : ∀ rs : List (Bytes × Bytes), rs = (t.indexKey idx x, ([] : Bytes)) :: List.map (fun r : Bytes × T => (r.1, ([] : Bytes))) (List.map (fun x => (t.indexKey idx x, cur t (m s0) x)) rows) →
              t.runOuter env filt view { rest := rs, keys := [], indexKeys := [], values := [], vidx := 0 } (f s (t.indexKey idx x)) =
              some (PSt.mk rest' keys' (t.indexKey idx x :: (curRows t idx (m s0) (rows.take k)).map Prod.fst)
                (serAll t ((t.indexKey idx x, cur t (m s0) x) :: curRows t idx (m s0) (rows.take k))) 1,
                (f s (t.indexKey idx x)).run (.ok (cur t (m s0) x))) := by
            intro rs hrs
            subst hrs
            rw [hg, Table.runOuter, hpre]
            simp only
            rw [hng, Table.runOuter, hg]
          rw [hrun _ rfl]
          have hallb : ((x :: rows).take t.prefetch).all (fun y => (m s0 (t.pk y)).isSome) = true := List.all_eq_true.2 hall
          have hlen : ((x :: rows).take t.prefetch).length - 1 = (rows.take k).length := by
            rw [hk, List.take_succ_cons]; simp
          have hspec : runBlocks t idx t.prefetch m f 0 blk (x :: rows) s =
              (let out := (f s (t.indexKey idx x)).run (.ok (cur t (m s0) x))
               if !out.2.1 || out.2.2.isSome then ⟨out.1, out.2.2⟩ else runBlocks t idx t.prefetch m f (rows.take k).length (m s0) rows out.1) := by
            simp only [runBlocks, hask, if_true, hallb, hlen]
            rfl
          rw [hspec]
          have hinv' := hinv.returns s (t.indexKey idx x) (.ok (cur t (m s0) x)) hs
          have hstay := hf.stays s (t.indexKey idx x) (.ok (cur t (m s0) x)) hone
          generalize (f s (t.indexKey idx x)).run (.ok (cur t (m s0) x)) = out at *
          obtain ⟨s', c1, e1⟩ := out
          simp only at *
          by_cases hc : (!c1 || e1.isSome) = true
          · simp only [hc, if_true]
          · simp only [hc]
            obtain ⟨rfl, rfl⟩ := go_cases hc
            have hx : ∀ y ∈ rows.take k, (m s0 (t.pk y)).isSome := fun y hy => hall y (by rw [hk, List.take_succ_cons]; exact List.mem_cons_of_mem _ hy)
            have hin := ownInner (idx := idx) (n := t.prefetch) (m := m) S.rt hf hinv (rows.take k) [(t.indexKey idx x, cur t (m s0) x)] innerFuel
              { rest := rest', keys := keys', indexKeys := t.indexKey idx x :: (curRows t idx (m s0) (rows.take k)).map Prod.fst,
                values := serAll t ((t.indexKey idx x, cur t (m s0) x) :: curRows t idx (m s0) (rows.take k)), vidx := 1 } s'
              (fun y hy => by obtain ⟨b, hb, _⟩ := hH.present _ _ (cur_eq (hx y hy)); simp [hb])
              rfl rfl rfl (hstay rfl) hinv' (by simp; omega)
            rcases hin with ⟨o, ho, hv⟩ | ⟨p', s'', ho, hrest', hi'', hv⟩
            · rw [ho]
              have := hv (rows.drop k)
              rw [List.take_append_drop] at this
              simp only [Bool.false_eq_true, if_false]
              rw [this]
            · rw [ho]
              simp only [Bool.false_eq_true, if_false]
              have := hv (rows.drop k)
              rw [List.take_append_drop] at this
              rw [this, hrest', htail]
              have hseen : ∀ l : List T, (seen t idx l).map (fun r => (r.1, ([] : Bytes))) = (curRows t idx (m s0) l).map (fun r => (r.1, (fun _ => []) r)) := by
                intro l; simp [seen, curRows, Function.comp_def]
              rw [← hseen]
              exact ih (rows.drop k) (clock + 1) s'' hi'' (m s0) (by simp; omega) (by simp; omega)
        · -- a row of the block is gone
          obtain ⟨y, hy, hmy⟩ : ∃ y ∈ (x :: rows).take t.prefetch, m s0 (t.pk y) = none := by
            apply Classical.byContradiction
            intro hno
            apply hall
            intro y hy
            cases hm : m s0 (t.pk y) with
            | none => exact absurd ⟨y, hy, hm⟩ hno
            | some r => rfl
          obtain ⟨rest', hcol, _⟩ := collectKeys_eq t (curRows t idx (m s0) (x :: rows)) (fun _ => []) hrk [] [] S.prefetch
          simp only [List.length_nil, Nat.sub_zero, List.nil_append] at hcol
          have hrest2 : ((t.indexKey idx x, ([] : Bytes)) :: List.map (fun r : Bytes × T => (r.1, ([] : Bytes))) (List.map (fun x => (t.indexKey idx x, x)) rows)) =
              List.map (fun r : Bytes × T => (r.1, ([] : Bytes))) (curRows t idx (m s0) (x :: rows)) := by
            simp [curRows, Function.comp_def]
          have hgk : t.getKeys env filt (view s0).1 (view s0).2 (((curRows t idx (m s0) (x :: rows)).take t.prefetch).map (fun r => t.key r.2)) t.prefetch true =
              .error .notFound := by
            apply getKeys_missing t S.ok
            · intro k' hk'
              obtain ⟨r, _, rfl⟩ := List.mem_map.1 hk'
              exact blt_key_end t r.2
            · simp; omega
            · refine ⟨t.key y, ?_, ?_⟩
              · unfold curRows
                rw [← List.map_take, List.map_map]
                exact List.mem_map.2 ⟨y, hy, key_cur hH y⟩
              · unfold Table.key
                rw [lookup_eq hV hH hcov]
                exact hH.absent _ hmy
          have hpre : ∃ p', t.prefetchAndGetValue env filt (view s0).1 (view s0).2
              { rest := (t.indexKey idx x, ([] : Bytes)) :: List.map (fun r : Bytes × T => (r.1, ([] : Bytes))) (List.map (fun x => (t.indexKey idx x, x)) rows),
                keys := [], indexKeys := [], values := [], vidx := 0 } = some (p', .error .notFound) := by
            unfold Table.prefetchAndGetValue
            simp only [hrest2, hcol, hgk]
            exact ⟨_, rfl⟩
          obtain ⟨p', hpre⟩ := hpre
          have hallb : ((x :: rows).take t.prefetch).all (fun y => (m s0 (t.pk y)).isSome) = false := by
            rw [← Bool.not_eq_true, List.all_eq_true]; exact hall
          have hstop := hst s (t.indexKey idx x) .notFound hone
          have hrun : t.runOuter env filt view { rest := (t.indexKey idx x, ([] : Bytes)) :: List.map (fun r : Bytes × T => (r.1, ([] : Bytes))) (List.map (fun x => (t.indexKey idx x, x)) rows), keys := [], indexKeys := [], values := [], vidx := 0 } (f s (t.indexKey idx x)) =
              some (p', (f s (t.indexKey idx x)).run (.error .notFound)) := by
            rw [hg, Table.runOuter, hpre]
            simp only
            rw [hng, Table.runOuter, hg]
          rw [hrun]
          simp only [runBlocks, hask, if_true, hallb, Bool.false_eq_true, if_false]
          generalize (f s (t.indexKey idx x)).run (.error .notFound) = out at *
          obtain ⟨s', c1, e1⟩ := out
          simp only at *
          have hc : (!c1 || e1.isSome) = true := by
            cases c1 with
            | false => rfl
            | true => simp [hstop rfl]
          simp only [hc, if_true]

end Bond
