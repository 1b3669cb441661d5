import Verif.Spec.Restart
import Verif.Props.Machine
import Verif.Props.Bloom
import Verif.FilterLiveLemmas
import Verif.HistoryLemmas
/-
C100: over any number of ends and starts of the process a table with a bloom filter behaves as if there were none.
-/
namespace Bond
open Spec
variable {T : Type}

/-- what is kept between the actions: C97's relation while the process is up; the filter in memory agrees with its store; if nothing of it
was stored there is no number of buckets; and if all of it was, a new filter that loads it says the same -/
structure RRepresents (g : BloomCfg) (t : Table T g.F) (w : RWorld g) (s : RMaps T) : Prop where
  up : w.up = s.up
  stored : Holds t w.p.db s.maps.stored
  rep : s.up = true → Represents t w.p s.maps
  synced : Synced g.c g.m g.k w.store w.p.filt.1
  down : s.up = false → s.kept = .never ∧ s.maps.tx = none
  never : s.kept = .never → w.store (bloomNumKey g.p) = none
  saved : s.kept = .saved → (g.fresh.1.load g.c w.store).2 = .ok ∧
    ∀ key, (g.fresh.1.load g.c w.store).1.mayContain g.h key = w.p.filt.1.mayContain g.h key

theorem BloomCfg.sound (g : BloomCfg) (t : Table T g.F) (ht : t.filter = some g.filter) : t.FilterSound :=
  C39_filterSound g.ok g.hm g.hn t ht

theorem covers_congr {g : BloomCfg} {t : Table T g.F} (ht : t.filter = some g.filter) {f f' : g.F} {m : Rows T}
    (h : ∀ key, f'.1.mayContain g.h key = f.1.mayContain g.h key) (hc : FilterCovers t f m) : FilterCovers t f' m := by
  intro fl hfl pk x hx
  have := hc fl hfl pk x hx
  rw [ht] at hfl
  cases hfl
  simp only [BloomCfg.filter, h] at this ⊢
  exact this

theorem synced_table {g : BloomCfg} {t : Table T g.F} (ht : t.filter = some g.filter) (store : FStore) (f : g.F) (k : Bytes)
    (h : Synced g.c g.m g.k store f.1) : Synced g.c g.m g.k store (t.filterAdd f k).1 := by
  obtain ⟨f', h1, _⟩ := add_spec g.ok f.2 g.hm g.hn k
  simp only [Table.filterAdd, ht, BloomCfg.filter, h1, Option.getD_some]
  exact synced_add g.ok f.2 g.hm h h1

theorem synced_addAll {h : BloomHash} (ok : HashOK h) {c : BFCodec} {m k n : Nat} {p : Bytes} (hm : 0 < m) (hn : 0 < n) {store : FStore} (keys : List Bytes) :
    ∀ {f f' : BloomFilter}, Shape m k n p f → Synced c m k store f → f.addAll h keys = some f' → Synced c m k store f' := by
  induction keys with
  | nil => intro f f' _ sy ha; cases ha; exact sy
  | cons key keys ih =>
    intro f f' sh sy ha
    obtain ⟨f1, a1, a2, _⟩ := add_spec ok sh hm hn key
    simp only [BloomFilter.addAll, List.foldlM_cons, a1] at ha
    exact ih a2 (synced_add ok sh hm sy a1) ha

/-- an action on the table changes the filter only in a write call -/
theorem pstep_filt {F : Type} {t : Table T F} {srt : (T → T → Bool) → List T → List T} {fuel : Nat} {w w' : PWorld F} {x : PStep T} {a : Answer T}
    (hx : isWrite x = false) (h : t.pstep srt fuel w x = some (a, w')) : w'.filt = w.filt := by
  cases x with
  | begin => cases h; rfl
  | discard => cases h; rfl
  | commit k =>
    simp only [Table.pstep] at h
    split at h <;> cases h <;> rfl
  | call env i c =>
    cases c with
    | write c => simp [isWrite] at hx
    | _ =>
      simp only [Table.pstep, Option.map_eq_some_iff] at h
      obtain ⟨_, _, h⟩ := h
      cases h
      rfl

/-- and then only by adding to it -/
theorem pstep_keep {F : Type} {t : Table T F} {srt : (T → T → Bool) → List T → List T} {fuel : Nat} {w w' : PWorld F} {x : PStep T} {a : Answer T}
    {s : Maps T} (hs : Proper1 t s x) {P : F → Prop} (hP : ∀ f k, P f → P (t.filterAdd f k)) (h : t.pstep srt fuel w x = some (a, w'))
    (h0 : P w.filt) : P w'.filt := by
  cases hx : isWrite x with
  | false => rw [pstep_filt hx h]; exact h0
  | true =>
    cases x with
    | call env i c =>
      cases c with
      | write c =>
        simp only [Table.pstep, Option.some.injEq, Prod.mk.injEq] at h
        obtain ⟨_, h⟩ := h
        subst h
        exact run_filt_keep hs.1 _ _ _ hP h0
      | _ => simp [isWrite] at hx
    | _ => simp [isWrite] at hx

/-- C100 (one action): the answer and the maps afterwards are those of the specification. -/
theorem C100_step {g : BloomCfg} {t : Table T g.F} (wf : t.WF) (rt : t.RoundTrip) (ht : t.filter = some g.filter) (hp : 0 < t.prefetch)
    {srt : (T → T → Bool) → List T → List T} (hsrt : SortSlice srt) {w : RWorld g} {s : RMaps T} (h : RRepresents g t w s) {x : RStep T}
    (hx : RProper1 g t s x) :
    ∃ N a w' s', (∀ fuel, N ≤ fuel → t.rstep g srt fuel w x = some (a, w')) ∧ RDoes g t s x a s' ∧ RRepresents g t w' s' := by
  cases x with
  | act x =>
    obtain ⟨hu, hx⟩ := hx
    obtain ⟨N, a, p', m', h1, h2, h3⟩ := C97_step wf rt (g.sound t ht) hp hsrt (h.rep hu) hx
    refine ⟨N, a, { w with p := p' }, ⟨m', if isWrite x && s.kept == .saved then .changed else s.kept, s.up⟩, fun fuel hf => ?_, ⟨h2, rfl, rfl⟩, ?_⟩
    · simp only [Table.rstep, h1 fuel hf, Option.map_some]
    · have hk := h1 N (Nat.le_refl _)
      refine ⟨h.up, h3.stored, fun _ => h3, ?_, fun hd => ?_, fun hn => ?_, fun hv => ?_⟩
      · exact pstep_keep (P := fun f => Synced g.c g.m g.k w.store f.1) hx (synced_table ht w.store) hk h.synced
      · simp only [hu] at hd; cases hd
      · simp only at hn
        split at hn
        · cases hn
        · exact h.never hn
      · simp only at hv
        split at hv
        · cases hv
        · rename_i hw
          have hw' : isWrite x = false := by
            cases hi : isWrite x with
            | false => rfl
            | true => rw [hi, hv] at hw; exact absurd rfl hw
          have := h.saved hv
          simp only [pstep_filt hw' hk]
          exact this
  | save setOk =>
    obtain ⟨k1, k2⟩ := synced_save g.cok w.p.filt.2 h.synced setOk
    have hsame : ∀ key, (w.p.filt.1.save g.c setOk w.store).1.mayContain g.h key = w.p.filt.1.mayContain g.h key := by
      intro key
      have e : (w.p.filt.1.save g.c setOk w.store).1.buckets.map (·.filter) = w.p.filt.1.buckets.map (·.filter) ∧
          (w.p.filt.1.save g.c setOk w.store).1.numOfBuckets = w.p.filt.1.numOfBuckets := by
        unfold BloomFilter.save
        split
        · exact ⟨by
            have := congrArg (List.map Prod.snd) (saveLoop_same g.c setOk w.p.filt.1.keyPrefix w.p.filt.1.buckets 1
              (w.store.set (bloomNumKey w.p.filt.1.keyPrefix) (beBytes 8 w.p.filt.1.numOfBuckets)))
            simpa [List.map_map, Function.comp_def] using this, rfl⟩
        · exact ⟨rfl, rfl⟩
      exact mayContain_filters e.2 e.1 key
    have hr := h.rep hx
    refine ⟨0, _, _, { s with kept := if (w.p.filt.1.save g.c setOk w.store).2.2.error.isNone then .saved else .changed }, fun fuel _ => rfl,
      ⟨_, rfl, fun hall => ?_, rfl⟩, ?_⟩
    · have : setOk = fun _ => true := funext hall
      subst this
      rw [save_ok]; rfl
    · refine ⟨h.up, h.stored, fun _ => ?_, k1, fun hd => ?_, fun hn => ?_, fun hv => ?_⟩
      · refine ⟨hr.stored, covers_congr ht hsame hr.covers, hr.closed, fun b hb => ?_⟩
        obtain ⟨e1, v, e2, e3, e4⟩ := hr.opened b hb
        exact ⟨e1, v, e2, e3, covers_congr ht hsame e4⟩
      · have hx : s.up = true := hx
        simp only [hx] at hd; cases hd
      · simp only at hn
        split at hn <;> cases hn
      · simp only at hv
        split at hv
        · rename_i he
          have hok : (w.p.filt.1.save g.c setOk w.store).2.2 = .ok := by
            cases hz : (w.p.filt.1.save g.c setOk w.store).2.2 with
            | ok => rfl
            | err => rw [hz] at he; cases he
            | panic => rw [hz] at he; cases he
          obtain ⟨e1, e2⟩ := k2 hok
          exact ⟨(load_fresh g.cok g.n64 (save_sub w.p.filt.2 setOk w.store).1 e1 e2).1,
            (load_fresh g.cok g.n64 (save_sub w.p.filt.2 setOk w.store).1 e1 e2).2 g.h⟩
        · cases hv
  | restart delOk scanOk =>
    obtain ⟨h1, h2⟩ := hx
    cases hk : s.kept with
    | changed => exact absurd hk h1
    | saved =>
      obtain ⟨l1, l2⟩ := h.saved hk
      have hu : s.up = true := by
        cases hu : s.up with
        | true => rfl
        | false => have := (h.down hu).1; rw [hk] at this; cases this
      have hi : t.initFresh g w.p.db w.store delOk scanOk = ((g.fresh.1.load g.c w.store).1, w.store, .ok) := by
        unfold Table.initFresh filterInitialize
        split
        · rename_i f' he; rw [he]
        · rename_i f' he; rw [he] at l1; cases l1
        · rename_i f' he; rw [he] at l1; cases l1
      have hfilt : (t.initFresh g w.p.db w.store delOk scanOk).1 = (g.fresh.1.load g.c w.store).1 := by rw [hi]
      have hstore : (t.initFresh g w.p.db w.store delOk scanOk).2.1 = w.store := by rw [hi]
      have hres : (t.initFresh g w.p.db w.store delOk scanOk).2.2 = .ok := by rw [hi]
      refine ⟨0, _, _, ⟨⟨s.maps.stored, none⟩, .saved, true⟩, fun fuel _ => rfl, ⟨none, by rw [hres]; rfl, fun _ => rfl, by rw [hk]; rfl⟩, ?_⟩
      refine ⟨by simp only [hres]; rfl, h.stored, fun _ => ⟨h.stored, covers_congr ht ?_ (h.rep hu).covers, fun _ => rfl, fun b hb => (by cases hb)⟩, ?_,
        fun hd => (by cases hd), fun hn => (by cases hn), fun _ => ?_⟩
      · intro key; simp only [hfilt]; exact l2 key
      · simp only [hfilt, hstore]
        exact synced_load g.cok (synced_new g.c g.m g.k g.n g.p _)
      · simp only [hfilt, hstore]
        exact ⟨l1, fun _ => trivial⟩
    | never =>
      have hload : g.fresh.1.load g.c w.store = (g.fresh.1, .err) := by
        have hn := h.never hk
        unfold BloomFilter.load
        have : g.fresh.1.keyPrefix = g.p := rfl
        rw [this, hn]
      obtain ⟨keys, hkeys, hmem⟩ := initKeys_mem wf w.p.db
      have hclear : g.fresh.1.clear delOk w.store =
          if delOk then (w.store.deleteRange g.p (bumpLast g.p), .ok) else (w.store, .err) := by
        unfold BloomFilter.clear
        have : g.fresh.1.keyPrefix = g.p := rfl
        rw [this, if_neg g.hp]
      obtain ⟨f', a1, a2, a3, a4⟩ := addAll_spec g.ok g.hm g.hn keys g.fresh.2
      have hi : t.initFresh g w.p.db w.store delOk scanOk =
          if delOk then (f', w.store.deleteRange g.p (bumpLast g.p), if scanOk then .ok else .err) else (g.fresh.1, w.store, .err) := by
        unfold Table.initFresh filterInitialize
        rw [hload, hkeys]
        simp only [hclear]
        cases delOk with
        | false => rfl
        | true => cases scanOk <;> simp [scanLoop, a1]
      have hnone : (t.initFresh g w.p.db w.store delOk scanOk).2.1 (bloomNumKey g.p) = none := by
        rw [hi]
        cases delOk with
        | false => exact h.never hk
        | true =>
          simp only [if_true, FStore.deleteRange]
          split
          · rfl
          · exact h.never hk
      have hsync : Synced g.c g.m g.k (t.initFresh g w.p.db w.store delOk scanOk).2.1 (t.initFresh g w.p.db w.store delOk scanOk).1 := by
        rw [hi]
        cases delOk with
        | false => exact synced_new g.c g.m g.k g.n g.p _
        | true => exact synced_addAll g.ok g.hm g.hn keys g.fresh.2 (synced_new g.c g.m g.k g.n g.p _) a1
      refine ⟨0, _, _, ⟨⟨s.maps.stored, none⟩, .never, (t.initFresh g w.p.db w.store delOk scanOk).2.2.error.isNone⟩, fun fuel _ => rfl,
        ⟨_, rfl, fun hh => ?_, by rw [hk]⟩, ?_⟩
      · rcases hh with hh | ⟨rfl, rfl⟩
        · rw [hk] at hh; cases hh
        · rw [hi]; rfl
      · refine ⟨rfl, h.stored, fun hu => ⟨h.stored, ?_, fun _ => rfl, fun b hb => (by cases hb)⟩, hsync, fun _ => ⟨rfl, rfl⟩, fun _ => hnone,
          fun hv => (by cases hv)⟩
        have hd : delOk = true := by
          cases delOk with
          | true => rfl
          | false => simp only [hi] at hu; cases hu
        subst hd
        intro fl hfl pk x hpk
        rw [ht] at hfl
        cases hfl
        obtain ⟨b, _, hb⟩ := h.stored.present pk x hpk
        have := a4 _ (hmem pk (by rw [hb]; rfl) (h2 hk pk x hpk))
        simp only [BloomCfg.filter, hi, if_true, this, Option.getD_some]

/-- C100. A process uses a table with a bloom filter as in C97, saves the filter now and then, and is ended and started again any number of
times; within the documented use (the filter is saved after the last write call, or nothing of it is ever stored). Then all calls are answered by
one map, which no start changes; only an open transaction is lost. In particular no row is ever hidden by a filter that a
start loaded or made. -/
theorem C100 {g : BloomCfg} {t : Table T g.F} (wf : t.WF) (rt : t.RoundTrip) (ht : t.filter = some g.filter) (hp : 0 < t.prefetch)
    {srt : (T → T → Bool) → List T → List T} (hsrt : SortSlice srt) (l : List (RStep T)) : ∀ {w : RWorld g} {s : RMaps T},
    RRepresents g t w s → RProper g t s l →
    ∃ N as w' s', (∀ fuel, N ≤ fuel → t.rrun g srt fuel w l = some (as, w')) ∧ RBehaves g t s l as s' ∧ RRepresents g t w' s' := by
  induction l with
  | nil => intro w s h _; exact ⟨0, [], w, s, fun _ _ => rfl, .nil, h⟩
  | cons x l ih =>
    intro w s h hx
    obtain ⟨N, a, w', s', h1, h2, h3⟩ := C100_step wf rt ht hp hsrt h hx.1
    obtain ⟨M, as, w'', s'', g1, g2, g3⟩ := ih h3 (hx.2 a s' h2)
    refine ⟨max N M, a :: as, w'', s'', fun fuel hf => ?_, .cons h2 g2, g3⟩
    simp only [Table.rrun]
    rw [h1 fuel (by omega)]
    simp only
    rw [g1 fuel (by omega)]
    rfl

/-- C100 from the beginning: the first start of a process on a database without entries of the table, and a store without any of the filter. -/
theorem C100_start {g : BloomCfg} {t : Table T g.F} (wf : t.WF) (rt : t.RoundTrip) (ht : t.filter = some g.filter) (hp : 0 < t.prefetch)
    {srt : (T → T → Bool) → List T → List T} (hsrt : SortSlice srt) {db : KV} (h : ∀ k, ¬ Outside t k → db.get k = none) {store : FStore}
    (hs : store (bloomNumKey g.p) = none) (l : List (RStep T)) (hl : RProper g t ⟨⟨fun _ => none, none⟩, .never, false⟩ l) :
    ∃ N as w' s', (∀ fuel, N ≤ fuel → t.rrun g srt fuel ⟨⟨db, g.fresh, none⟩, store, false⟩ l = some (as, w')) ∧
      RBehaves g t ⟨⟨fun _ => none, none⟩, .never, false⟩ l as s' ∧ RRepresents g t w' s' :=
  C100 wf rt ht hp hsrt l ⟨rfl, holds_none h, fun h => (by cases h), synced_new g.c g.m g.k g.n g.p _, fun _ => ⟨rfl, rfl⟩, fun _ => hs, fun h => (by cases h)⟩ hl

/-- the configuration of the examples -/
def c100Cfg : BloomCfg := ⟨exHash, exCodec, 8, 2, 2, exPrefix, exHash_ok, exCodec_ok, by decide, by decide, by decide, by decide⟩

/-- the table of the examples, with a bloom filter -/
def c100Table : Table Rec c100Cfg.F :=
  { id := exTable.id, pk := exTable.pk, indexes := exTable.indexes, ser := exTable.ser, deser := exTable.deser, nil := exTable.nil
    empty := exTable.empty, prefetch := exTable.prefetch, filter := some c100Cfg.filter }

/-- A program: the first start; rows are inserted; the process is started again before anything was saved; more rows, Save, and another start with an
open transaction, which is lost; the rows are all found. -/
def c100Program : List (RStep Rec) :=
  let env := stdEnv c100Table
  [.restart true true, .act (.call env false (.write (.insert [(1, 5)]))), .restart true true, .act (.call env false (.get (1, 0))),
   .act (.call env false (.write (.insert [(2, 5)]))), .act .begin, .act (.call env true (.write (.insert [(3, 5)]))),
   .save (fun _ => true), .restart false false, .act (.call env false (.get (1, 0))), .act (.call env false (.get (2, 0))),
   .act (.call env false (.get (3, 0))), .act (.call env false (.scanIndex exIndex (.point (0, 5)) false))]

example : (c100Table.rrun c100Cfg insSort 30 ⟨⟨KV.empty, c100Cfg.fresh, none⟩, fun _ => none, false⟩ c100Program).map Prod.fst = some
    [.done none, .done none, .done none, .row (.ok (1, 5)), .done none, .done none, .done none, .done none, .done none, .row (.ok (1, 5)),
     .row (.ok (2, 5)), .row (.error .notFound), .rows [(1, 5), (2, 5)] none] := by
  decide +kernel

/-- the program is within the documented use, so C100 speaks about it -/
example : RProper c100Cfg c100Table ⟨⟨fun _ => none, none⟩, .never, false⟩ c100Program := by
  have ok := stdEnv_ok c100Table
  refine ⟨⟨by simp, fun _ pk x hx => by simp at hx⟩, fun _ s1 h1 => ?_⟩
  obtain ⟨e1, _, g1, rfl⟩ := h1
  have g1 := g1 (Or.inr ⟨rfl, rfl⟩)
  subst g1
  refine ⟨⟨rfl, ok, by simp, Or.inl (by decide)⟩, fun _ s2 h2 => ?_⟩
  obtain ⟨⟨e2, _, g2, t2⟩, _, k2⟩ := h2
  have hle : ∀ pk x, s2.maps.stored pk = some x → ble (c100Table.pk c100Table.empty) pk = true := by
    intro pk x hx
    by_cases he : e2 = none
    · rw [g2.1 he] at hx
      simp only [effect, Rows.putAll, List.foldl_cons, List.foldl_nil, Rows.put] at hx
      split at hx
      · rename_i hpk; rw [hpk]; decide
      · cases hx
    · rw [g2.2.1 he] at hx
      cases hx
  have k2 : s2.kept = .never := by rw [k2]; rfl
  refine ⟨⟨by simp [k2], fun _ => hle⟩, fun _ s3 h3 => ?_⟩
  obtain ⟨e3, _, g3, rfl⟩ := h3
  have g3 := g3 (Or.inr ⟨rfl, rfl⟩)
  subst g3
  refine ⟨⟨rfl, ok, trivial⟩, fun _ s4 h4 => ?_⟩
  obtain ⟨⟨_, t4⟩, u4, k4⟩ := h4
  refine ⟨⟨u4, ok, by rw [t4]; simp, Or.inl (by decide)⟩, fun _ s5 h5 => ?_⟩
  obtain ⟨_, u5, _⟩ := h5
  refine ⟨⟨u5.trans u4, trivial⟩, fun _ s6 h6 => ?_⟩
  obtain ⟨_, u6, _⟩ := h6
  refine ⟨⟨u6.trans (u5.trans u4), ok, by simp, Or.inl (by decide)⟩, fun _ s7 h7 => ?_⟩
  obtain ⟨_, u7, _⟩ := h7
  have u7 : s7.up = true := u7.trans (u6.trans (u5.trans u4))
  refine ⟨u7, fun _ s8 h8 => ?_⟩
  obtain ⟨e8, _, g8, rfl⟩ := h8
  have g8 := g8 (fun _ => rfl)
  subst g8
  refine ⟨⟨by simp, fun h => by simp at h⟩, fun _ s9 h9 => ?_⟩
  obtain ⟨e9, _, g9, rfl⟩ := h9
  have g9 := g9 (Or.inl rfl)
  subst g9
  refine ⟨⟨rfl, ok, trivial⟩, fun _ s10 h10 => ?_⟩
  obtain ⟨_, u10, _⟩ := h10
  refine ⟨⟨u10, ok, trivial⟩, fun _ s11 h11 => ?_⟩
  obtain ⟨_, u11, _⟩ := h11
  refine ⟨⟨u11.trans u10, ok, trivial⟩, fun _ s12 h12 => ?_⟩
  obtain ⟨_, u12, _⟩ := h12
  exact ⟨⟨u12.trans (u11.trans u10), ok, Or.inl (by simp [c100Table, exTable]), ⟨by simp [Selector.elems], by simp [Selector.elems, exIndex]⟩,
    by simp [NoTrailingFF, exIndex]⟩, fun _ _ _ => trivial⟩

theorem c100Table_wf : c100Table.WF := ⟨exTable_wf.ids, exTable_wf.nz, exTable_wf.klen, exTable_wf.olen⟩

/-- C100 speaks about this table -/
example : c100Table.WF ∧ c100Table.RoundTrip ∧ c100Table.filter = some c100Cfg.filter ∧ 0 < c100Table.prefetch ∧ SortSlice (insSort (T := Rec)) :=
  ⟨c100Table_wf, exTable_rt, rfl, by decide, insSort_ok⟩

/-- C100 needs that the filter is saved after the last write: here a row is inserted after Save, and after the next start Get does not
find it although a scan does (see C41). -/
theorem C100_needs_save : (c100Table.rrun c100Cfg insSort 30 ⟨⟨KV.empty, c100Cfg.fresh, none⟩, fun _ => none, false⟩
    [.restart true true, .save (fun _ => true), .act (.call (stdEnv c100Table) false (.write (.insert [(1, 5)]))), .restart true true,
     .act (.call (stdEnv c100Table) false (.get (1, 0))), .act (.call (stdEnv c100Table) false (.scan false))]).map Prod.fst = some
    [.done none, .done none, .done none, .done none, .row (.error .notFound), .rows [(1, 5)] none] := by
  decide +kernel

end Bond
