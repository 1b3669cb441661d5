import Verif.Machine
import Verif.FilterLive
import Verif.BloomStore
/-
A table with a bloom filter over several lives of the process: the filter is saved now and then, the process ends, and the next one
opens the database, makes a new filter and initialises it (bond.go:182-232, filter.go:56-75, bloom/bloom_filter.go:42-194).
-/
namespace Bond
variable {T : Type}

theorem scanLoop_shape {h : BloomHash} (ok : HashOK h) {m k n : Nat} {p : Bytes} (hm : 0 < m) (hn : 0 < n) (scanners : List KeyScan) :
    ∀ {f : BloomFilter}, Shape m k n p f → Shape m k n p (scanLoop h f scanners).1 := by
  induction scanners with
  | nil => intro f sh; exact sh
  | cons s ss ih =>
    intro f sh
    obtain ⟨f', h1, h2, _⟩ := addAll_spec ok hm hn s.keys sh
    unfold scanLoop
    rw [h1]
    simp only
    split
    · exact ih h2
    · exact h2

theorem filterInitialize_shape {h : BloomHash} (ok : HashOK h) {c : BFCodec} (cok : CodecOK c) {m k n : Nat} {p : Bytes} (hm : 0 < m) (hn : 0 < n)
    (delOk : Bool) {f : BloomFilter} (sh : Shape m k n p f) (store : FStore) (scanners : List KeyScan) :
    Shape m k n p (filterInitialize h c delOk f store scanners).1 := by
  have hl := (load_sub cok sh store).1
  unfold filterInitialize
  split
  · rename_i f' he; rw [he] at hl; exact hl
  · rename_i f' he; rw [he] at hl; exact hl
  · rename_i f' he
    rw [he] at hl
    split
    · exact scanLoop_shape ok hm hn scanners hl
    · exact hl

/-- the configuration of a bloom filter (bloom/bloom_filter.go:42-77) and its hash functions and encoding (bloom/bloom_filter.go:113-125,
157-170, 196-221) -/
structure BloomCfg where
  h : BloomHash
  c : BFCodec
  m : Nat
  k : Nat
  n : Nat
  p : Bytes
  ok : HashOK h
  cok : CodecOK c
  hm : 0 < m
  hn : 0 < n
  n64 : n < 2 ^ 64
  hp : p ≠ []

/-- the bloom filters in memory that this configuration has (bloom/bloom_filter.go:32-40) -/
abbrev BloomCfg.F (g : BloomCfg) : Type := {f : BloomFilter // Shape g.m g.k g.n g.p f}

/-- bloom/bloom_filter.go:79-91 the bloom filter as the filter of a table -/
def BloomCfg.filter (g : BloomCfg) : Filter g.F where
  add f key := ⟨(f.1.add g.h key).getD f.1, by obtain ⟨f', h1, h2, _⟩ := add_spec g.ok f.2 g.hm g.hn key; rw [h1]; exact h2⟩
  may f key := (f.1.mayContain g.h key).getD true

/-- bloom/bloom_filter.go:42-77 a new one -/
def BloomCfg.fresh (g : BloomCfg) : g.F := ⟨BloomFilter.new g.m g.k g.n g.p, shape_new ..⟩

/-- The process: the database, the filter in memory and the open batch; the store of the filter (here apart from the database; for a filter
that is stored in the database itself see C92); and whether the last start went well (filter.go:56-75). -/
structure RWorld (g : BloomCfg) where
  p : PWorld g.F
  store : FStore
  up : Bool

/-- One action: an action of C97 (table.go:338-1000); Save of the filter (bloom/bloom_filter.go:138-187; `setOk` tells which writes to its store
succeed); the end of the process, whereby the batch and the filter in memory are lost, and the start of the next, which makes a new filter and
initialises it with the scanner of the table (filter.go:56-75; `delOk`, `scanOk`: whether Clear and the scan go well). -/
inductive RStep (T : Type)
  | act (x : PStep T)
  | save (setOk : Nat → Bool)
  | restart (delOk scanOk : Bool)

/-- the result of a call on the filter as an error (bloom/bloom_filter.go:79-194) -/
def FRes.error : FRes → Option Err
  | .ok => none
  | .err => some .storage
  | .panic => some .panic

/-- the initialisation at a start (filter.go:56-75, table.go:1015-1017) -/
def Table.initFresh (g : BloomCfg) (t : Table T g.F) (db : KV) (store : FStore) (delOk scanOk : Bool) : BloomFilter × FStore × FRes :=
  filterInitialize g.h g.c delOk g.fresh.1 store [⟨(t.initKeys db).getD [], scanOk && (t.initKeys db).isSome⟩]

/-- one action (table.go:338-1000, bloom/bloom_filter.go:138-187, filter.go:56-75); `none`: `fuel` is not enough for a scan to end -/
def Table.rstep (g : BloomCfg) (t : Table T g.F) (srt : (T → T → Bool) → List T → List T) (fuel : Nat) (w : RWorld g) :
    RStep T → Option (Answer T × RWorld g)
  | .act x => (t.pstep srt fuel w.p x).map (fun r => (r.1, { w with p := r.2 }))
  | .save setOk =>
    some (.done (w.p.filt.1.save g.c setOk w.store).2.2.error,
      { w with p := { w.p with filt := ⟨(w.p.filt.1.save g.c setOk w.store).1, (save_sub w.p.filt.2 setOk w.store).1⟩ }
               store := (w.p.filt.1.save g.c setOk w.store).2.1 })
  | .restart delOk scanOk =>
    some (.done (t.initFresh g w.p.db w.store delOk scanOk).2.2.error,
      { p := ⟨w.p.db, ⟨(t.initFresh g w.p.db w.store delOk scanOk).1, filterInitialize_shape g.ok g.cok g.hm g.hn delOk g.fresh.2 _ _⟩, none⟩
        store := (t.initFresh g w.p.db w.store delOk scanOk).2.1
        up := (t.initFresh g w.p.db w.store delOk scanOk).2.2.error.isNone })

/-- any number of actions (table.go:338-1000, filter.go:56-75) -/
def Table.rrun (g : BloomCfg) (t : Table T g.F) (srt : (T → T → Bool) → List T → List T) (fuel : Nat) : RWorld g → List (RStep T) →
    Option (List (Answer T) × RWorld g)
  | w, [] => some ([], w)
  | w, x :: l =>
    match t.rstep g srt fuel w x with
    | none => none
    | some (a, w') => (t.rrun g srt fuel w' l).map (fun r => (a :: r.1, r.2))

end Bond
