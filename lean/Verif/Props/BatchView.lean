import Verif.Props.ApplyBatch
import Verif.Query
/-
C19, C113: reads through a read-write batch are reads of the database after its commit, for any contents.
-/
namespace Bond
open Spec
variable {T F σ : Type}

/-- two pairs of database and batch that show the same content (proof notion) -/
def SameView (v v' : KV × Option Batch) : Prop := readable v.1 v.2 = readable v'.1 v'.2

theorem iterEntries_sameView {v v' : KV × Option Batch} (h : SameView v v') (lo hi : Bytes) :
    iterEntries v.1 v.2 lo hi = iterEntries v'.1 v'.2 lo hi := by unfold iterEntries; rw [h]

theorem getKeys_sameView {v v' : KV × Option Batch} (h : SameView v v') (t : Table T F) (env : Env T) (f : F) (keys : List Bytes) (cap : Nat) (e : Bool) :
    t.getKeys env f v.1 v.2 keys cap e = t.getKeys env f v'.1 v'.2 keys cap e := by
  unfold Table.getKeys
  simp only [iterEntries_sameView h]

theorem getChunks_sameView {v v' : KV × Option Batch} (h : SameView v v') (t : Table T F) (env : Env T) (f : F) (cap : Nat) (cs : List (List T)) :
    t.getChunks env f v.1 v.2 cap cs = t.getChunks env f v'.1 v'.2 cap cs := by
  induction cs with
  | nil => rfl
  | cons c cs ih => simp only [Table.getChunks, getKeys_sameView h, ih]

theorem getMany_sameView {v v' : KV × Option Batch} (h : SameView v v') (t : Table T F) (env : Env T) (f : F) (pts : List T) :
    t.getMany env f v.1 v.2 pts = t.getMany env f v'.1 v'.2 pts := getChunks_sameView h t env f _ _

theorem getOne_sameView {v v' : KV × Option Batch} (h : SameView v v') (t : Table T F) (f : F) (x : T) :
    t.getOne f v.1 v.2 x = t.getOne f v'.1 v'.2 x := by
  unfold Table.getOne; rw [h]

theorem exist_sameView {v v' : KV × Option Batch} (h : SameView v v') (t : Table T F) (f : F) (x : T) :
    t.exist f v.1 v.2 x = t.exist f v'.1 v'.2 x := by
  unfold Table.exist; rw [h]

theorem iterParts_sameView {v v' : KV × Option Batch} (h : SameView v v') (t : Table T F) (idx : Index T) (sel : Selector T) :
    t.iterParts v.1 v.2 idx sel = t.iterParts v'.1 v'.2 idx sel := by
  unfold Table.iterParts
  simp only [iterEntries_sameView h]

theorem runOuter_sameView {view view' : σ → KV × Option Batch} (h : ∀ s, SameView (view s) (view' s)) (t : Table T F) (env : Env T) (filt : F)
    (c : Cb σ T) : ∀ p, t.runOuter env filt view p c = t.runOuter env filt view' p c := by
  induction c with
  | ret s cont err => intro p; rfl
  | get s k ih =>
    intro p
    simp only [Table.runOuter, Table.prefetchAndGetValue, getKeys_sameView (h s), ih]

theorem outerLoop_sameView {view view' : σ → KV × Option Batch} (h : ∀ s, SameView (view s) (view' s)) (t : Table T F) (env : Env T) (filt : F)
    (f : σ → Bytes → Cb σ T) (inner : Nat) : ∀ (fuel clock : Nat) (p : PSt) (s : σ),
    t.outerLoop env filt view f inner fuel clock p s = t.outerLoop env filt view' f inner fuel clock p s := by
  intro fuel
  induction fuel with
  | zero => intro clock p s; rfl
  | succ fuel ih =>
    intro clock p s
    simp only [Table.outerLoop, runOuter_sameView h, ih]

theorem scanIndexForEach_sameView {view view' : σ → KV × Option Batch} (h : ∀ s, SameView (view s) (view' s)) (t : Table T F) (env : Env T) (filt : F)
    (idx : Index T) (sel : Selector T) (f : σ → Bytes → Cb σ T) (rev : Bool) (fuel : Nat) (s : σ) :
    t.scanIndexForEach env filt view idx sel f rev fuel s = t.scanIndexForEach env filt view' idx sel f rev fuel s := by
  unfold Table.scanIndexForEach
  simp only [iterParts_sameView (h s), outerLoop_sameView h]

/-- every read call of a table gives the same answer for `v` and `v'` (queries: without Intersects, see `C34_refuted`) -/
def Spec.SameReads (t : Table T F) (filt : F) (v v' : KV × Option Batch) : Prop :=
  (∀ x, t.exist filt v.1 v.2 x = t.exist filt v'.1 v'.2 x) ∧
  (∀ x, t.getPoint filt v.1 v.2 x = t.getPoint filt v'.1 v'.2 x) ∧
  (∀ env sel fuel, t.get env filt v.1 v.2 sel fuel = t.get env filt v'.1 v'.2 sel fuel) ∧
  (∀ (σ : Type) env idx sel (f : σ → Bytes → Cb σ T) rev fuel s,
    t.scanIndexForEach env filt (fun _ => v) idx sel f rev fuel s = t.scanIndexForEach env filt (fun _ => v') idx sel f rev fuel s) ∧
  (∀ env srt (q : Query T) fuel, q.intersects = [] → q.execute t env srt filt v.1 v.2 fuel = q.execute t env srt filt v'.1 v'.2 fuel) ∧
  ∀ env idx sel qs, t.intersect env v.1 v.2 idx sel qs = t.intersect env v'.1 v'.2 idx sel qs

theorem sameReads_of_view {t : Table T F} {filt : F} {v v' : KV × Option Batch} (h : SameView v v') : SameReads t filt v v' := by
  have hs : ∀ (σ : Type) env idx sel (f : σ → Bytes → Cb σ T) rev fuel s,
      t.scanIndexForEach env filt (fun _ => v) idx sel f rev fuel s = t.scanIndexForEach env filt (fun _ => v') idx sel f rev fuel s :=
    fun σ env idx sel f rev fuel s => scanIndexForEach_sameView (view := fun _ => v) (view' := fun _ => v') (fun _ => h) t env filt idx sel f rev fuel s
  refine ⟨exist_sameView h t filt, fun x => ?_, fun env sel fuel => ?_, hs, fun env srt q fuel hq => ?_, fun env idx sel qs => ?_⟩
  · unfold Table.getPoint; rw [getOne_sameView h]
  · have hr : ∀ sel, t.scanIndex env filt v.1 v.2 t.primaryIndex sel false fuel [] = t.scanIndex env filt v'.1 v'.2 t.primaryIndex sel false fuel [] := by
      intro sel; exact hs _ env t.primaryIndex sel scanIndexCb false fuel []
    cases sel <;> simp only [Table.get, getOne_sameView h, getMany_sameView h, hr]
  · unfold Query.execute
    rw [hq, if_pos (by rfl), if_pos (by rfl)]
    unfold Query.executeQuery
    simp only
    simp only [show ∀ s : Selector T, t.scanIndexForEach env filt (fun _ => (v.1, v.2)) q.index s (q.callback t) q.reverse fuel {} =
      t.scanIndexForEach env filt (fun _ => (v'.1, v'.2)) q.index s (q.callback t) q.reverse fuel {} from fun s => hs _ env q.index s _ _ _ _]
  · have hl : ∀ qs clock m, t.intersectLoop env v.1 v.2 qs clock m = t.intersectLoop env v'.1 v'.2 qs clock m := by
      intro qs
      induction qs with
      | nil => intro clock m; rfl
      | cons q qs ih => intro clock m; simp only [Table.intersectLoop, iterParts_sameView h, ih]
    unfold Table.intersect
    simp only [iterParts_sameView h, hl]

/-- C19, for any contents of database and batch, also rows that cannot be decoded and indexes that do not agree with the rows: every read call through a
read-write batch gives, with the same callback and context, the same answer as without a batch after the commit of the batch. -/
theorem C19_view (t : Table T F) (filt : F) (db : KV) {b : Batch} (hb : b.indexed = true) : SameReads t filt (db, some b) ((Batch.commit true db b).1, none) := by
  apply sameReads_of_view
  unfold SameView readable Batch.commit
  simp only [hb, if_true]
  split
  · rename_i h; rw [h]; rfl
  · rfl

/-- C113, exactly, for any two batches, whatever was called on them and whichever rows they changed: the commit of the outer batch after Apply leaves
the database that the commits of the outer and then of the inner batch leave, and reads through the outer batch after Apply answer what reads without
a batch answer after the two commits. -/
theorem C113_exact (t : Table T F) {rw : Nat → Bool} (w : BatchWorld T F) {i j : Nat} (hij : i ≠ j) :
    let two := t.batchStep rw (t.batchStep rw w (.commit j true)) (.commit i true)
    let one := w.applyBatch j i
    (t.batchStep rw one (.commit j true)).db = two.db ∧
    (rw j = true → SameReads t one.filt (one.db, some ⟨rw j, (one.bats j).ops⟩) (two.db, none)) := by
  have hc : ∀ (db : KV) (b : Batch), (Batch.commit true db b).1 = db.apply b.ops := by
    intro db b
    unfold Batch.commit
    split
    · rename_i h; rw [h]; rfl
    · rfl
  have h1 : ((w.applyBatch j i).bats j).ops = (w.bats j).ops ++ (w.bats i).ops := by simp [BatchWorld.applyBatch, setBat]
  have h2 : (setBat w.bats j OpenBatch.new i).ops = (w.bats i).ops := by simp [setBat, hij]
  have h3 : (t.batchStep rw (t.batchStep rw w (.commit j true)) (.commit i true)).db = w.db.apply ((w.bats j).ops ++ (w.bats i).ops) := by
    simp only [Table.batchStep, hc, h2, KV.apply_append]
  refine ⟨?_, fun hr => sameReads_of_view ?_⟩
  · rw [h3]
    simp only [Table.batchStep, hc, h1]
    rfl
  · unfold SameView readable
    simp only [hr, if_true, h1, h3]
    rfl

/-- a batch that deletes a row, and one row more: Exist and Scan through it see what is there after the commit; the database itself is different -/
example : (let b : Batch := ⟨true, [.del (exTable.key (1, 0)), .set (exTable.key (3, 0)) [3, 3]]⟩
    SameReads exTable () (exDB, some b) ((Batch.commit true exDB b).1, none)) ∧
    (let b : Batch := ⟨true, [.del (exTable.key (1, 0)), .set (exTable.key (3, 0)) [3, 3]]⟩
     exTable.exist () exDB (some b) (1, 0) = false ∧ exTable.exist () exDB none (1, 0) = true ∧
     (exTable.scan (stdEnv exTable) () exDB (some b) false 9 []).map (·.s) = some [(2, 6), (3, 3)]) :=
  ⟨C19_view exTable () exDB rfl, by decide⟩

/-- `C113_exact` at the two batches of `C113_refuted`, which changed the same row -/
example := C113_exact exTable (rw := fun _ => true) (exTable.batchRun (fun _ => true) (BatchWorld.start exDB ())
      [.call 0 (stdEnv exTable) (.update [(1, 7)]), .call 1 (stdEnv exTable) (.update [(1, 8)])]) (i := 1) (j := 0) (by decide)

end Bond
