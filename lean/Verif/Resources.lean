import Verif.Iter
/-
Model of what the calls take and give back: pebble iterators, batches and the buffers of the pools. Values and keys are
left out; every test on them, every failure of the storage or of a serializer and every panic of a user function is a
free choice (`choose`), so a run stands for any run of the code with any data. Loops that go as long as an iterator is
valid are given a number of rounds, over which the theorems quantify.
-/
namespace Bond

/-- what can be held: pebble iterators, pebble batches, closers of `Get`, and buffers of the four pools (bond.go:94-101) -/
inductive ResKind
  | iter | batch | closer | keyBuf | valueBuf | bytesArr | multiBuf
deriving DecidableEq, Repr

/-- one resource: a number and its kind (bond.go:94-101) -/
abbrev Res := Nat × ResKind

/-- state of a run: the resources taken and not given back, whether something not held was used or given back, and the
choices to come; missing choices are `false` (bond.go:94-101) -/
structure RSt where
  next : Nat
  held : List Res
  bad : Bool
  choices : List Bool
deriving DecidableEq, Repr

/-- how a Go function ends: with a value, with an error, or with a panic (table.go:338-344) -/
inductive ResOut (α : Type)
  | ok (a : α)
  | err
  | panic
deriving DecidableEq, Repr

/-- a piece of Go code, seen by what it takes and gives back (table.go:338-344) -/
def RM (α : Type) := RSt → ResOut α × RSt

namespace RM
variable {α β : Type}

/-- a value (table.go:338-344) -/
def pure (a : α) : RM α := fun s => (.ok a, s)

/-- sequence; errors are returned at once, as `if err != nil { return err }` does (table.go:397-404) -/
def bind (m : RM α) (f : α → RM β) : RM β := fun s =>
  match m s with
  | (.ok a, s') => f a s'
  | (.err, s') => (.err, s')
  | (.panic, s') => (.panic, s')

/-- sequencing of statements (Go language, nothing in /repo) -/
instance : Monad RM where
  pure := RM.pure
  bind := RM.bind

/-- the outcome of a test on data (table.go:406-408) -/
def choose : RM Bool := fun s => (.ok (s.choices.headD false), { s with choices := s.choices.drop 1 })

/-- return an error (table.go:407) -/
def fail : RM α := fun s => (.err, s)

/-- panic (iter.go:85) -/
def panic : RM α := fun s => (.panic, s)

/-- an operation that may fail (table.go:417-420) -/
def fallible : RM Unit := do if ← choose then fail else pure ()

/-- a call of a user function, which may panic (table.go:1224-1234) -/
def user : RM Unit := do if ← choose then panic else pure ()

/-- something done or not, depending on data (index.go:286-289) -/
def maybe (m : RM Unit) : RM Unit := do if ← choose then m else pure ()

/-- take a resource: `NewIter`, `NewBatch`, `Pool.Get` (utils/sync.go:50-61) -/
def acquire (k : ResKind) : RM Res := fun s =>
  (.ok (s.next, k), { s with next := s.next + 1, held := (s.next, k) :: s.held })

/-- give a resource back: `Close`, `Pool.Put`; giving back what is not held is noted (utils/sync.go:63-72) -/
def release (r : Res) : RM Unit := fun s =>
  (.ok (), if r ∈ s.held then { s with held := s.held.erase r } else { s with bad := true })

/-- use a resource; use of what is not held is noted (table.go:417) -/
def touch (r : Res) : RM Unit := fun s => (.ok (), if r ∈ s.held then s else { s with bad := true })

/-- take a resource and give it back by `defer`, also on errors and panics (table.go:361-364) -/
def withRes (k : ResKind) (body : Res → RM α) : RM α := fun s =>
  match acquire k s with
  | (.ok r, s') => let p := body r s'; (p.1, (release r p.2).2)
  | (_, s') => (.panic, s')

/-- `n` of them; bond.go:346-348, 353-355 -/
def withMany (k : ResKind) : Nat → RM α → RM α
  | 0, body => body
  | n + 1, body => withRes k (fun _ => withMany k n body)

/-- bond.go:340-357 `getKeyArray` with deferred `putKeyArray` -/
def withKeyArray (n : Nat) (body : RM α) : RM α := withRes .bytesArr (fun _ => withMany .keyBuf n body)

/-- bond.go:359-376 `getValueArray` with deferred `putValueArray` -/
def withValueArray (n : Nat) (body : RM α) : RM α := withRes .bytesArr (fun _ => withMany .valueBuf n body)

/-- `x, err := m` where the error is looked at by the code: `none` is an error (table.go:1005-1012) -/
def attempt (m : RM α) : RM (Option α) := fun s =>
  match m s with
  | (.ok a, s') => (.ok (some a), s')
  | (.err, s') => (.ok none, s')
  | (.panic, s') => (.panic, s')

/-- `for` over a list (table.go:398) -/
def each (f : β → RM Unit) : List β → RM Unit
  | [] => pure ()
  | x :: xs => do f x; each f xs

/-- `n` rounds (table.go:423) -/
def times (f : RM Unit) : Nat → RM Unit
  | 0 => pure ()
  | n + 1 => do f; times f n

end RM

open RM

/-! ## iterators (iter.go, index.go:176-278) -/

/-- iter.go:51-55, 72-78, 202-204: a single iterator with the buffers of its bounds, several of them of which the
`idx`-th is open, or an iterator that only carries an error. The pebble iterator is `none` if `NewIter` failed. -/
inductive RIter
  | single (it : Option Res) (bufs : List Res)
  | multi (idx : Nat) (child : Option Res) (opts : List (List Res))
  | error
deriving DecidableEq, Repr

/-- iter.go:43-49: `NewIter`, which may fail -/
def newIterR : RM (Option Res) := do
  if ← choose then return none
  else do
    let r ← acquire .iter
    return some r

/-- an operation on a pebble iterator or an errIterator; says whether it is valid afterwards (iter.go:206-254) -/
def moveR : Option Res → RM Bool
  | none => RM.pure false
  | some r => do touch r; choose

/-- `Close` of a pebble iterator or an errIterator (iter.go:250-252) -/
def closeR : Option Res → RM Unit
  | none => RM.pure ()
  | some r => release r

namespace RIter

/-- iter.go:89-100 `First`, from child `i` with `n` children left; `c` is the open child -/
def firstLoop (opts : List (List Res)) : Nat → Nat → Nat → Option Res → RM (RIter × Bool)
  | 0, _, idx, c => RM.pure (.multi idx c opts, false)
  | n + 1, i, _, c => do
    closeR c
    let c' ← newIterR
    if ← moveR c' then return (.multi i c' opts, true)
    else firstLoop opts n (i + 1) i c'

/-- iter.go:102-113 `Last`, children below `n` -/
def lastLoop (opts : List (List Res)) : Nat → Nat → Option Res → RM (RIter × Bool)
  | 0, idx, c => RM.pure (.multi idx c opts, false)
  | n + 1, _, c => do
    closeR c
    let c' ← newIterR
    if ← moveR c' then return (.multi n c' opts, true)
    else lastLoop opts n n c'

/-- iter.go:115-130 `Prev`; a round for each child, `fuel` of them -/
def prevLoop (opts : List (List Res)) : Nat → Nat → Option Res → RM (RIter × Bool)
  | 0, idx, c => RM.pure (.multi idx c opts, false)
  | fuel + 1, idx, c => do
    if ← moveR c then return (.multi idx c opts, true)
    else if idx = 0 then return (.multi idx c opts, false)
    else do
      closeR c
      let c' ← newIterR
      if ← moveR c' then return (.multi (idx - 1) c' opts, true)
      else prevLoop opts fuel (idx - 1) c'

/-- iter.go:132-147 `Next`; a round for each child, `fuel` of them -/
def nextLoop (opts : List (List Res)) : Nat → Nat → Option Res → RM (RIter × Bool)
  | 0, idx, c => RM.pure (.multi idx c opts, false)
  | fuel + 1, idx, c => do
    if ← moveR c then return (.multi idx c opts, true)
    else if idx = opts.length - 1 then return (.multi idx c opts, false)
    else do
      closeR c
      let c' ← newIterR
      if ← moveR c' then return (.multi (idx + 1) c' opts, true)
      else nextLoop opts fuel (idx + 1) c'

/-- iter.go:14, 89-100, 206-208 -/
def first : RIter → RM (RIter × Bool)
  | single it bufs => do let v ← moveR it; return (single it bufs, v)
  | multi idx c opts => firstLoop opts opts.length 0 idx c
  | error => RM.pure (error, false)

/-- iter.go:15, 102-113, 210-212 -/
def last : RIter → RM (RIter × Bool)
  | single it bufs => do let v ← moveR it; return (single it bufs, v)
  | multi idx c opts => lastLoop opts opts.length idx c
  | error => RM.pure (error, false)

/-- iter.go:17, 132-147, 218-220 -/
def next : RIter → RM (RIter × Bool)
  | single it bufs => do let v ← moveR it; return (single it bufs, v)
  | multi idx c opts => nextLoop opts (opts.length - idx) idx c
  | error => RM.pure (error, false)

/-- iter.go:16, 115-130, 214-216 -/
def prev : RIter → RM (RIter × Bool)
  | single it bufs => do let v ← moveR it; return (single it bufs, v)
  | multi idx c opts => prevLoop opts (idx + 1) idx c
  | error => RM.pure (error, false)

/-- iter.go:61-70, 180-191, 250-252 `Close`: the pebble iterator first, then by `defer` the buffers, whose release
function is then set to nil; the result is the iterator afterwards -/
def close : RIter → RM RIter
  | single it bufs => do closeR it; each release bufs; return single it []
  | multi idx c opts => do
    closeR c
    each (fun b => each release b) opts
    return multi idx c (opts.map (fun _ => []))
  | error => RM.pure error

/-- the calls on an iterator (iter.go:13-29) -/
def call (it : RIter) : CurOp → RM (RIter × Bool)
  | .first => it.first
  | .last => it.last
  | .next => it.next
  | .prev => it.prev

/-- a sequence of calls by the user of an iterator (iter.go:13-29) -/
def calls : List CurOp → RIter → RM RIter
  | [], it => RM.pure it
  | op :: ops, it => do let p ← it.call op; calls ops p.1

end RIter

/-- the selector of a scan, by the number of its points or ranges (index.go:184-278) -/
inductive RSel
  | point
  | points (n : Nat)
  | range
  | ranges (n : Nat)
  | unknown
deriving DecidableEq, Repr

/-- index.go:188-194 (208-217, 233-240, 256-263): the two buffers of the bounds of one point or range. The key functions
are user functions. A range's second buffer is dropped for a new one (`keySuccessor(upperBound, nil)`), which goes to the
pool in its place: they are counted as one. -/
def boundsR : RM (List Res) := do
  let b1 ← acquire .keyBuf
  user
  let b2 ← acquire .keyBuf
  user
  return [b1, b2]

/-- index.go:206-226, 252-272: the bounds of `n` points or ranges -/
def boundsManyR : Nat → RM (List (List Res))
  | 0 => RM.pure []
  | n + 1 => do
    let b ← boundsR
    let bs ← boundsManyR n
    return b :: bs

/-- iter.go:80-87 `newIteratorMulti`: no options at all is an index panic -/
def newMultiR (opts : List (List Res)) : RM RIter :=
  if opts.isEmpty then RM.panic
  else do
    let c ← newIterR
    return .multi 0 c opts

/-- index.go:176-278 `Index.Iter` -/
def indexIterR : RSel → RM RIter
  | .point => do let b ← boundsR; let it ← newIterR; return .single it b
  | .points n => do let bs ← boundsManyR n; newMultiR bs
  | .range => do let b ← boundsR; let it ← newIterR; return .single it b
  | .ranges n => do let bs ← boundsManyR n; newMultiR bs
  | .unknown => RM.pure .error

/-- `Table.Iter` or `Index.Iter` and calls on the iterator (table.go:992-994) -/
def openCalls (sel : RSel) (ops : List CurOp) : RM RIter := do
  let it ← indexIterR sel
  RIter.calls ops it

/-- `db.Iter` with deferred `Close`, without buffers (table.go:389-395) -/
def withIterR (body : Option Res → RM Unit) : RM Unit := do
  if ← choose then body none
  else withRes .iter (fun r => body (some r))

/-! ## writes (table.go:338-789, table_unsafe.go) -/

/-- `batch.Set`, `batch.Delete` (batch.go:99-108) -/
def batchWriteR (b : Res) : RM Unit := do touch b; fallible

/-- `OnInsert`, `OnDelete`: the filter and key functions are user functions (index.go:280-290, 340-353) -/
def onInsertR (b : Res) : RM Unit := do
  user
  maybe (batchWriteR b)

/-- index.go:292-338 `OnUpdate` -/
def onUpdateR (b : Res) : RM Unit := do
  user
  maybe (batchWriteR b)
  maybe (batchWriteR b)

/-- table.go:350-355 (464-469, 588-593, 649-654), 442-447: the batch of the caller, or an own one, closed by `defer` and
committed at the end -/
def withBatchR (ext : Option Res) (body : Res → RM Unit) : RM Unit :=
  match ext with
  | some b => body b
  | none => withRes .batch (fun b => do body b; touch b; fallible)

/-- table.go:818-834 `exist` with a given iterator -/
def existR (it : Option Res) : RM Unit := do
  maybe (do let _ ← moveR it; return ())

/-- table.go:338-450 `Insert`; `chunks` are the sizes of the chunks, `nIdx` the number of indexes -/
def insertR (ext : Option Res) (nIdx : Nat) (chunks : List Nat) : RM Unit :=
  withBatchR ext fun b => withRes .keyBuf fun _ => withKeyArray (chunks.headD 0) <| withRes .valueBuf fun _ =>
    each (fun n => do
      user
      withIterR fun it => times (do
        fallible
        existR it
        fallible
        fallible
        batchWriteR b
        times (onInsertR b) nIdx) n) chunks

/-- table.go:452-575 `Update` -/
def updateR (ext : Option Res) (nIdx : Nat) (chunks : List Nat) : RM Unit :=
  withBatchR ext fun b => withRes .keyBuf fun _ => withRes .keyBuf fun _ =>
    withKeyArray (chunks.headD 0) <| withRes .valueBuf fun _ =>
    each (fun n => do
      user
      withIterR fun it => times (do
        fallible
        if ← choose then return ()
        else do
          let _ ← moveR it
          fallible
          fallible
          fallible
          batchWriteR b
          times (onUpdateR b) nIdx) n) chunks

/-- table.go:577-635 `Delete` -/
def deleteR (ext : Option Res) (nIdx : Nat) (rows : Nat) : RM Unit :=
  withBatchR ext fun b => withRes .keyBuf fun _ => withRes .keyBuf fun _ =>
    times (do
      fallible
      user
      batchWriteR b
      times (onInsertR b) nIdx) rows

/-- table.go:637-789 `Upsert`; `onConflict` is a user function -/
def upsertR (ext : Option Res) (nIdx : Nat) (chunks : List Nat) : RM Unit :=
  withBatchR ext fun b => withRes .keyBuf fun _ => withRes .keyBuf fun _ =>
    withKeyArray (chunks.headD 0) <| withRes .valueBuf fun _ =>
    each (fun n => do
      user
      withIterR fun it => times (do
        fallible
        existR it
        maybe fallible
        user
        fallible
        batchWriteR b
        if ← choose then times (onUpdateR b) nIdx else times (onInsertR b) nIdx) n) chunks

/-- table_unsafe.go:113-203 `UnsafeInsert` -/
def unsafeInsertR (ext : Option Res) (nIdx : Nat) (chunks : List Nat) : RM Unit :=
  withBatchR ext fun b => withRes .keyBuf fun _ => withKeyArray (chunks.headD 0) <| withRes .valueBuf fun _ =>
    each (fun n => do
      user
      times (do
        fallible
        fallible
        batchWriteR b
        times (onInsertR b) nIdx) n) chunks

/-- table_unsafe.go:20-103 `UnsafeUpdate`: the own batch is closed only if a write or the commit fails; if a write
fails, so is the batch of the caller -/
def unsafeUpdateR (ext : Option Res) (nIdx : Nat) (rows : Nat) : RM Unit := do
  let b ← match ext with
    | some b => RM.pure b
    | none => acquire .batch
  withRes .keyBuf fun _ => withRes .keyBuf fun _ => withRes .keyBuf fun _ => withRes .valueBuf fun _ => do
    times (do
      fallible
      user
      fallible
      match ← attempt (batchWriteR b) with
      | some _ => times (onUpdateR b) nIdx
      | none => do release b; fail) rows
    if ext.isNone then do
      touch b
      match ← attempt fallible with
      | some _ => return ()
      | none => do release b; fail
    else return ()

/-! ## reads (table.go:791-1194, index.go:355-403) -/

/-- table.go:791-834 `Exist` -/
def existApiR : RM Unit := withRes .keyBuf fun _ => do
  user
  maybe (do
    match ← attempt fallible with
    | none => return ()
    | some _ => withRes .closer fun _ => return ())

/-- table.go:848-883 `Get` with a point -/
def getPointR : RM Unit := withRes .keyBuf fun _ => do
  user
  fallible
  fallible
  withRes .closer fun _ => fallible

/-- table.go:941-990 `get`; with no keys at all there is no iterator. A missing row is an error or not
(`errorOnNotExist`): both are among the choices. -/
def getR (n : Nat) : RM Unit :=
  if n = 0 then RM.pure ()
  else withIterR fun it => times (do
    fallible
    let _ ← moveR it
    fallible) n

/-- table.go:848-924 `Get` with `n` points -/
def getPointsR (n : Nat) : RM Unit := withKeyArray n <| withKeyArray n <| do
  user
  getR n
  times fallible n

/-- A callback of a scan: it does something (`m`) and returns or calls `lazy.Get`, whose error it sees.
What it holds during `lazy.Get` is handed on (table.go:1005-1012) -/
inductive CbR
  | ret (m : RM Bool)
  | get (m : RM (List Res)) (k : List Res → Bool → CbR)

/-- table.go:1004-1013: the callback with the given `lazy.Get`, which moves the iterator; it returns the
iterator and `none` for an error or whether to go on -/
def CbR.run (lazy : RIter → RM (RIter × Bool)) : CbR → RIter → RM (RIter × Option Bool)
  | .ret m, it => do let r ← attempt m; return (it, r)
  | .get m k, it => do
    match ← attempt m with
    | none => return (it, none)
    | some l => do
      let p ← lazy it
      CbR.run lazy (k l p.2) p.1

/-- table.go:1038-1044, 1084-1090: move in the direction of the scan -/
def stepR (reverse : Bool) (it : RIter) : RM (RIter × Bool) := if reverse then it.prev else it.next

/-- table.go:1030-1036, 1076-1082: go to the first entry in the direction of the scan -/
def startR (reverse : Bool) (it : RIter) : RM (RIter × Bool) := if reverse then it.last else it.first

/-- table.go:1055-1070 the loop of a primary scan; `v` is `it.Valid()`, `fuel` the number of rounds -/
def primaryLoopR (cb : CbR) (reverse : Bool) : Nat → RIter → Bool → RM Unit
  | 0, it, _ => do let _ ← it.close; return ()
  | fuel + 1, it, v =>
    if v then do
      if ← choose then do let _ ← it.close; fail
      else do
        let p ← cb.run (fun it => do let ok ← choose; return (it, ok)) it
        match p.2 with
        | some true => do
          let q ← stepR reverse p.1
          primaryLoopR cb reverse fuel q.1 q.2
        | some false => do let _ ← p.1.close; return ()
        | none => do let _ ← p.1.close; fail
    else do let _ ← it.close; return ()

/-- table.go:1027-1071 `scanForEachPrimaryIndex` -/
def primaryScanR (sel : RSel) (cb : CbR) (reverse : Bool) (fuel : Nat) : RM Unit := do
  let it ← indexIterR sel
  let p ← startR reverse it
  primaryLoopR cb reverse fuel p.1 p.2

/-- table.go:1130-1147: collect keys until the block is full or the iterator is at the end; `n` keys still fit -/
def prefetchR (reverse : Bool) : Nat → RIter → RM RIter
  | 0, it => RM.pure it
  | n + 1, it => do
    let p ← stepR reverse it
    if p.2 then prefetchR reverse n p.1 else return p.1

/-- table.go:1128-1156 `prefetchAndGetValue` with prefetch size `n`; the error of `get` goes to the callback -/
def lazyR (reverse : Bool) (n : Nat) (it : RIter) : RM (RIter × Bool) := do
  let it' ← prefetchR reverse (n - 1) it
  let r ← attempt (getR n)
  return (it', r.isSome)

/-- table.go:1172-1179: the callbacks for the rows of the block; `none` is the end of the scan with an error, `some
false` without. -/
def innerLoopR (cb : CbR) : Nat → RIter → RM (RIter × Option Bool)
  | 0, it => RM.pure (it, some true)
  | n + 1, it => do
    let p ← cb.run (fun it => do let ok ← choose; return (it, ok)) it
    match p.2 with
    | some true => innerLoopR cb n p.1
    | r => return (p.1, r)

/-- table.go:1158-1191 the loop of a secondary scan; `inner` is the number of rounds of the inner loop -/
def secondaryLoopR (cb : CbR) (reverse : Bool) (size inner : Nat) : Nat → RIter → Bool → RM Unit
  | 0, it, _ => do let _ ← it.close; return ()
  | fuel + 1, it, v =>
    if v then do
      if ← choose then do let _ ← it.close; fail
      else do
        let p ← cb.run (lazyR reverse size) it
        match p.2 with
        | some true => do
          let q ← innerLoopR cb inner p.1
          match q.2 with
          | some true => do
            let q ← stepR reverse q.1
            secondaryLoopR cb reverse size inner fuel q.1 q.2
          | some false => do let _ ← q.1.close; return ()
          | none => do let _ ← q.1.close; fail
        | some false => do let _ ← p.1.close; return ()
        | none => do let _ ← p.1.close; fail
    else do let _ ← it.close; return ()

/-- table.go:1073-1194 `scanForEachSecondaryIndex` -/
def secondaryScanR (sel : RSel) (cb : CbR) (reverse : Bool) (size inner fuel : Nat) : RM Unit := do
  let it ← indexIterR sel
  withRes .bytesArr fun _ => withRes .bytesArr fun _ => withRes .multiBuf fun _ => withValueArray size do
    let p ← startR reverse it
    secondaryLoopR cb reverse size inner fuel p.1 p.2

/-- index.go:359-370 (373-387): one walk of `Intersect` -/
def walkR : Nat → RIter → Bool → RM Unit
  | 0, it, _ => do let _ ← it.close; return ()
  | fuel + 1, it, v =>
    if v then do
      if ← choose then do let _ ← it.close; fail
      else do
        let q ← it.next
        walkR fuel q.1 q.2
    else do let _ ← it.close; return ()

/-- index.go:355-403 `Intersect` of several selections -/
def intersectR (fuel : Nat) (sels : List RSel) : RM Unit :=
  each (fun sel => do
    let it ← indexIterR sel
    let p ← it.first
    walkR fuel p.1 p.2) sels

/-- query.go:183-233: the callback of a query. The first row after a cursor takes a key buffer, given back by `defer`
when the callback returns; the filter is a user function. -/
def queryCbR : CbR := .get (do
    if ← choose then do
      let b ← acquire .keyBuf
      user
      return [b]
    else return [])
  (fun bs ok => .ret (do
    if ok then do user; each release bs; choose
    else do each release bs; fail))

/-- query.go:183-205: the callback of a query for a row that is skipped before `lazy.Get` -/
def querySkipCbR : CbR := .ret (do
    maybe (withRes .keyBuf fun _ => user)
    return true)

/-- query.go:282-390 `executeIntersect` -/
def queryIntersectR (fuel : Nat) (sels : List RSel) (n : Nat) : RM Unit := do
  fallible
  intersectR fuel sels
  getR n
  times (do fallible; user) n

/-! ## ReIndex (table.go:265-336) -/

/-- table.go:297-326: the rows; `size` is `ReindexBatchSize`, `k` the rows since the last commit, `b` the current batch.
The deferred `batch.Close()` (table.go:290-292) closes the batch the variable holds at the end, so that batch is part of
the outcome, with whether the loop ended without an error. -/
def reIndexRowsR (it : Option Res) (nIdx size : Nat) : Nat → Nat → Res → RM (Res × Bool)
  | 0, _, b => RM.pure (b, true)
  | rows + 1, k, b => do
    match ← attempt (do fallible; times (onInsertR b) nIdx) with
    | none => return (b, false)
    | some _ =>
      if size ≤ k + 1 then do
        touch b
        match ← attempt fallible with
        | none => return (b, false)
        | some _ => do
          let b' ← acquire .batch
          let _ ← moveR it
          reIndexRowsR it nIdx size rows 0 b'
      else do
        let _ ← moveR it
        reIndexRowsR it nIdx size rows (k + 1) b

/-- table.go:265-336 `ReIndex` of `rows` rows -/
def reIndexR (nIdx size rows : Nat) : RM Unit := do
  times fallible nIdx
  let it ← newIterR
  let b ← acquire .batch
  let p ← reIndexRowsR it nIdx size rows 0 b
  if p.2 then do
    touch p.1
    match ← attempt fallible with
    | none => do release p.1; fail
    | some _ => do closeR it; release p.1
  else do release p.1; fail

end Bond
