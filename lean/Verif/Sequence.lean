/-
Model of helpers.go: NumberSequence, and of its use for batch ids in batch.go.
-/
namespace Bond

/-- helpers.go:16 `NumberSequenceTimestampMask` -/
def seqTimestampMask : UInt64 := 0xFFFFFFFFFF000000
/-- helpers.go:17 `NumberSequenceBitShift` -/
def seqBitShift : UInt64 := 24
/-- helpers.go:18 `NumberSequenceSequenceNumberMask` -/
def seqNumberMask : UInt64 := 0x0000000000FFFFFF

/-- helpers.go:25-42 `NumberSequence.Next`. The state is the field `lastId` (helpers.go:20-23, initially 0); the result is the new state
and the pair returned: the id and whether the error is nil. `now` is `time.Now().Unix()` as a 64-bit pattern: Go shifts it as an int64
and converts the result to uint64, which is the same bit operation. The whole body runs under the mutex, so concurrent calls are a
sequence of calls; the order of the clock readings is the order of the calls because the clock is read inside the critical section. -/
def seqNext (lastId now : UInt64) : UInt64 × UInt64 × Bool :=
  let nextId := now <<< seqBitShift
  if lastId &&& seqTimestampMask = nextId &&& seqTimestampMask then
    if lastId &&& seqNumberMask = seqNumberMask then
      (lastId, 0xFFFFFFFFFFFFFFFF, false)
    else
      let nextId := lastId + 1
      (nextId, nextId, true)
  else (nextId, nextId, true)

/-- helpers.go:44-46 `Timestamp` -/
def seqTimestamp (ns : UInt64) : UInt64 := ns >>> seqBitShift

/-- helpers.go:48-50 `SequenceNumber` -/
def seqNumber (ns : UInt64) : UInt64 := ns &&& seqNumberMask

/-- a history of calls of Next (helpers.go:25-42) on one NumberSequence, with the clock readings they make -/
def seqRun : UInt64 → List UInt64 → UInt64 × List (UInt64 × Bool)
  | last, [] => (last, [])
  | last, now :: rest =>
    let r := seqNext last now
    let s := seqRun r.1 rest
    (s.1, r.2 :: s.2)

/-- batch.go:10, 57-69 `newBatch` and batch.go:80-89 `Reset`: the id of a batch is the first result of Next on the process-wide
sequence; the error is dropped. `nows` are the clock readings at the creations and resets of batches in the process. -/
def batchIds (nows : List UInt64) : List UInt64 := (seqRun 0 nows).2.map (·.1)

end Bond
