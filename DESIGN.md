# Formal model of go-bond/bond in Lean 4

## Trusted base

* Lean 4.33.0's kernel.
* Axioms: at most `propext`, `Classical.choice`, `Quot.sound`; the last section lists them per theorem.
  No axioms of our own, no `sorry`, no `native_decide`, no `bv_decide`.
* The faithfulness of the model: every definition cites the Go file and lines it models, and says what it leaves out.
* Pebble (the storage engine) is an external component. It is modelled as a finite map from byte
  strings to byte strings, ordered bytewise, with `Get/Set/Delete/DeleteRange`, iterators over a
  snapshot with inclusive lower and exclusive upper bound, and atomic durable commit of a batch;
  after a crash a prefix of the commits is found which has at least those made with Sync (C87).
  An indexed batch reads through its own operations on top of the database; a non-indexed batch
  answers reads with an error.  SST ingestion refuses overlapping files and otherwise writes all their entries in one step.
* Go's `sort.Sort`/`sort.Slice` are parameters: *some* permutation that is sorted; theorems
  quantify over all of them (stability is an explicit extra hypothesis where it matters).
* Go map iteration order is a parameter: *some* enumeration of the indexes.
* What a context answers at each question, whether a commit or a file operation succeeds, where a process dies, what `sync.Pool` returns,
  and the order in which goroutines run are parameters; theorems quantify over all of them.
* User supplied functions (primary key, index key, index order, index filter, onConflict, query
  filter, less) are arbitrary pure functions; key functions are assumed to append to the buffer they
  are given (that is all KeyBuilder lets them do).  Where purity is itself in question
  (OrderBytes DESC, callbacks of scans that write, panicking functions) the effect is modelled explicitly.
* Serializers are parameters with a round-trip hypothesis.
* Hash functions of the bloom filter are parameters; its binary codec is a parameter with a round-trip hypothesis.

## What is modelled, what is not

Modelled: keys.go, index.go, table.go, table_unsafe.go, table_utils.go, query.go, selector.go, batch.go,
iter.go, filter.go, bloom/bloom_filter.go, filters/filter_fs_storer.go,
serializers/{msgp,msgp_gen,cbor}.go (their buffers), serializers/{msgp_gen,protobuf}.go (which interface of a record is used),
inspect/inspect.go and the JSON between inspect/inspect_handler.go and inspect_handler_client.go (values of the
types named in Verif/Inspect.lean; handler, client and command line in Verif/Remote.lean), cmd/bond-cli, helpers.go (NumberSequence), sync.go, context.go, cond/cond.go, utils/sync.go, version.go, and from
bond.go: Open (version logic), Dump, Restore, getIndexIDS, iteratorToSST,
MigratePebbleFormatVersion, Get/Set/Delete/Iter/Batch.

Not modelled: pebble internals (LSM, compaction, WAL), the encodings of concrete serializers (JSON, CBOR, msgpack,
protobuf), options.go tuning, the network under the HTTP side of inspect, the flag parser of the command line, benchmarks, UUID generator,
real time, performance. In most modules slices are values; buffers that are used again are modelled separately, with a proof that both models
agree (C106 for table operations, C80 for the keys of callbacks, C78 for serializers, C45 for the pool, C109 for key builders, C56 for queries); record objects
behind pointers likewise (C108). Goroutines are modelled where a property is about them (C37, C39, C43-C45, C51, C52, C63, C76, C78, C79, C86,
C94, C95, C104, C105, C114), as interleavings of the steps named there; the Go memory model (visibility of unsynchronised writes) is not modelled.

## Modules (lean/Verif)

| module | content |
|---|---|
| `AnyScanner` | Model of table_utils.go `TableAnyScanner` |
| `Backup` | Model of Dump and Restore in bond.go |
| `BackupLemmas` | Lemmas on Dump and Restore |
| `BatchEvents` | Model of the callbacks of batch.go |
| `BatchInv` | Invariant of interleaved batches: every open batch holds what it would hold if it were filled now |
| `BatchLocal` | A call reads only the stored rows with its own keys, writes only the rows with its own keys, and does the same with any two filters that cover what it can read |
| `Batches` | Several batches open at the same time, filled by calls on one table, mixed with direct calls and with writes by others |
| `Bloom` | Model of bloom/bloom_filter.go and of FilterInitialize / FilterInitializable in filter.go |
| `BloomLemmas` | Lemmas about the bloom filter model |
| `BloomRace` | Model of concurrent `BloomFilter.Add` calls, one machine word per step |
| `BloomRaceLemmas` | Lemmas on concurrent calls of Add |
| `BloomStore` | Lemmas on saving and loading a filter |
| `Bounded` | Lemmas for C114: whatever write calls run at the same time, what they leave behind comes from rows that were given |
| `BufferUnsafe` | The unsafe writes and the reads of a single row on memory (table_unsafe.go, table.go:791-860): as `Verif/BufferWrites.lean`, every key and every value is read from memory at the moment at which the code uses it |
| `BufferWrites` | The writes of table.go on memory: the keys of the rows are in pooled buffers, which are used again for every slice of rows, and the index keys and the serialized row are in buffers used again for every row |
| `BufferWritesLemmas` | The writes on memory are the writes on bytes |
| `Buffers` | The reads of table.go on memory: keys and values are slices in pooled buffers, which are written over and over again |
| `BuffersLemmas` | The reads on memory are the reads on bytes |
| `Builder` | Model of the methods that build a query (query.go:43-153) with the memory of the `intersects` slices |
| `BuilderLemmas` | **?** |
| `Bytes` | Byte strings, `bytes.Compare`, big-endian integers |
| `Calls` | The write calls of a table as one type, and facts that hold for all of them: they write only keys of their own table, and the filter only grows |
| `CommitCallbacks` | Model of `Commit` (batch.go:134-152) with `OnCommit` callbacks that themselves use the batch they are given |
| `Comparer` | Model of the comparer that the library installs in pebble: keys.go:339-347, bond.go:192, options.go:48 |
| `Concurrent` | Model of goroutines calling write methods of one table at the same time |
| `ConcurrentLemmas` | A call depends only on the stored rows with its own keys; run alone its actions are the sequential call |
| `Cond` | Model of cond/cond.go: condition trees for Query.Filter |
| `Context` | Model of context.go: batches carried by contexts |
| `Crash` | Crashes: what of the committed work is in the database when it is opened again after the process died |
| `CtxBlocks` | ! Scans of secondary indexes ask the context once per block of prefetched rows (table.go:1158-1193) |
| `Database` | One goroutine that uses a whole database: several tables with records of different types, keys of the user, and transactions that span all of them |
| `Decimal` | Decimal notation, as Go's fmt verb %d prints a non-negative integer |
| `Evolve` | A table whose indexes change over time: AddIndex and ReIndex between the other calls, new table objects with other indexes on the same database, and processes that end during ReIndex |
| `Extreme` | ! Queries with offsets and limits that do not fit into an `int`, or whose sum does not fit into an `uint64`: what the callback of `executeQuery` collects (query.go:183-233) and what the slices at the end do with it (query.go:261-277) |
| `FSStorer` | Model of filters/filter_fs_storer.go: filter data in files of one directory |
| `FailLemmas` | What a write call has put in its batch when it fails: what the same call with fewer rows, those it got through, puts there |
| `FaultLemmas` | Lemmas about reads that fail |
| `FaultStopLemmas` | Lemmas about reads that fail during scans that the callback may end |
| `Faults` | Reads of the storage that fail |
| `FieldLemmas` | Every field appends "field id, payload"; payload lemmas |
| `FilterHistory` | Every call except UnsafeUpdate keeps the filter a cover of the stored rows, whatever its arguments |
| `FilterLemmas` | A table with a filter and the same table without filter do the same writes, as long as the filter covers what is stored |
| `FilterLive` | A filter that is initialised by one goroutine while others write the table (filter.go:24-75) |
| `FilterLiveLemmas` | Lemmas for a filter that is initialised while others write: what is stored, and what running goroutines are going to store, is known to the filter or still to come in the scan |
| `GoSlice` | Model of Go slices and of deriving queries with `Intersects` |
| `HistoryLemmas` | Every successful good call, with or without a read-write batch, has its specified effect |
| `InsertLemmas` | The loops of Insert and Update refine operations on the abstract row map |
| `InsertRaceLemmas` | C52: what several Inserts at the same time leave behind, exactly |
| `Inspect` | Model of inspect/inspect.go (`NewInspect` and its methods) and of the JSON between inspect_handler_client.go and inspect_handler.go |
| `InspectLemmas` | Lemmas about the inspect package: conversions, the filter function, `setFields` |
| `IntersectLemmas` | Lemmas about intersect queries |
| `Iter` | Model of the cursors of iter.go: a pebble iterator over a fixed list of entries, and `_iteratorMulti`, which walks through several of them |
| `IterLemmas` | Refinement of `_iteratorMulti` to one cursor over the concatenation of its parts |
| `Key` | Model of the database key layout (keys.go:147-347, table.go:1224-1276, index.go:405-422, version.go:34-42) |
| `KeyBuilder` | Model of `KeyBuilder` (keys.go:11-145) and `IndexOrder` (index.go:18-109) |
| `KeyBuilderLemmas` | Helper lemmas about the key field encoders |
| `KeyBuilderMem` | `KeyBuilder` (keys.go:11-145) on memory: a builder is a Go struct passed by value, but its buffer is a slice, and `append` writes into the array behind it as long as there is room |
| `KeyBuilderMemLemmas` | Lemmas on builders in memory: a new field leaves everything alone but the room behind the builder it is added to |
| `KeyLemmas` | Lemmas on the key layout |
| `Lifecycle` | Model of `Close`, `OnClose` (bond.go:309-322) and `Compact` (bond.go:299-307) |
| `LiveScan` | Model of scans that run while others write |
| `LiveScanLemmas` | Scans while others write: what the loops of `scanForEachSecondaryIndex` do |
| `LoopLemmas` | Facts about iterator seeks, `batched`, sorting and the abstract row maps |
| `Machine` | One goroutine that uses a table: calls without batch, and transactions (a read-write batch that is filled, read through, and committed or closed), one after the other |
| `MachineLemmas` | Lemmas for C97: which errors undisturbed calls return |
| `Memory` | Byte memory and Go slices of bytes: what `append`, `s[:0]` and `s[len(s):]` do |
| `MemoryLemmas` | Writing to a slice of bytes: what it changes and what it leaves alone |
| `Open` | Model of Open and MigratePebbleFormatVersion in bond.go and of version.go: what is on disk, and what a call does to it |
| `OptBatch` | Model of the variadic `optBatch ...Batch` argument of the table methods: left out, nil, or a batch |
| `OwnWritesLemmas` | Scans whose callback writes: what the loops of `scanForEachSecondaryIndex` do |
| `PointExact` | The data entries alone, for calls of every kind and any conflict function: as PointLemmas, but a record may be stored under a key that is not its own |
| `PointHistory` | Histories in which the point reads of a table are exact, whatever happens to its indexes |
| `PointLemmas` | The data entries alone: what the write calls do to them, whatever happens to the index entries |
| `Pool` | Model of utils/sync.go: PreAllocatedPool over sync.Pool |
| `PrefetchLemmas` | The loops of `scanForEachSecondaryIndex` call the callback once per row |
| `Props.ApplyBatch` | C113: a batch applied to another batch |
| `Props.Backup` | C46, C47, C48, C66, C67, C73, C74: Dump and Restore |
| `Props.BatchEvents` | Property C42: callbacks of batches |
| `Props.BatchView` | C19, C113: reads through a read-write batch are reads of the database after its commit, for any contents |
| `Props.Batches` | C86: several open batches and direct calls at the same time |
| `Props.Bloom` | Properties C39, C40, C41: the bloom filter |
| `Props.Bounded` | C114: what any write calls on the same rows at the same time leave behind, and how ReIndex repairs it |
| `Props.Buffers` | C106: buffers used again never mix up keys or rows |
| `Props.BuffersMore` | C106 for the unsafe writes and for the reads of a single row |
| `Props.Builder` | C56 queries are values, C107 the calls that build a query, C50 conditions in queries |
| `Props.Cancelled` | C103: a read whose context is cancelled at any moment is complete or returns an error |
| `Props.CommitCallbacks` | C112: what OnCommit callbacks write belongs to the transaction |
| `Props.Comparer` | C98: the comparer of the database fulfils what the store expects from it, for all keys the library makes |
| `Props.Concurrent` | C51, C52: write calls running at the same time |
| `Props.Cond` | Property C50: condition combinators |
| `Props.Context` | Property C59: batches in contexts |
| `Props.Crash` | C87: crashes |
| `Props.CtxBlocks` | C71 on secondary indexes, exactly |
| `Props.Database` | C99: a database of several tables and keys of the user behaves as so many maps under common transactions |
| `Props.Declared` | C101: scans return the rows sorted by the declared fields, ascending and descending |
| `Props.DeclaredExact` | C101, exact: scans and queries of builder-made keys return the rows in the exact order of the declared fields, without a condition on descending fields that hold the smallest integer |
| `Props.Evolve` | C102: indexes may be added, rebuilt, left out and added again; a registered index that can be used is a sorted view of the rows |
| `Props.ExactMore` | Exact results where the code does not do what C17, C20 and C34 ask for: what Delete removes, what Get of several points returns, what an intersect query with a batch returns |
| `Props.Extreme` | C55 for all offsets and limits: exactly what a query does with them |
| `Props.ExtremeAfter` | ! C55 for the remaining kinds of queries: After together with Order, and After together with Intersects |
| `Props.FSStorer` | C57: the file based filter storer |
| `Props.Failed` | C96: batches on which a call has failed |
| `Props.Faults` | Property C81: storage reads that fail |
| `Props.FaultsBounded` | C81: what write calls leave behind when reads of the storage fail, and how ReIndex repairs it |
| `Props.FilterLive` | C95: a filter that is initialised while the table is written |
| `Props.FilterOverlap` | C38: the filter while batches overlap |
| `Props.InsertExact` | C12: exactly which calls of Insert are accepted |
| `Props.InsertRace` | C52: what several Inserts at the same time leave behind, exactly |
| `Props.Inspect` | Properties of the inspect package: C84, C85 |
| `Props.InspectMore` | C84: filters with fractions and with nil |
| `Props.IntersectPages` | ! C120: reading a query with Intersects page by page |
| `Props.KeyBuilderValues` | C109: a key builder is a value (keys.go:11-145) |
| `Props.KeyFields` | Property theorems C01-C06 (keys.go, index.go) |
| `Props.KeyKinds` | Property theorems C82: the structured form of a key (`Key`) and its bytes (`KeyBytes`) give the same answers |
| `Props.Keys` | Property theorems C07-C09 (key layout) |
| `Props.Lazy` | C115: what `lazy.Get` returns |
| `Props.Lifecycle` | C110 (callbacks of Close) and C111 (Compact) |
| `Props.LiveIntersect` | ! C120 while the table changes between the requests |
| `Props.LivePages` | C118: pages of a query while the table changes |
| `Props.LiveRanges` | C118 for several points and several ranges |
| `Props.LiveScan` | Property C79: scans while others write |
| `Props.Machine` | C97: a table, used by one goroutine with and without transactions, behaves as a map from primary keys to records whose indexes are sorted views of it |
| `Props.MoreReads` | C69: reads through write-only batches |
| `Props.Open` | C49, C58, C68: opening databases and migrating the format |
| `Props.OpenExact` | C49, exactly: what Open does with whatever is stored as data version |
| `Props.OptBatch` | Property C77: a nil optional batch |
| `Props.OwnWrites` | C62 for all callbacks: scans whose callback writes to the table |
| `Props.Paging` | C70: reading queries with several points or ranges page by page |
| `Props.PointExact` | C21: what the point reads return after any history |
| `Props.Points` | C21: the point reads after histories with almost no condition on the calls |
| `Props.Pool` | Property C45: buffer pools |
| `Props.PtrRecords` | C108: calls leave the caller's record objects alone (tables of pointer records) |
| `Props.Queries` | Properties of queries: C29 (query part), C30-C34, C54, C55 |
| `Props.QueryValues` | Property C56: queries are values |
| `Props.ReIndex` | Properties C36 and C37: ReIndex and AddIndex |
| `Props.ReIndexLive` | Property C76: ReIndex while other calls write the same table |
| `Props.Reads` | C19, C20, C21, C38 and C61: point reads, histories, batches and filters |
| `Props.RecordTypes` | Property C90: record types and serializers that work through methods of the record |
| `Props.Remote` | Properties of the HTTP side of the inspect package and of the command line: C88, C89 |
| `Props.Resources` | Property theorems C83: every call gives back the iterators, batches and buffers it takes |
| `Props.Restart` | C100: over any number of ends and starts of the process a table with a bloom filter behaves as if there were none |
| `Props.RestoreUse` | Property C93: using tables after Restore |
| `Props.SameRows` | C114: write calls on the same rows at the same time |
| `Props.ScanExact` | Exactly which rows point and range selectors return, also where index values or primary keys end with 0xFF: C23, C24, C26, C27 |
| `Props.ScanKey` | Property C80: the key that a scan hands to its callback |
| `Props.Scans` | Properties of scans: C10, C23-C29, C35, C62 |
| `Props.Seek` | C116: the iterators of a table |
| `Props.Sequence` | Properties C43 (sequence numbers) and C63 (batch ids) |
| `Props.Serializers` | Property C78: serializers that reuse buffers |
| `Props.Served` | C35 for callbacks that fetch some rows and not others |
| `Props.SyncBatch` | Properties C44 (SyncBatch serializes access) and C64 (a panicking function does not block the others) |
| `Props.Together` | Property C92: filters, tables, user keys and the version record in one database |
| `Props.TransactionReads` | C104: what a transaction reads fits the order in which the transactions are carried out |
| `Props.TransactionScans` | C105: every read of a transaction, while others are running |
| `Props.Transactions` | C94: transactions in several goroutines at the same time |
| `Props.Unreadable` | Property C91: rows whose stored bytes cannot be decoded |
| `Props.UpsertExact` | C16: exactly what Upsert stores, for any rows in any order, with repeated keys |
| `Props.WriteCtx` | C119: write calls whose context is done before or while they run |
| `Props.Writes` | C11-C18, C22, C53, C60: the write calls of a table |
| `PtrRecords` | Tables whose record type is a pointer (`Table[*Row]`): which objects the write calls and `Get` create, write and hand out |
| `PtrRecordsLemmas` | Pointer records: what the calls do to the objects that existed before, and that they write what the calls on record values write |
| `Query` | Model of query.go and of index.go `Intersect` |
| `QueryLemmas` | Lemmas about queries |
| `ReIndex` | Model of table.go AddIndex and ReIndex |
| `ReIndexLive` | Model of table.go ReIndex running while other calls write the same table: ReIndex is cut into its effects on the database (each deletion, opening the iterator, each commit), and the writers' calls come in between |
| `Read` | Model of the point reads of table.go (Exist, GetPoint, Get with point selectors, get) |
| `ReadLemmas` | Lemmas about the point reads |
| `RecordTypes` | Model of how the serializers of serializers/ that work through methods of the record treat record types: msgp_gen.go (through utils/reflect.go) and protobuf.go |
| `Remote` | Model of the HTTP side of the inspect package (inspect_handler.go, inspect_handler_client.go) and of the command line (inspect_cli.go, cmd/bond-cli) |
| `ResourceLemmas` | Lemmas on Verif.Resources: what a piece of code does to the held resources, composed from its parts |
| `Resources` | Model of what the calls take and give back: pebble iterators, batches and the buffers of the pools |
| `Restart` | A table with a bloom filter over several lives of the process: the filter is saved now and then, the process ends, and the next one opens the database, makes a new filter and initialises it (bond.go:182-232, filter.go:56-75, bloom/bloom_filter.go:42-194) |
| `RestoreLemmas` | What Restore makes of a dump |
| `RowsLemmas` | Lemmas on `Holds` and on operations of the table |
| `SameRowsLemmas` | Invariant of calls on the same rows at the same time, when the rows that can be stored under one key have the same index values |
| `Scan` | Model of index.go `Iter` and of the scans of table.go |
| `ScanExactLemmas` | The bounds of selectors whose keys end with 0xFF |
| `ScanKey` | The bytes of the key that a scan hands to its callback |
| `ScanLemmas` | The rows visited by a scan |
| `Seek` | Model of the iterators that `Table.Iter` and `Index.Iter` hand to the user, with the seeks of iter.go |
| `Sequence` | Model of helpers.go: NumberSequence, and of its use for batch ids in batch.go |
| `Serializers` | Model of the serializers of serializers/ that reuse buffers: msgp.go, msgp_gen.go (buffers from a pool) and cbor.go (one buffer per write call) |
| `ServedLemmas` | Scans whose callback need not fetch every row: what the loops of `scanForEachSecondaryIndex` do |
| `Spec.Batches` | Specification: nothing happens on a batch before its commit; at the commit all that was asked of it is done at once, on a new batch, which is then committed |
| `Spec.Builder` | What building queries means: queries are values |
| `Spec.Cancelled` | Specification of reads with a context that may be cancelled at any moment |
| `Spec.Crash` | Specification: after a crash the database is as it was at some earlier moment, and nothing that was to be durable happened after that moment |
| `Spec.Database` | Specification: a database is one map per table, and one for the keys of the user; a transaction is a copy of all of them, which replaces them at its commit |
| `Spec.Declared` | Specification: rows sorted by the fields that a table and its index are declared with |
| `Spec.DeclaredExact` | Specification for C101, exact: rows sorted by their declared fields, where a descending field that holds the smallest integer of its width sorts before every other value, since its negation is itself |
| `Spec.Evolve` | Specification: the map of C97; which indexes are registered; which indexes have the entries of exactly the stored rows; and which index numbers have no entries at all |
| `Spec.Failed` | Specification: what a write call that fails has done to its batch is what the same call with a part of the rows does |
| `Spec.Fields` | Specification side of C01-C06: what a key field means to the user |
| `Spec.FilterLive` | Specification: what is asked of a filter and of what its initialisation is given (filter.go:14-47) |
| `Spec.History` | Specification: what a successful write call does to the abstract content of its table |
| `Spec.InOrder` | Specification: calls on a table run one after the other, each alone, mixed with writes by others |
| `Spec.Inspect` | Specification side of the properties of the inspect package: when a value given in a filter or selector is the value of a field |
| `Spec.LiveScan` | Specification side of scans during which others write |
| `Spec.Machine` | Specification: a table is a map from primary keys to records, whose indexes are sorted views of it; a transaction is a second map, which replaces the first at its commit |
| `Spec.OwnWrites` | Specification side of scans whose callback writes to the table (C62) |
| `Spec.Queries` | Specification side of the query properties |
| `Spec.Restart` | Specification: the end of the process and the next start change nothing, except that an open transaction is lost; documented use is to save the filter after the last write, or never |
| `Spec.Rows` | Specification side of the table properties: the abstract content of a table is a map from primary keys to records; `Holds t db m` says that the database `db` stores exactly the content `m` of table `t`, with every index in agreement with the data |
| `Spec.ScanExact` | Which index values a point selects besides its own: C26 |
| `Spec.Scans` | Specification side of the scan properties |
| `Spec.Served` | Specification side of scans whose callback does not fetch every row (C35) |
| `Spec.TransactionReads` | Specification: what a goroutine reads between its calls is what it would read if the tasks were carried out one after the other |
| `Spec.TransactionScans` | Specification: a goroutine sees the rows of the transactions that have been committed, and on top of them what it has done itself |
| `Spec.Transactions` | Specification: the tasks are carried out one after the other, in the order in which they ended |
| `Spec.Unreadable` | Specification side of C91: a table in which some stored rows can no longer be decoded |
| `Spec.Values` | Specification: the ranges of the integer types, and the decoding of base64 |
| `StdEnv` | A concrete legal environment (stable insertion sort, indexes in declaration order, context never done) and a concrete table: used to show that the hypotheses of the theorems can be met, and as witnesses of refutations |
| `Store` | Model of the parts of pebble that bond uses (external dependency, see DESIGN.md "trusted base"): an ordered map from byte strings to byte strings, atomic batches of writes, snapshots and range scans |
| `SuccLemmas` | The key successor (table.go:1262-1276) and the bounds computed with it |
| `SyncBatch` | Model of sync.go: SyncBatch.WithSync called by any number of goroutines, as an interleaving of steps |
| `Table` | Model of the table operations of table.go, table_unsafe.go and of the index hooks of index.go |
| `Together` | Several filters and the tables of one database: all of them keep their data in the same store |
| `TogetherLemmas` | Lemmas: a filter call reads and writes only keys that begin with the key prefix of the filter |
| `TransactionActs` | The actions of goroutines with batches: they depend only on the rows with the keys of the task, and run alone they are the sequential calls |
| `TransactionLemmas` | Invariant of goroutines with batches: every task in progress will do what it would do alone, at its end |
| `TransactionReads` | Get and Exist of a goroutine through its own batch, between the calls with which it fills the batch |
| `TransactionScans` | Any read call of a goroutine, with its own batch or without, between the calls with which it fills the batch |
| `Transactions` | Several goroutines, each filling its own batch with calls on one table and committing it at the end, or making one call without a batch; the actions of their calls are interleaved in any order (compare Concurrent.lean, which has no batches, and Batches.lean, where a call is one step) |
| `UnreadableLemmas` | The loops of the scans over rows that may fail to decode |
| `UpdateLemmas` | The loops of Update, Delete, Upsert and the unsafe writes refine operations on the abstract row map |
| `UpsertExact` | Upsert of any rows: which of the given rows are folded into the record of a key |
| `UpsertSorted` | Upsert of rows given in the order of their primary keys, with repeated keys |
| `WorldLemmas` | Invariant of interleaved calls with different keys: every call in progress will do what it would do alone |
| `WriteTheorems` | Whole-call theorems behind the properties of Props/Writes.lean: for any slice size and any kind of batch |

Conventions. Property theorems are in `Props.*`; beside each is an `example` (or a witness used by a refutation) that meets its hypotheses.
`Spec.*` says what the properties mean and mentions no encoding or loop of the model. Names ending with `_partial` prove less than the
property says; names with `_refuted` prove that the property is false of the modelled code, with a concrete witness; both are explained at the
theorem. Theorems were tested against edited models; see seeded/LOG.jsonl.

The table model returns what a call writes as a list of operations, its result, and the filter afterwards. `Holds t db m` relates a database to
an abstract content (a map from primary keys to records): every row is stored at its key, every index entry is there, and nothing else is in the
key space of the table. Write properties are refinements of this abstract content; read properties compare with lists of rows of it.

## Per property: what is modelled and how it is proved

* **C01** Integer key fields sort like the integers – proved. Fields over `BitVec`, big-endian bytes; arithmetic on big-endian lists, with any prefix and suffix. Theorems: `C01_int64`, `C01_int32`, `C01_int16`, `C01_uint64`, `C01_uint32`, `C01_uint16`, `C01_byte`.
* **C02** Big-integer key fields sort like the integers – proved. Integers unbounded, `Option` for the FillBytes panic; same technique. Theorems: `C02_order`, `C02_panics`.
* **C03** Multi-field keys sort as tuples – proved. Induction over a list of fields of a common schema. Theorems: `C03`.
* **C04** Different rows get different primary keys – partial. Fields as typed lists; injectivity by induction; witness for two strings. *Result:* False for two or more string/bytes fields (C04_refuted); proved when at most one field has variable length. Theorems: `C04_partial`, `C04_refuted`.
* **C05** DESC order is the reverse order – partial. Payload lemmas per field kind; witnesses. *Result:* False at MinInt and for byte strings of different length; proved otherwise. C05_exact gives the order of DESC for all values of all types of fixed width. Theorems: `C05_partial`, `C05_exact`, `C05_refuted_minInt`, `C05_refuted_bytes`.
* **C06** Computing a key does not change the record – partial. OrderBytes is modelled with the caller's slice after the call as an output. C06_exact folds OrderBytes over the byte strings of a record any number of times: the record after n evaluations, and the (n+1)-th key equals the first iff n is even or all descending byte strings are empty. *Result:* False for DESC byte strings: OrderBytes complements the caller's slice in place. C06_exact says for which records and which repetitions the key is the same. Theorems: `C06_partial`, `C06_refuted`, `C06_exact`.
* **C07** Key encoding round-trips – proved. List equations on encoder and decoder; panics as `none`. Theorems: `C07_roundtrip`, `C07_prefix_panics`, `C07_injective`.
* **C08** An index entry leads back to its row – proved. Same; the prefix split computed from the key is the one used to build it. Theorems: `C08`, `C08_built`.
* **C09** Key spaces never overlap – proved. First bytes of the keys; contiguity from the lexicographic order. *Result:* User tables are assumed not to use the reserved table id 0 and secondary indexes not id 0, as the API documents; the code does not check it. Theorems: `C09_spaces`, `C09_disjoint`, `C09_contiguous`, `C09_injective`, `C09_user_keys`.
* **C10** Index ranges follow the index value order – partial. Order of index keys reduced to the order of (index value, primary key). *Result:* Proved for index values of one length and an upper bound whose primary key does not end with 0xFF; false for index values of different lengths (C10_refuted: entries are ordered by length first); C10_short_partial gives the order for all lengths. Theorems: `C10_partial`, `C10_short_partial`, `C10_refuted`.
* **C11** Insert makes exactly the given rows appear – proved. Refinement of the row loop to `Holds`, folded over rows and slices. *Result:* Refinement of Insert to the row map for any number of rows, any legal sort and index order; also through a read-write batch. Theorems: `C11_effect`, `C11_success`, `C11_batch`.
* **C12** Insert never overwrites – partial. Same loop invariant, tracking keys already seen in the slice; the exact versions add completeness (a call without a stored or repeated key succeeds) and the converse per slice. *Result:* C12_exact_partial says exactly which calls are accepted: no given key is stored and none is repeated within a group of 5000 rows; C12_exact_batch: with a read-write batch the full claim holds, for any number of rows. A stored key is rejected for any number of rows; repeated keys are rejected in calls of at most 5000 rows. False beyond: 5001 rows whose last repeats the first key are accepted (C12_refuted, the code checks each slice of 5000 against the database only). Theorems: `C12_stored`, `C12_partial`, `C12_across_slices`, `C12_exact_partial`, `C12_exact_batch`, `C12_refuted`.
* **C13** Writes are all-or-nothing – proved. A call returns its durable commits; a crash is a prefix of them. *Result:* All six write calls; a crash leaves a prefix of the (at most one) commits. Theorems: `C13`.
* **C14** Indexes always agree with the data – partial. Induction over histories with `Holds` as invariant. *Result:* Induction over all histories of calls, succeeding or failing, with any legal environment; excludes repeated keys in Upsert or across slices and untruthful records in Delete/Unsafe calls, for which it is false (C14_refuted, C17_refuted). Theorems: `C14_partial`, `C14_refuted`.
* **C15** Update replaces exactly the given rows – proved. Refinement of the Update loop. *Result:* Any number of different keys, repeated keys in calls of at most 5000 rows; last record wins for stable sorts; C15_unstable shows the stability condition is needed. Theorems: `C15_effect`, `C15_success`, `C15_unstable`.
* **C16** Upsert folds onConflict per key – partial. Refinement of the Upsert loop with its inner loop over equal keys. C16_exact: the loop is described exactly for any list of keys with positions (which rows are folded into which record), and the positions are then counted in the rows as given: the first row with the key, then the rows that follow the position of the key in the sorted order. *Result:* Proved for calls without repeated keys, and with repeated keys when the rows are given in key order (data always; indexes too unless a stored row is given twice). C16_exact says which record is stored under every key for any rows in any order, also over several groups of 5000 and through a batch, for any conflict function. The property is false otherwise: the code reads trs[i] with the sorted position and loses the stored record for index maintenance. Theorems: `C16_partial`, `C16_success_partial`, `C16_sorted_partial`, `C16_sorted_index_partial`, `C16_exact`, `C16_exact_batch`, `C16_exact_unstable`, `C16_refuted_lost`, `C16_refuted_index`, `C16_refuted_foreign`.
* **C17** Delete removes the row and its index entries – partial. Refinement of the Delete loop; for the exact versions, the writes of the loop are deletions of an explicit list of keys. *Result:* C17_exact: for any records a successful call removes exactly the data and index keys of the records as given; C17_iff: rows and indexes agree afterwards if and only if every index entry of a deleted row is that of a given record. Rows always disappear; index entries disappear if the records passed have the stored index values. False otherwise (C17_refuted: a record with only the key leaves a dangling index entry). Theorems: `C17_rows`, `C17_partial`, `C17_exact`, `C17_iff`, `C17_refuted`.
* **C18** Chunking and index iteration order are invisible – proved. Both runs have the same abstract result, and `Holds` determines the database on the table's key space; outside nothing is written. *Result:* Equality of databases for any two slice sizes, sorts and index orders, for calls without repeated keys; C18_refuted_dup shows why repeated keys are excluded. Theorems: `C18_insert`, `C18_update`, `C18_upsert`, `C18_delete`, `C18_success`, `C18_refuted_dup`.
* **C19** A batch is invisible until committed, then applied atomically – proved. Batches as operation lists; the view is the database after applying them. C19_view: all reads depend on database and batch only through the merged content (congruence through every read of the model, Verif/Props/BatchView.lean). *Result:* C19_view: for any contents, every read through a read-write batch answers what it answers after the commit. Any call with any outcome leaves the database and batch-less reads unchanged; for successful calls (within GoodRun) the read-write batch shows their effects, and commit equals direct execution. Theorems: `C19_invisible`, `C19_own`, `C19_commit`, `C19_equiv`, `C19_view`.
* **C20** Get with several points is positional – partial. Permutation argument for sortKeys and reorderValues. *Result:* C20_exact gives the result for all records, including those with an empty serialized form. Any order and repetition of points, no batch or read-write batch. False for records whose serialized form is empty (C20_refuted: Get returns the nil value for a stored protobuf-style zero record). Theorems: `C20_partial`, `C20_exact`, `C20_refuted`.
* **C21** Get and Exist return the latest committed write – partial. Induction over histories. The invariant of C21_points_partial speaks of the data entries alone, so calls that leave wrong index entries behind are allowed. C21_exact: the same induction with the exact effect of Upsert (C16_exact) and an invariant that allows a record under a key that is not its own. *Result:* C21_exact gives the answer after any history (Upserts of any rows with any conflict function included) but UnsafeUpdate of rows that are not stored on a table with a filter. C21_points_partial, as specified: all histories in which Update repeats no key or sorts stably, Upsert repeats no key and keeps primary keys, and UnsafeUpdate with a filter is given stored rows; all other calls are arbitrary and the indexes may be in any state. The excluded calls can break it: C21_refuted. Theorems: `C21_exact`, `C21_points_partial`, `C21_partial`, `C21_last_put`, `C21_last_delete`, `C21_untouched`, `C21_refuted`.
* **C22** Tables are isolated – proved. Every operation emitted touches only keys of the table, by induction over the loops. *Result:* For every write call, outcome and kind of batch. Theorems: `C22_outside`, `C22_tables`, `C22_reserved`.
* **C23** Scan returns every row once, in primary-key order – partial. The scan as a filter of the sorted store. *Result:* Proved for contents without primary keys below that of the empty record; false otherwise (C23_refuted: rows with a negative signed key are not returned). C23_exact: in general exactly the rows not below the empty record are returned, by Scan and by ScanForEach with any callback. Theorems: `C23_partial`, `C23_exact`, `C23_refuted`.
* **C24** Index scans return each matching row once, in index order – partial. Group of rows with one index value as a contiguous part of the index. *Result:* All contents, indexes (also with filter and order), batches, prefetch sizes. Exact for index values not ending with 0xFF; otherwise the group is returned completely and in order, but other rows may follow (C26_refuted); C26_exact says which. Theorems: `C24_partial`, `C24_all`, `C26_exact`, `C26_refuted`.
* **C25** Prefetching is invisible – proved. The two nested loops with a prefetch buffer, callbacks as interaction trees; fuel for divergence. *Result:* All selectors, both directions, callbacks as interaction trees. Theorems: `C25`, `C25_size`.
* **C26** Point selectors select only the point – partial. Analysis of keySuccessor as upper bound, for every index value: which byte it increments, and which keys lie below the result. *Result:* Nothing is missed for any index value; exact unless the index value ends with 0xFF (C26_refuted). C26_exact gives for every index value exactly the other values whose rows are returned too. Theorems: `C26_partial`, `C26_complete`, `C26_exact`, `C26_exact_sane`, `C26_refuted`.
* **C27** Range selectors are inclusive and exact – partial. Same, for both bounds. *Result:* Nothing between the bounds is missed; exact unless the upper primary key ends with 0xFF or is a proper prefix of a stored one (refuted there). The C27_exact theorems together say, for every upper bound, exactly which further rows are returned. Theorems: `C27_partial`, `C27_complete`, `C27_refuted`, `C27_refuted_extends`, `C27_get_partial`, `C27_exact`, `C27_exact_ffs`, `C27_exact_ord`, `C27_exact_ord_ffs`.
* **C28** Multi-selectors are the concatenation of their parts – proved. Cursor state machine refined to a cursor over the concatenation, for any sequence of cursor calls. *Result:* Refinement of the multi cursor to one cursor over the concatenation under any call sequence. SelectorPoints on the primary index treats a point differently from SelectorPoint (successor of the whole key) and is covered by C28_cursor/C28_scan only. Empty lists panic (C28_empty). Theorems: `C28_cursor`, `C28_scan`, `C28_points`, `C28_ranges`, `C28_empty`, `C28_get`.
* **C29** Reverse scans are exact reversals – partial. Reverse walk equals reversed list; then as C30. *Result:* All scans and all queries without Intersects (reversed rows then cut by Offset and Limit). False for queries with Intersects, which ignore Reverse (C29_refuted). Theorems: `C29_scan`, `C29_query`, `C29_refuted`.
* **C30** Query filter, offset and limit – proved. executeQuery with its flags as a callback of the scan; equality with drop/take/filter of the full list. *Result:* All contents, indexes, selectors, filters, batches; early termination in offset+limit rows proved equivalent to cutting the full list. Theorems: `C30`, `C30_point`.
* **C31** Query order – proved. Any sorting permutation; uniqueness of the slice up to equivalence of the order. *Result:* Any sorting permutation that respects a strict weak order (sort.Slice is not stable). Theorems: `C31`.
* **C32** Cursor pagination loses and repeats nothing – partial. Pages as an inductive relation; induction on the rows left. *Result:* Pagination as an inductive sequence of pages: existence, completeness, no repetition. False for reversed queries without Order and for points whose index value ends with 0xFF. Points and Ranges selectors are C70. Theorems: `C32_point_partial`, `C32_range_partial`, `C32_ordered`, `C32_refuted_reverse`, `C32_refuted_ff`.
* **C33** Intersect is set intersection – partial. executeIntersect equals the rows in all selections. *Result:* C33_after_exact gives the exact result with After but neither Filter nor Order. False with After but neither Filter nor Order (Limit and Offset ignored) and for nested Intersects (ignored). Theorems: `C33_partial`, `C33_after`, `C33_rejected`, `C33_after_exact`, `C33_refuted_after`, `C33_refuted_nested`.
* **C34** Intersect inside a batch – partial. Same model with a batch; the exact versions replace each selected row by the record stored in the database. *Result:* C34_exact and C34_missing give the exact result for every batch: keys as seen through the batch, records of the database, not found if one is missing. False: keys come from the batch, values from the database (C34_refuted). Holds for rows the batch does not touch. Theorems: `C34_partial`, `C34_exact`, `C34_missing`, `C34_refuted`.
* **C35** Scans terminate – partial. Fuel: `none` for all fuel means divergence. *Result:* Terminates on the primary index for all callbacks and on secondary indexes for callbacks that fetch all rows after an initial run (or none); false for callbacks that stop fetching (C35_refuted: no fuel suffices). C35_exact says for every callback with at most one Get per call whether the scan ends and with what result; it ends if the callback, called again and again for one row, at last calls Get or stops. Theorems: `C35_partial`, `C35_refuted`, `C35_exact`, `C35_served_unique`, `C35_notForEver_partial`.
* **C36** ReIndex repairs – partial. ReIndex as a list of commits; crash is a prefix; healing theorem from any such prefix. C36_exact_255 says what ReIndex does for index id 255: it adds the entries of all rows and removes none. *Result:* All contents, any earlier crash point: a successful ReIndex makes the listed indexes agree with the data and never touches the data; needs an index id below 255. False for index id 255, where the range delete covers nothing (C36_refuted). Theorems: `C36_outside`, `C36_crash`, `C36_success`, `C36_heals`, `C36_partial`, `C36_exact_255`, `C36_refuted`.
* **C37** A rejected AddIndex leaves the table usable – partial. State of the table mutex. *Result:* False: AddIndex returns its error without releasing the table mutex; every later call that needs the mutex waits forever (C37_refuted, for all tables). Holds for distinct new ids. Theorems: `C37_partial`, `C37_refuted`.
* **C38** A filter never changes results – proved. Simulation between a table with filter and the same without. C38_overlap: the same simulation for any sequence of calls on any number of open batches, direct calls, commits, drops and Apply (Verif/Props/FilterOverlap.lean); UnsafeUpdate only of rows that are stored as the batch sees it. *Result:* All histories of Insert, Update, Upsert, Delete, UnsafeInsert with any arguments; C38_overlap: also with any number of batches that are open at the same time on the same rows; C38_stale and C38_unsafeUpdate show why the conditions are needed. Theorems: `C38_writes`, `C38_reads`, `C38_batch`, `C38_overlap`, `C38_stale`, `C38_unsafeUpdate`.
* **C39** The bloom filter has no false negatives – partial. Bloom filter as bit sets; concurrent Add as interleaving of word loads and stores. *Result:* Proved for non-overlapping calls (any history of Add, Load from any store, Save, Clear), and, under any schedule of word-level steps of overlapping Adds, for keys added before they start and for keys that share no 64-bit word with another key being added. False for overlapping Adds: Add holds only the read lock, so a bit or the hasChanges flag can be lost (witnesses). Theorems: `C39_partial`, `C39_filterSound`, `C39_alone`, `C39_concurrent_partial`, `C39_words_partial`, `C39_flag`, `C39_refuted_bits`, `C39_refuted_flag`.
* **C40** Filter save/load round trip and rebuild – partial. Save, Load and Initialize over a key-value store with failures. *Result:* Round trip proved for all histories on one store with any failures; rebuild proved for everything the scanners deliver, which is every row not below the empty record. False for rows below the empty record, for a filter rebuilt after a half-failed Load, and for a key prefix ending with 0xFF (witnesses). Theorems: `C40_roundtrip`, `C40_save_ok`, `C40_rebuild`, `C40_scan_partial`, `C40_partial`, `C40_initialize_ok`, `C40_refuted_scan`, `C40_refuted_partial`, `C40_refuted_ff`.
* **C41** The filter is valid after a crash – partial. Crash points in the history of store operations. C41_exact: with only Adds and Loads after the last successful Save, the loaded filter answers every key as the saved one (equality of the decoded buckets). *Result:* C41_exact: if the process dies before the next Save, the filter answers every key as at the last one. Keys added before the last successful Save survive every crash point afterwards. False for rows inserted after the last Save: Initialize accepts the stale filter (witness: stored row not found, and inserted twice). Theorems: `C41_partial`, `C41_exact`, `C41_refuted`.
* **C42** Batch callbacks – partial. Traces of callback events. *Result:* Commit calls are fully specified for all callbacks and outcomes; all histories without Close and failed Apply. False for OnClose (callbacks never run, C42_onClose_never), for Close and failed Apply (OnCommitted callbacks run without a commit). Theorems: `C42_commit`, `C42_counts`, `C42_partial`, `C42_onClose_never`, `C42_refuted_close`, `C42_refuted_apply`, `C42_reset`.
* **C43** Sequence numbers are unique and increasing – proved. Arithmetic on ids; induction over clock readings. *Result:* Every call after every history: the id is (second, number of earlier calls in that second), error from the 2^24-th on. C43_clock_needed shows the clock condition is needed. Theorems: `C43_ids`, `C43_increasing`, `C43_decompose`, `C43_compose`, `C43_clock_needed`.
* **C44** SyncBatch serializes access – proved. Interleaving of lock, read, write, unlock steps of any number of goroutines. *Result:* All schedules of any number of calls, with panicking functions for safety; progress while no function panics. Theorems: `C44_serial`, `C44_exclusive`, `C44_once`, `C44_progress`.
* **C45** Buffer pools never hand out a buffer twice – proved. Histories of Get/Put/GC with any choice of the pool. *Result:* All histories and all choices of sync.Pool and the garbage collector; C45_double_put shows the client condition is needed. Theorems: `C45_fresh`, `C45_held`, `C45_prealloc`, `C45_double_put`.
* **C46** Dump then Restore reproduces the tables – proved. Dump directory as list of files; ingestion of what was dumped gives back the scanned parts. *Result:* any contents, table lists, file split and target database; keys as bond writes them with index keys shorter than 2^32-1 bytes; nobody writing during Dump; SST writer and Ingest are modelled by their documented effect Theorems: `C46`, `C46_rows`, `C46_keys`.
* **C47** Restore touches only the requested tables – partial. Paths as byte strings; strings.Contains on them. *Result:* exact if no requested table number is a decimal prefix of another dumped one and the path contains neither table_N nor (without indexes) the word index; refuted otherwise: table 7 also restores table 70; a path with 'index' restores nothing without error Theorems: `C47_partial`, `C47_all_partial`, `C47_flags_partial`, `C47_refuted_prefix`, `C47_refuted_index`, `C47_refuted_path`.
* **C48** Dump finds every index – proved. Case analysis of Restore's checks. *Result:* for databases whose keys have at least two bytes (all keys bond writes) Theorems: `C48`.
* **C49** Opening with a wrong version fails, with the right one succeeds – partial. Directory as state; induction over histories of opens, closes and writes. C49_exact (Verif/Props/OpenExact.lean): all byte strings as data version, against a specification of integer texts. *Result:* Over all histories of opens, closes and writes after a successful first Open: the recorded version opens, every other is refused and changes nothing. False for a data version that is not a number (overwritten, C49_refuted_data) and after a first Open that pebble refuses (its version is recorded, C49_refuted_first). C49_exact says for every stored data version whether Open succeeds and what it leaves. Theorems: `C49_partial`, `C49_fresh`, `C49_reopen`, `C49_format`, `C49_data`, `C49_number`, `C49_refuted_data`, `C49_refuted_first`, `C49_exact`.
* **C50** Condition combinators – proved. Structural induction over condition trees. *Result:* All trees, with panicking functions, getters and nil members, read from the left. ObjectsAreEqual is assumed to be equality. Theorems: `C50`, `C50_total`, `C50_query`.
* **C51** Concurrent writers on different keys behave sequentially – proved. Calls as lists of atomic actions (open slice, handle row, commit) interleaved in any order; invariant: a call in progress will do what it would do alone, because nobody touches its rows; hence the run equals the sequential run in return order. *Result:* any number of calls without a batch, any interleaving of their actions (open slice, handle row, commit) and of writes outside the table; commit order is the order in which calls return Theorems: `C51_sequential`, `C51_indexes`, `C51_returns`.
* **C52** Concurrent Inserts of one key – partial. Same interleaving model; invariant that a stored key stays stored; for Inserts alone, an invariant relating the writes of each running call to the rows it has handled gives the exact result. *Result:* C52_exact: for any number of concurrent Inserts under any schedule, exactly which rows and index entries are left (the only wrong entries are those of rows that lost against another successful Insert of the same key). False as stated: two Inserts of a key that was not stored can both succeed and leave an index entry to a lost row; proved: an Insert of a key stored at the start never succeeds unless a concurrent Delete has the key Theorems: `C52_exact`, `C52_partial`, `C52_refuted`, `C52_refuted_index`.
* **C53** Unsafe operations are equivalent under their preconditions – proved. Equality of the emitted operations up to order. *Result:* Equality of resulting databases. Theorems: `C53_insert`, `C53_update`.
* **C54** TableAnyScanner forwards everything – partial. Forwarding functions unfolded. *Result:* False for the ForEach variants with a batch, which drop the batch, and for selectors made for any (which the interface type asks for): the type assertion in index.go panics. Theorems: `C54_scan`, `C54_scanAll`, `C54_error`, `C54_forEach_partial`, `C54_scanForEach_partial`, `C54_refuted`, `C54_selector_refuted`.
* **C55** Extreme offsets and limits are safe – partial. uint64 to int conversion on `BitVec`. For all values: what the callback collects is followed by induction over the rows in three phases (rows skipped for the offset, rows taken until the wrapped sum is reached, at most so many filtered rows), then the two slices at the end are evaluated for offsets and limits on both sides of 2^63. After with Order and After with Intersects: Verif/Props/ExtremeAfter.lean. *Result:* False from 2^63 on: panics and lost rows. The C55_exact theorems say for every uint64 and every kind of query (with and without After, Order, Filter, Intersects) exactly what is returned and when it panics, for tables with fewer than 2^63 rows. Theorems: `C55_partial`, `C55_exact`, `C55_exact_after`, `C55_exact_intersect`, `C55_exact_after_ordered`, `C55_exact_after_intersect`, `C55_panics_iff`, `C55_refuted`.
* **C56** A query is a value: building on it changes no other query – partial. `Builder.lean` models queries as Go values: fields plus a slice header into a memory of arrays, `append` with any growth policy, and programs as lists of statements that each make a variable. `QInv` says that each variable reads back its value and that each array has at most one list that may still be extended, which is the longest on it; `run_inv` keeps it. `execute_fields`: `Execute` uses only the fields of the parts. Not modelled: mutation of a selector or record after it was passed to a call. *Result:* Proved for all programs that extend no list of parts twice with Intersects (a query may be used any number of times with the other calls; a query without parts also with Intersects), for all capacities Go may choose. False otherwise: append in Intersects writes into the spare capacity of the receiver's array, so of two queries derived with Intersects from one query with three parts the first answers like the second (C56_refuted_answers). Theorems: `C56_programs_partial`, `C56_unchanged_partial`, `C56_refuted_answers`, `C56_full_partial`, `C56_linear_partial`, `C56_refuted`.
* **C57** FS filter storer is a faithful store – partial. File names as filtered byte strings; directory as a map; refinement to a key-value store. *Result:* faithful for keys of letters, digits, '_' and '.' and ranges with nothing above them; refuted: keys that differ in other characters share a file, DeleteRange ignores its end and removes the files of other filters, a prefix without allowed characters cannot be cleared. C57_exact says for every sequence of calls with any keys what is stored: keys count as one if their allowed characters agree, ranges have no end. Theorems: `C57_exact`, `C57_set_partial`, `C57_delete_partial`, `C57_partial`, `C57_collision`, `C57_refuted_delete`, `C57_refuted_prefix`.
* **C58** Format migration is crash-safe – partial. Crash points of the migration. *Result:* Holds for crashes before the format file is truncated and for completed migrations; false for a crash between truncation and write: no version opens the database (C58_refuted, for all versions and states). Theorems: `C58_partial`, `C58_refuted`.
* **C59** Context batches – partial. Contexts as lists of key/value pairs; induction. *Result:* All nestings. False when another package uses the same plain string key (C59_refuted). Theorems: `C59_partial`, `C59_refuted`.
* **C60** Results do not depend on what was decoded before – partial. The serializer decodes into a used object; refinement under that weaker hypothesis. *Result:* Proved for serializers that decode correctly into a used object, and for one-row calls with serializers correct in a zero object only; false for the latter with several rows (C60_refuted). Theorems: `C60_partial`, `C60_single_partial`, `C60_refuted`.
* **C61** A failed call leaves its batch unchanged – partial. Operations left in the caller's batch after a failing call. *Result:* False: rows processed before the failing one stay in the caller's batch (C61_refuted). What stays is described exactly by C96_call: some of the rows, complete with their index entries. Theorems: `C61_partial`, `C61_refuted`, `C96_call`.
* **C62** A scan callback may write to the scanned table – partial. Callbacks that write while scanning: values are read when the prefetch buffer is filled; refuted by three witnesses; C62_exact gives the result for every writing callback by an independent row-by-row specification (Spec.runBlocks). *Result:* False for callbacks that delete later rows (error), for callbacks that change later rows (stale record), and with several ranges for callbacks that change the row they visit: it is visited again in a later range (C62_refuted_twice). Proved for callbacks that keep rows not yet visited readable, in particular deleting each visited row; on the primary index for every callback; on a secondary index for every callback that never takes away a selected row (each visited once, with a record stored at some moment of the scan); and C62_exact says for every callback that fetches its rows and stops on errors what the scan does: records are read in blocks of ScanPrefetchSize when the first of a block is asked for. The last three are for point and range selectors. Theorems: `C62_partial`, `C62_delete`, `C62_refuted_error`, `C62_refuted_stale`, `C62_refuted_twice`, `C62_primary`, `C62_exact`, `C62_keeps_partial`.
* **C63** Batch ids are unique – partial. As C43, with the error dropped. *Result:* C63_exact, C63_same_iff: the ids for any number of batches, equal if and only if each was preceded by 2^24 others in its second. False: the error of Next is dropped, so from the 2^24-th batch in a second on all ids are equal (C63_refuted, any second, any number). Proved for at most 2^24 per second. Theorems: `C63_partial`, `C63_exact`, `C63_same_iff`, `C63_refuted`.
* **C64** A panicking function does not block a SyncBatch – partial. Model of C44 with panicking functions. *Result:* False: WithSync does not unlock on panic; after a panic nothing changes under any schedule. Without panics see C44_progress. Theorems: `C64_refuted`.
* **C65** A Save to files that is cut short does not prevent the next start – partial. Torn writes of files: any prefix of the data. *Result:* a torn bucket file is refused by Load without panic; refuted: a torn bucket-count file (dead between open and write) makes every later Initialize panic Theorems: `C65_partial`, `C65_refuted`.
* **C66** Dump closes the iterators it opens – partial. Counting iterators opened and closed. *Result:* without indexes all are closed; with indexes one iterator per table stays open Theorems: `C66_partial`, `C66_refuted`.
* **C67** A dump is the state of one moment – partial. The live database as a function of the lookup. *Result:* holds as long as no index loses its last entry during the dump; refuted in general: index ids are looked up in the live database, not in the snapshot Theorems: `C67_partial`, `C67_refuted`.
* **C68** A failed or interrupted Open can be repeated – partial. Model of C49 with crash points and refusals. *Result:* Holds when the format file is complete and the data version is not foreign; false for a crash while the format file is first written (C68_refuted_torn) and in the process that was refused a foreign data version (C68_refuted_lock). Theorems: `C68_partial`, `C68_refuted_torn`, `C68_refuted_lock`.
* **C69** Reads through a batch see the rows or fail – partial. Batch kinds in the read model. *Result:* Proved for read-write batches; false for write-only batches: for all contents every point read says not found and scans succeed without rows (C69_blind). Theorems: `C69_partial`, `C69_blind`, `C69_refuted`.
* **C70** Cursor pagination with several points or ranges – partial. selectorWithAfter on lists of points and ranges; pages as in C32. *Result:* Proved for ranges in order and points in order on a secondary index, forward; false for points on the primary index (rows repeated), for lists not in order (rows lost, pages repeated for ever), and After a row behind all ranges panics. Theorems: `C70_ranges_partial`, `C70_points_partial`, `C70_refuted_primary`, `C70_refuted_order`, `C70_refuted_panic`.
* **C71** Reads stop when the context is done – partial. The context as a function from question number to answer. On secondary indexes the two loops are followed by induction, with a count of the rows of the block that are left. *Result:* C71_exact: on a secondary index the context is asked once per block, for all contexts; C71_exact_scan: ScanIndex appends whole blocks and reports the error if and only if rows are left. Proved for every moment on the primary index and for contexts done before the call on every index; false on secondary indexes, where the context is asked once per block of prefetched rows (C71_refuted). Theorems: `C71_partial`, `C71_done`, `C71_query`, `C71_exact`, `C71_exact_scan`, `C71_refuted`.
* **C72** A filter that is not ready denies nothing – proved. State machine of FilterInitializable; induction. *Result:* Over all sequences of Add, Initialize and Save. Theorems: `C72`, `C72_ready`, `C72_added`.
* **C73** Restore refuses what it cannot restore – proved. Case analysis of Restore over all dump trees. Theorems: `C73`.
* **C74** A dump can be restored again – partial. Restore with its effect on the dump directory (Ingest moves the files); second Restore on what is left. *Result:* False: pebble's Ingest removes the files, so a second Restore of the same tables succeeds without restoring anything (C74_refuted, for all dumps). Proved for tables not restored before. Theorems: `C74_partial`, `C74_refuted`, `C74_refuted_rows`.
* **C75** Results of the file based filter storer can be trusted – proved. File operations with failures and torn writes as parameters. *Result:* DeleteRange for start keys that are plain file names, or of which nothing is left (C57_delete_bad) Theorems: `C57_set_result`, `C57_no_file`, `C57_delete_result`, `C57_delete_bad`.
* **C76** ReIndex while the table is written – partial. ReIndex as a state machine interleaved with whole write calls; simulation against the run where ReIndex is over first. A call is one event because it reads only rows, which ReIndex does not write (run_sees_rows). *Result:* False as stated: an Update (or Delete) taking effect between ReIndex's snapshot and its commit leaves a stale entry, and a call that copied the index list before AddIndex leaves a row without entry. Proved for any interleaving: rows and other indexes are right, no entry is missing, and if the calls after the snapshot remove no entry of the rebuilt indexes (in particular Inserts) the result is exactly the one of ReIndex first. Theorems: `C76_partial`, `C76_rows`, `C76_complete`, `C76_inserts`, `C76_alone`, `C76_refuted_stale`, `C76_refuted_missing`.
* **C77** A nil batch means no batch – partial. The three forms of the variadic argument; each method with the test it makes (checked, or length only). *Result:* False as stated: with a nil batch every scan, Get with ranges and every query panics. Writes, Exist and Get with points treat nil as none, as the property says. Theorems: `C77_partial`, `C77_faithful`, `C77_panics`, `C77_refuted`.
* **C78** Serializers encode the record they are given – partial. Buffers with their content, the pool as a bag with arbitrary choices; invariant over all histories. CBOR: one heap array with slices into it. *Result:* False as stated for the msgp serializers with a buffer pool: released buffers are not reset, so a result may start with the encodings of earlier records and decode to one of them. Proved: every result ends with the right encoding; without a pool (or without release) it is the encoding; the CBOR serializer as the tables use it is right. Theorems: `C78_tail`, `C78_partial`, `C78_first`, `C78_refuted_all`, `C78_refuted`, `C78_cbor`, `C78_cbor_refuted_kept`, `C78_serialize_partial`.
* **C79** A scan shows the table at one moment – partial. Database as a function of time (callback calls); relation Visited over the prefetch loop, by induction over blocks. Covers ScanIndex, ScanIndexForEach with callbacks that fetch all rows and stop on errors, and queries without intersection. *Result:* False as stated: on a secondary index the records are read after the index entries, so a scan can return a record that does not match, or fail with notFound; the parts of points and ranges selectors are opened one after another, so rows of different moments are mixed. Proved: it holds on the primary index with a point or range; in general the parts are selected each at its moment and records are current at some later moment of the scan; if the selected rows do not change, the scan is exact. Theorems: `C79_partial`, `C79_rows`, `C79_unchanged`, `C79_scanIndex`, `C79_query`, `C79_refuted_other_value`, `C79_refuted_fails`, `C79_refuted_parts`.
* **C80** The key bytes stay those of the row during the callback – partial. Verif/ScanKey.lean gives callbacks a third action, reading the bytes of their key at that moment; for the row under the iterator these are the iterator's memory, which holds arbitrary bytes once `Get` has moved the iterator. Proved equal to the scan that passes keys by value: on the primary index, for callbacks that read the key before their first `Get` (so for queries), and for prefetch size 1. Refuted by a callback that gets the record first. *Result:* Refuted on secondary indexes with prefetch > 1: lazy.Get moves the iterator whose memory the key bytes are (table.go:1143, 1165). Proved for the primary index, for callbacks that read the key before their first Get (hence queries), and for prefetch size 1, for all contents of the iterator's memory. Theorems: `C80_primary`, `C80_partial`, `C80_prefetchOne`, `C80_query`, `C80_refuted`.
* **C81** A failed read is reported, not taken for a missing row – partial. Verif/Faults.lean repeats the calls with reads that may fail: an iterator becomes invalid after an arbitrary number of entries (per part), a seek of the n-th row finds nothing, a point read errs; which ones is universally quantified. Success is compared with the functions of the rest of the model (equal when nothing fails: C81_good_*). Induction over the loops; counterexamples by evaluation. C81_repair bounds the damage of write calls with failed reads: all records and index entries are those of records stored before or given, and a ReIndex of all indexes makes the indexes agree with the rows again (Verif/Props/FaultsBounded.lean). *Result:* The code never asks an iterator for its error. Proved for Update, GetPoint, and scans, Get and queries over one part. C81_exist and C81_points_exact say exactly what Exist and Get with points answer: as if the rows whose read failed were not there. Refuted for Insert and Upsert (a failed seek is taken for absence: the row is overwritten and its index entries stay), Exist, Get with points, scans over several parts, Intersects, ReIndex and Dump (incomplete, yet reported as success). Scans ended by their callback and queries with Limit and without Order are covered on tables in good order (C81_stops_partial, C81_limit_partial). Theorems: `C81_update`, `C81_insert_partial`, `C81_upsert_partial`, `C81_getPoint`, `C81_exist`, `C81_points_exact`, `C81_scan_partial`, `C81_scanIndex`, `C81_query_partial`, `C81_refuted_insert`, `C81_refuted_insert_holds`, `C81_refuted_upsert`, `C81_refuted_reads`, `C81_refuted_parts`, `C81_refuted_intersect`, `C81_refuted_reIndex`, `C81_refuted_dump`, `C81_good_scan`, `C81_good_intersect`, `C81_good_getMany`, `C81_good_writes`, `C81_good_reIndex_dump`, `C81_stops_partial`, `C81_limit_partial`, `C81_reported`, `C81_repair`.
* **C82** Keys and their bytes are classified alike – partial. Equations between the encoders and the structured functions; the empty index value is a computed counterexample. C82_iff: agreement for an index entry iff the index value is not empty. *Result:* IsIndexKey of the decoded key is false for entries of an index whose key function appends nothing (C82_refuted); all else is proved. Theorems: `C82_dataKey`, `C82_prefix`, `C82_bytes`, `C82_partial`, `C82_iff`, `C82_refuted`.
* **C83** Every call gives back what it takes – partial. A separate model of each function by what it takes and gives back, in which every test on data, failure and panic is a free choice. Rules for sequence, defer, loops and seen errors say what is held after each piece of code; each function is composed from them, the loops by induction. *Result:* False for scans whose callback panics, for ReIndex that fails (iterator stays open) or handles more than one block (batches not closed) and for UnsafeUpdate (own batch never closed after success; the caller's batch closed when a write fails). Dump is C66. Theorems: `C83_writes`, `C83_gets`, `C83_scans_partial`, `C83_query_callbacks`, `C83_iterators`, `C83_scan_refuted_panic`, `C83_reIndex_partial`, `C83_reIndex_refuted`, `C83_unsafeUpdate_partial`, `C83_unsafeUpdate_refuted`, `C83_unsafeUpdate_refuted_ext`, `clean_detects`.
* **C84** Inspect queries return what they ask for – partial. Model of the reflection in Query: values with Go types, conversion, DeepEqual, setFields, map order as a permutation. For plain values conversion is shown to keep the value (lowest terms for floating point), so the filter function is the specification's Matches and setFields makes the record described; the rest is C30. Counterexamples by evaluation. C84_typed: every converted value is in the range of its type as the Go specification lists it, whatever Go does out of range. *Result:* Proved for tables of pointer records and values that the type of the field has, in any order of the maps. False otherwise: 1.5 matches the integer 1, 65 matches the text A, values for fields of named types never match in filters and panic in selectors, nil panics, selectors on the primary index are ignored, tables of structs panic with any other index, fields renamed by a tag cannot be selected. Theorems: `C84_partial`, `C84_fraction`, `C84_nil`, `C84_errors`, `C84_noField`, `C84_listed`, `C84_integers`, `C84_typed`, `C84_slices`, `C84_bytes`, `C84_lists`, `C84_ranges`, `C84_runes`, `C84_refuted_fraction`, `C84_refuted_rune`, `C84_refuted_type`, `C84_refuted_nil`, `C84_refuted_primary`, `C84_refuted_struct`, `C84_refuted_tag`.
* **C85** Paging with inspect rows as cursor visits every row once – partial. A row turned into a map, directly or through JSON, is turned back into the same row; with that the pages are those of C32. Counterexamples by evaluation. *Result:* Proved locally for records determined by their exported fields, remotely for rows that survive JSON. False remotely for integers beyond 2^53 (the same page for ever, or rows lost), []byte (base64 taken as bytes: rows lost) and nil []byte (panic). Theorems: `C85_local_partial`, `C85_remote_partial`, `C85_base64`, `C85_refuted_large`, `C85_refuted_bytes`, `C85_refuted_nil`.
* **C86** Open batches on different rows do not interfere – proved. A call reads only the rows with its keys and writes only rows with its keys (and index entries, which calls do not read), and does the same with any filter that covers the rows it can read. So what is in an open batch always equals what filling it now, with the database and filter of now, would give; this is the invariant. At the commit both runs apply the same writes. The content, and what reads through an open batch see, follow from the effect of single calls. *Result:* Any number of batches, any interleaving of whole calls (interleavings inside calls without batch are C51). UnsafeUpdate is given stored rows. If two open batches, or a batch and a direct call, change the same row, everything succeeds but updates are lost and index entries are stale (C86_refuted_*). Theorems: `C86_serial`, `C86_content`, `C86_reads`, `C86_refuted_overlap`, `C86_refuted_batches`.
* **C87** A crash loses nothing that was promised and leaves every index in agreement – proved. Model of the log: what is synced and the commits since. Invariant over the steps: whatever number of unsynced commits is found, the result is the database at some earlier moment, after which no step with a promise has committed. The content at that moment is C86, for every life in turn. *Result:* Pebble's contract is trusted (atomic commits, the log found after a crash is a prefix with all synced commits). The filter of each life covers the rows it finds; a stale saved bloom filter does not (C41). Calls are whole steps. A commit with Sync, or a call, that writes nothing does not make earlier commits without Sync durable (C87_refuted_empty). Theorems: `C87_crash`, `C87_durable`, `C87_content`, `C87_refuted_empty`.
* **C88** The remote inspector answers as the inspector of the server – partial. The path of each request ends with its own name and with no other, so the handler sends it to the right function; the rest is evaluation of handler and client. Counterexamples by evaluation. *Result:* Proved for addresses without query and fragment and for no Accept header or exactly application/json. Any other Accept header, also one that includes JSON, makes every request fail with 406 and no reason (C88_accept); an address with a query string makes them fail with 404 (C88_refuted_url). A panic of the server is an error of the connection. Network, multiplexer, and percent signs are not modelled; what JSON does to values is in C85. Theorems: `C88_lists_partial`, `C88_query_partial`, `C88_other`, `C88_accept`, `C88_refuted_accept`, `C88_refuted_url`.
* **C89** The command line does what its arguments say – partial. Splitting at equals signs is characterised by induction; queries by C84, dump and restore by C46 after showing that numbers below 256 are kept. Counterexamples by evaluation. *Result:* Headers: exactly the arguments with one equals sign are taken, so Base64 values are refused (C89_refuted_header). Table numbers from 0 to 255; others are cut to their low byte without an error, 263 is table 7 (C89_refuted_id). Failed commands exit with status 0 (C89_refuted_exit). The deadline is not modelled; the remote client ignores it. Theorems: `C89_headers_partial`, `C89_query_partial`, `C89_dump_partial`, `C89_refuted_header`, `C89_refuted_id`, `C89_refuted_exit`.
* **C90** The supplied serializers work for the record types tables are made of – partial. The interface a value offers is computed from the number of stars; case analysis, and for the table C13 and the effect of Insert. *Result:* msgp_gen: structs and pointers. Protobuf: structs only; for a table of pointers nothing can be encoded or decoded (C90_refuted_pointer: the serializer is given a pointer to the pointer). Two stars fail with msgp_gen (C90_refuted_stars). An Encoder without a Decoder stores rows that cannot be read (C90_refuted_mixed). Theorems: `C90_gen`, `C90_gen_table`, `C90_gen_bad`, `C90_proto_partial`, `C90_refuted_pointer`, `C90_refuted_stars`, `C90_refuted_mixed`.
* **C91** A row that cannot be decoded is reported, and does no other harm – partial. The store with the damage has the same keys as the one without, so a scan sees the same keys with other bytes. Inductions over the prefetching loops show that a callback that stops at errors is run once per row with what decoding its bytes gives. Updates and upserts by induction over their loops. Other calls only look at their own keys (body_local). C91_query_safe and C91_intersect_safe: a run over the rows with unreadable ones ends with an error or is the run over the readable rows (runReads_safe), for every After, Limit, Offset, Filter and Order; intersections depend on keys only (Damaged.intersect). *Result:* False for callbacks that go on after an error: on a secondary index they are called for ever with the same row (C91_refuted_skip). False for ReIndex, which removes all index entries and then fails (C91_refuted_reindex). Get with several points takes empty bytes for a missing row, so that case is left out of C91_getMany_partial. C91_query is for queries without After that look at all rows; C91_query_safe and C91_intersect_safe say of all queries that they fail or return what they would return if nothing were damaged. Theorems: `C91_forEach_partial`, `C91_scanIndex`, `C91_query`, `C91_query_safe`, `C91_intersect_safe`, `C91_getOne`, `C91_getMany_partial`, `C91_update`, `C91_upsert`, `C91_others`, `C91_delete`, `C91_refuted_skip`, `C91_refuted_reindex`.
* **C92** Tables, filters and keys of the user share a database without harm – partial. Each call of a filter reads and writes only keys that begin with its prefix, so stores that agree on them give the same answers; induction over the calls of all filters. Tables, user keys and version record by the layout of the keys. Counterexamples by evaluation. *Result:* Proved for filters with key prefixes of table 0 none of which begins with another, and tables with other numbers than 0. False for two filters with the default prefix (a stored row is not found after reopening), for prefixes one of which begins with another, for a table with number 0 (the version record is taken for a row) and for prefixes outside table 0; nothing refuses these. Theorems: `C92_filters_partial`, `C92_tables`, `C92_writes`, `C92_keys`, `C92_refuted_default`, `C92_refuted_related`, `C92_refuted_table0`, `C92_refuted_raw`.
* **C93** After Restore the tables work as if the rows had been written to them – partial. Restore puts the dump on top of what is there (C46, C47), key by key; from this the invariant Holds is shown for the rows of the dump on top of the rows before. With ReIndex: the rows alone are such that C36 applies. Counterexamples by evaluation. C93_exact compares the index entries after Restore with those of the rows, key by key. *Result:* C93_exact: the rows of the dump on top of those there were, the index entries of all of them, agreement if and only if no replaced row had an entry that the new one does not have. Proved for tables whose replaced rows have no index entries that the new ones do not have (in particular empty tables), and for all rows if all indexes are rebuilt after Restore. False for a restored row that replaces one with another index value (the old entry stays and shows the wrong row), and for a table whose filter was ready before Restore: the restored rows are not found and can be inserted again. A filter initialised after Restore: C40_partial. Theorems: `C93_rows_partial`, `C93_exact`, `C93_reindex_partial`, `C93_refuted_stale`, `C93_refuted_filter`.
* **C94** Transactions in several goroutines at the same time are serialisable – proved. Invariant over the steps: each running goroutine is where executing its actions so far alone on the present database would have taken it, because what the others commit does not touch the keys its actions look at; its end is then the end of the same task done alone after those that ended before. The content is then C86. *Result:* Transactions interleaved action by action (C51 has calls without batch, C86 whole calls). UnsafeUpdate is excluded on tables with a filter. For a common row key it is false: both transactions insert the same new key and both commits succeed (C94_refuted_sameKey). Theorems: `C94_serial`, `C94_content`, `C94_ends`, `C94_refuted_sameKey`.
* **C95** Rows written while the filter is initialised are not lost – partial. Invariant over the steps: every row stored, and every row that a running goroutine is going to store, is known to the filter or was there when the iterator of the scan was opened, so is still to come in it; it is established when the iterator is opened because only rows that were there are written without Add. The results are then those of C94, and the reads those without a filter (C38). Counterexamples by evaluation. *Result:* Proved for goroutines without a common row key, a table that is among those scanned, rows not below the empty record, and a saved filter that knew the rows there were. False otherwise: a filter without FilterInitializable (rows are denied meanwhile), a row deleted and at the same time changed by a batch of another goroutine (denied for ever), a table not scanned, rows below the empty record. The Add of the filter is taken to be atomic; that of the bloom filter is not (C39). Theorems: `C95_reads`, `C95_serial`, `C95_ends`, `C95_refuted_plain`, `C95_refuted_sameKey`, `C95_refuted_notScanned`, `C95_refuted_low`.
* **C96** A failed call on a batch leaves rows and indexes in agreement – proved. Induction over the loop of each call: up to the row where it stops, it has written what the loop over the rows before it writes, so the effect theorem for successful calls applies to these; then induction over the calls on a batch and over the steps of a history with the invariant of C86. *Result:* For read-write batches; each call within the documented use given what it sees, and in histories its keys are in no other open batch. Theorems: `C96_call`, `C96_batch`, `C96_history`.
* **C97** A table behaves as a map with sorted views – proved. Machine.lean puts the calls together to programs (calls, begin, commit, close); Spec/Machine.lean says what a map with sorted views does (Reads, Result, Writes, BatchWrites, Does, Behaves) and what the documented use is (Proper, which only mentions the map). Proved by induction on the program: the invariant Represents says that the database holds the map, the batch laid over it holds the map of the transaction, and the filter covers both. The fuel of scans is existential: from some fuel on the run does not depend on it. *Result:* Refinement by induction on the program, put together from the theorems about the single calls (C12, C15, C16, C20, C23, C24, C27, C28, C30, C31, C33, C61, C96). Outside of the documented use (repeated keys over 5000 rows or in Upsert, untruthful records given to Delete or the unsafe calls, bounds ending with 0xFF, Intersects through a batch, After with reversed scans) the single properties are refuted; write calls without batch while a transaction is open are the subject of C94 and C96. Theorems: `C97`, `C97_start`, `C97_step`, `C97_read`, `run_result`.
* **C98** The key comparer fulfils the contract of the store – proved. Comparer.lean models the comparer and, as external semantics, SeekPrefixGE with Next (from the first key that is not below, while the prefix is the same). A key is framed if it starts with table, index and index value with its length (Framed, shown equivalent to the comparer not panicking); the laws follow from the order lemmas of keys. *Result:* C98_refuted shows the limit of the claim: raw keys of a user that do not come from NewUserKey (shorter than six bytes, or with a length beyond the end) make the comparer panic, also for other keys looked at together with them. Theorems: `C98_keys`, `C98_contract`, `C98_seek`, `C98_rows`, `C98_refuted`.
* **C99** Several tables and user keys behave as independent maps under common transactions – proved. Database.lean: the tables are a family over any index type with record types that depend on the index; an action is a call on one of them, an action on keys of the user, or one of the transaction. The invariant is that of C97 for every table and equality of the user's keys; a call on one table keeps it for the others because it touches only keys of its own table (C22), also as seen through the batch. *Result:* Extends C97 to several tables of different record types and keys of the user; hypotheses as in C97, for each table, and different table numbers (which the library does not check). Theorems: `C99`, `C99_start`, `C99_step`, `C99_userKey`, `pstep_outside`.
* **C100** Restarts of the process do not change what a table with a bloom filter answers – proved. Restart.lean: an action is one of C97, Save with any failures of the store, or the end of the process and the next start (new filter, FilterInitialize with the scanner of the table). The invariant joins that of C97 with the agreement of filter and store from C40: clean buckets are those stored; after a Save without error a new filter that loads gives the same answers as the one in memory until the next write call; while nothing was stored the number of buckets is missing, so a start scans. A table call changes the filter only by adding keys (Step.keep), which keeps the agreement. *Result:* Hypotheses as in C97; the filter's own store is kept apart from the table's entries (files, C57, or reserved keys, C92). C100_needs_save shows that the condition about Save cannot be dropped (see C41). Theorems: `C100`, `C100_start`, `C100_step`, `C100_needs_save`.
* **C101** Scans and queries return rows sorted by the declared fields, ascending or descending – partial. Spec/Declared.lean states the order on field values only. Props/Declared.lean: a chain of IndexOrder calls adds the complemented or negated fields (orderFields_eq), the byte order of the parts is the tuple order (C03, C05), lengths are equal because widths are fixed, so the order of index entries is the declared order; composed with C24, C27, C23 and C30. C08_built shows that builders which write into the buffer of the key encoder give the same key as parts made alone. The _exact theorems (Props/DeclaredExact.lean, order in Spec/DeclaredExact.lean) drop the condition on DESC fields that hold the smallest integer: such a row sorts first (C05_exact), everything else is as declared; orderLtX_eq says that the two orders agree where there is no such value. *Result:* Fails for DESC fields that hold the smallest integer of their width (C101_refuted); the _exact theorems say where such rows are placed (first). Excluded: index values or upper bounds that end with 0xFF (C24, C27), rows below the empty record in Scan (C23), and byte strings as order fields. Theorems: `C101_point`, `C101_range`, `C101_query`, `C101_scan`, `C101_point_exact`, `C101_range_exact`, `C101_query_exact`, `orderLtX_eq`, `C101_refuted`, `acc_declared`, `acc_declaredAny`.
* **C102** Indexes may be added, rebuilt, left out and added again over the life of a table – partial. `Evolve.lean` puts the models of AddIndex (with the mutex), ReIndex and the calls of C97 together to a machine whose state has the registered indexes, and adds the end of a process during ReIndex and new table objects. `Spec/Evolve.lean` has the map of C97, the set of indexes whose entries are those of the rows, and the set of index numbers without entries. The invariant `ERepresents` says just that of the store; C97_step is used for the table with the registered indexes, C36 for ReIndex, and pstep_outside for the indexes that are not registered. *Result:* For all sequences of calls, transactions, AddIndex, ReIndex, interrupted ReIndex and new table objects within the documented use: answers and contents are those of one map whose registered, usable indexes are sorted views. Missing: an index added while a transaction is open (the rows written through it get no entries, C102_needs_closed), index number 255 (C36_refuted), and repeated index numbers (C37_refuted). C102_needs_reindex shows that the condition on left-out indexes is needed. Theorems: `C102_step`, `C102`, `C102_start`, `C102_refused`, `C102_needs_closed`, `C102_needs_reindex`.
* **C103** A read whose context is cancelled is complete or returns an error – proved. The scan loops with a context that answers `d` are compared step by step with the same loops and a context that is never done (`primary_cut`, `outerLoop_cut`, `collectSet_cut`), for a relation along which the callback moves (`Moves`; for ScanIndex: being a prefix). `scan_more` and `query_more` show that the result does not depend on the fuel. *Result:* For all contents, selectors, callbacks and moments; C97_read (and through it C97, C99, C100, C102) is about calls with any context. Theorems: `C103_forEach`, `C103_scanIndex`, `C103_get`, `C103_query`, `C97_read`.
* **C104** What a transaction reads fits the order of the transactions – partial. `TransactionReads.lean` adds Get and Exist of a goroutine with its batch to the world of C94. The invariant `TxPast` says that the state of every task in progress is the one of its actions so far, done alone on the database of the start, and that rows no other task has are unchanged; with `execTx_items` this is the run of the first items at the place of the task in the serial order. *Result:* Proved for rows that no other task writes, whatever else the tasks do, and for all reads without batch. False for rows that others write: a batch reads the live database, so a transaction can see the old value of one row and the new value of another that were changed together (C104_refuted), or two values of one row (C104_refuted_again). Theorems: `C104_partial`, `C104_direct`, `C104_refuted`, `C104_refuted_again`.
* **C105** A transaction sees the committed rows and its own changes, and nothing else – proved. `TransactionScans.lean` adds all read calls of C97 to the world of C94. By the invariants of C94 and C104 the database and the batch of the reader are those of the run in which the ended tasks and then the reader's first items are done one by one; that run satisfies the conditions of C86 (`isolated_left`, `task_isolated`), whose content is the committed rows with the reader's calls on top (`contentB_append_items`); then C97_read gives the answer. *Result:* Conditions: no row key in two tasks (C94_refuted_sameKey shows why), read-write batches, the calls in committed batches and those of the reader so far succeeded, and the documented use of reads of C97 (Intersects not through a batch, C34). A read call is one step; the rows seen by two calls can differ when others commit in between (C104_refuted). Theorems: `C105_batch`, `C105_direct`.
* **C106** Buffers that are used again never mix up keys or rows – partial. `Memory.lean` models byte arrays, slices (array, offset, length, capacity) and `append` with a growth policy chosen by the runtime; `Buffers.lean`, `BufferWrites.lean` and `BufferUnsafe.lean` are the read and write paths on it, every key and value being read from memory when the code uses it. `Writes`, `Upd` and `Scr` say what a write leaves alone; by them the collected keys stay apart from the rest of the key buffer and from the value buffers (`collectKeysM_spec`, `getLoopM_spec`), and each loop on memory is simulated by the loop on bytes. Not modelled: the arrays of slices themselves (table.go:1097-1098), and writes by other goroutines to memory outside these buffers. *Result:* Proved on a memory model of Go slices for all calls; for scans, callbacks that call lazy.Get at most once for the row under the iterator. False for callbacks that append to the key they are given (C106_refuted: the following keys of the round are overwritten) and for serializers that keep bytes instead of copying them (C106_refuted_alias). That the pools hand out buffers that do not overlap is the hypothesis Bufs, which every call preserves. Theorems: `C106_insert`, `C106_update`, `C106_upsert`, `C106_delete`, `C106_unsafeInsert`, `C106_unsafeUpdate`, `C106_get`, `C106_getOne`, `C106_exist`, `C106_scan_partial`, `C106_refuted`, `C106_refuted_alias`.
* **C107** Every call on a query counts, in whatever order – partial. The fold of the calls is characterised field by field by the last call of the kind (`fold_latest`); C107_partial adds C30. *Result:* Order and repetition of the calls proved for all sequences. False for Filter (C107_refuted): it is documented to add filtering, but a second call replaces the first; with at most one Filter the answers are as stated (C107_partial). Theorems: `C107_latest`, `C107_order`, `C107_partial`, `C107_refuted`.
* **C108** Calls leave the caller's record objects alone – partial. PtrRecords.lean: the write loops on pointers with an explicit store of objects (decoding into a non-nil pointer overwrites the object). Simulation with the loops on record values: objects still to be read are unchanged and `oldTr` is none of them (`PInv`). *Result:* False for Upsert with repeated keys: oldTr becomes a pointer to a caller's record, and the next stored row is decoded into it (C108_refuted); if that record was not written yet, its new content is lost and the call still succeeds (C108_refuted_stored). Proved for Update and Get with points without conditions on the rows, for Upsert with distinct keys, and, as far as what is stored is concerned, for Upsert of rows in key order; without conditions on the rows for serializers that decode into new objects (msgp_gen). Insert and Delete decode nothing and are not modelled on objects; contents are values (no sharing inside records). Theorems: `C108_refuted`, `C108_refuted_callback`, `C108_refuted_stored`, `C108_update_partial`, `C108_upsert_partial`, `C108_sorted_partial`, `C108_fresh_partial`, `C108_get_partial`.
* **C109** A key builder is a value: building on it changes no key built before – partial. KeyBuilderMem.lean: the methods of the builder statement by statement on the memory model of slices (`Mem.append` with any growth policy). `addFieldM_spec` relates each method to the value model of C01-C03; `BuildersOK` says that a builder not yet added to is the longest on its array. Not modelled: fields given as slices that share memory with a builder, and programs that write into the buffer they gave or into the bytes they got. *Result:* False when two keys are built from one builder and the first is used after the second was built: append writes both into the same array (C109_refuted, with and without a buffer given by the program). Proved for all programs that add to no builder twice, for the key built last in any program, and for loops that are done with a key before the next is built. Theorems: `C109_partial`, `C109_last_partial`, `C109_loop_partial`, `C109_refuted`.
* **C110** Close runs every callback registered with OnClose, once, before the store is closed – partial. Lifecycle.lean: Close as a small-step machine over callbacks that use the database, register callbacks or call Close; pebble panics when it is used or closed after its Close. Not modelled: callbacks in other goroutines. *Result:* Proved for callbacks that do not call Close. False otherwise: callbacks registered while Close runs are never called (C110_refuted_late), a callback that calls Close makes it recurse for ever (C110_refuted_loop), a second Close calls all callbacks again on the closed database (C110_refuted_twice). Theorems: `C110_partial`, `C110_refuted_late`, `C110_refuted_loop`, `C110_refuted_twice`.
* **C111** Compact reaches the whole database – partial. Lifecycle.lean: the range given to pebble's Compact, against all keys that bond encodes. What pebble does with the range is not modelled. *Result:* Proved for all tables and indexes but index 255 of table 255, which lies wholly above the range (C111_refuted). Theorems: `C111_partial`, `C111_refuted`.
* **C112** What OnCommit callbacks write belongs to the transaction – partial. CommitCallbacks.lean: Commit with callbacks that write through the batch, register callbacks or commit; refinement to running the callbacks directly on the store (Spec.direct). *Result:* Proved for callbacks that do not call Commit on a batch with writes. False otherwise: on a batch without writes the callbacks are not run and Commit succeeds (C112_refuted_empty); writes of callbacks stay in the batch when a later callback fails and are made twice by a second Commit (C112_refuted_retry); callbacks registered by callbacks are not run (C112_refuted_late); callbacks that call Commit recurse for ever (C112_refuted_loop). Theorems: `C112_partial`, `C112_refuted_empty`, `C112_refuted_retry`, `C112_refuted_late`, `C112_refuted_loop`.
* **C113** A batch applied to another batch adds its changes to it – partial. Batches.lean `BatchWorld.applyBatch`; by C86: applying and committing the outer batch has the effect of committing both one after the other. Callbacks of Apply are in C42. C113_exact: unconditional, from the order of the writes in the outer batch and the congruence of all reads (Verif/Props/BatchView.lean). *Result:* C113_exact: for any two batches, whatever rows they changed, Apply and one commit is the same as the two commits one after the other. Proved for batches that have changed different rows. False if both changed the same row: the row of the inner batch is stored, and the index keeps entries for both (C113_refuted). Theorems: `C113_partial`, `C113_exact`, `C113_refuted`.
* **C114** Write calls on the same rows at the same time leave the indexes in agreement with the rows – partial. Interleaving model of Concurrent.lean; invariant over all schedules: what is stored and what every running call is about to write lies in a set of rows whose rows of one key have the same index entries, and no entry is ever removed. Verif/Bounded.lean: the same kind of invariant without the condition on index entries, for all six write calls: rows, entries and pending writes come from records of A; C36_partial then gives the repair. *Result:* False as stated: two Updates of one row of which one changes an index value can leave the row without its entry (an index scan misses it, and finds it under a value it does not have), and so can a Delete with an Update that changes nothing. Proved for any number of Inserts, Updates, Upserts (no key twice in a call) and UnsafeInserts under any schedule when rows with one key have the same index values. For all write calls, Deletes and changing index values included: every row and every index entry left behind is that of a record that was stored or given (C114_bounded), and a ReIndex afterwards restores agreement (C114_repair, ids other than 255). Theorems: `C114_partial`, `C114_refuted_update`, `C114_refuted_delete`, `C114_bounded`, `C114_repair`.
* **C115** lazy.Get returns the row under the key, however often it is called – partial. The callback is run with a log of key and answer of every Get (Spec.logged); on the primary index the scan is the run over its rows (C25), on others it is described by Served (C35_exact); induction over both. Refuted on the model of the prefetching closures with concrete tables. *Result:* Proved for the primary index with any callback, and for other indexes with callbacks that call Get at most once per call. False for callbacks that call Get again in one call on another index: it returns the record of another row (C115_refuted_next); the key list was sorted in place, so later calls get records of other rows as well, though they call Get once (C115_refuted_later); or it panics (C115_refuted_panic). No error is returned in the first two cases. A Lazy kept after the callback returned is not modelled. Theorems: `C115_partial`, `C115_refuted_next`, `C115_refuted_later`, `C115_refuted_panic`.
* **C116** The iterators of a table can be moved and sought like a cursor over the selected rows – partial. The iterator is a pebble cursor over the entries between the bounds, or the multi cursor of C28; invariant UserIter.At over the sequence of calls: the position is that of a cursor over the selected rows (Spec.rowStep); a seek by key is a seek by the order of the index (indexKey_lt), as the rows before a row are the first ones of a sorted list. *Result:* Proved for all selectors and sequences of First, Last, Next, Prev, and with SeekGE and SeekLT for selectors with one point or range. False otherwise: the seeks of an iterator over several points or ranges panic (C116_refuted). The content does not change meanwhile (C79); what pebble's iterator does on one range is part of the model. Theorems: `C116_partial`, `C116_refuted`.
* **C117** Overlapping transactions never leave rows that nobody wrote, and ReIndex repairs the indexes – proved. Invariant over all step sequences (Verif/Bounded.lean): rows, index entries and the writes held in every open batch come from records of a set A that contains the stored and given records; every loop of the write calls keeps it for every outcome. The repair is C36_partial on the result. *Result:* Batches in any overlap, any calls, failing or not, Apply, drop and commit (C117_batches), and calls without batch cut into the actions of any schedule (C114_bounded); ReIndex afterwards (C117_repair, C114_repair). An Upsert that names no key twice needs the condition on the conflict function only for records with the same key. Index number 255 is excluded in the statement, see C36_refuted. Theorems: `C117_batches`, `C117_repair`, `C114_bounded`, `C114_repair`.
* **C118** Cursor pagination stays correct while the table changes – partial. Each request has its own moment (database, batch, filter, rows). One request at a cursor anywhere within the bounds is a prefix of the selected rows that are behind the cursor in index order (`pageAt_index`), whether or not the cursor row is stored; induction over the requests (`livePages`) gives order, no repetition and completeness for rows that stay. Several points and ranges: Verif/Props/LiveRanges.lean (what a cursor leaves of the selector yields exactly the rows from the cursor on). Ordered queries use the same induction with the order of the comparison function; `C118_refuted_order` runs the model with the After row deleted. *Result:* Without Order, for point and range selectors, several points on a secondary index and several ranges, both given in order, read forwards, everything holds at any moments, whatever was written in between, also when the After row is deleted or changed. With an Order that tells rows apart it holds while the After row of each request is still selected. With Order and a deleted After row the query silently starts from its first row again (refuted: an unchanged row comes twice). Reversed queries and index values ending with 0xFF fail already without changes (C32). Theorems: `C118_point_partial`, `C118_range_partial`, `C118_ranges_partial`, `C118_points_partial`, `C118_ordered_partial`, `C118_refuted_order`.
* **C119** A write whose context is done is refused, or its end does not notice – proved. Induction over the loop of each call (`Asks`: how often the context is asked, that the run does not depend on later answers, and that success means all answers asked for were no), lifted over the slices of a call; Verif/Props/WriteCtx.lean. *Result:* All six write calls, with and without a batch, for every sequence of answers of the context. Theorems: `C119`.
* **C120** Cursor pagination of intersected queries – partial. Verif/Props/IntersectPages.lean: the first page and the page behind each row of the ordered rows, from C33_partial, C33_after and C33_after_exact, then the induction over the pages of C32 (`pages_eq`), or that of C118 (`livePages`) when the table changes (Verif/Props/LiveIntersect.lean). *Result:* Proved for queries with a Filter or an Order on contents that do not change, and (the Order telling rows apart) with any writes between the requests while the After row of each request is still selected. With neither, After makes Limit ignored: the second page is all the rest (C120_refuted_limit); C120_rows gives the pages exactly then, no row is lost or repeated. If the After row is deleted between two requests, the query silently starts again from its first row (C120_refuted_deleted). Theorems: `C120_partial`, `C120_live_partial`, `C120_live_ordered_partial`, `C120_rows`, `C120_refuted_limit`, `C120_refuted_deleted`.

## Axioms

Output of `#print axioms` for every theorem of MANIFEST.json, grouped.

* no axioms: C110_refuted_late, C110_refuted_twice, C42_refuted_apply, C42_refuted_close, C99_userKey.
* `Quot.sound`: C40_save_ok.
* `propext`: C09_disjoint, C35_served_unique, C37_refuted, C39_refuted_bits, C39_refuted_flag, C40_refuted_ff, C40_refuted_partial, C56_refuted, C59_refuted, C66_partial, C72, C72_ready, C78_cbor_refuted_kept, C78_refuted, C78_serialize_partial, C82_refuted, C89_headers_partial, C90_gen, C90_gen_bad, C90_gen_table, C90_refuted_mixed, C90_refuted_stars, C92_refuted_related, orderLtX_eq.
* `Quot.sound`, `propext`: C04_refuted, C05_refuted_bytes, C05_refuted_minInt, C06_partial, C06_refuted, C109_refuted, C110_partial, C110_refuted_loop, C21_last_delete, C21_last_put, C21_untouched, C26_exact_sane, C37_partial, C39_filterSound, C39_flag, C39_partial, C40_initialize_ok, C40_rebuild, C42_commit, C42_counts, C42_onClose_never, C42_partial, C42_reset, C43_clock_needed, C44_exclusive, C44_once, C44_progress, C44_serial, C45_double_put, C46_keys, C50, C50_total, C56_full_partial, C56_linear_partial, C57_delete_bad, C57_delete_partial, C57_delete_result, C57_partial, C59_partial, C64_refuted, C65_partial, C66_refuted, C72_added, C78_cbor, C78_first, C78_partial, C78_refuted_all, C78_tail, C83_reIndex_refuted, C83_unsafeUpdate_refuted_ext, C85_base64, C90_proto_partial, C92_keys, C92_refuted_raw, acc_declared, acc_declaredAny.
* `Classical.choice`, `Quot.sound`, `propext`: C01_byte, C01_int16, C01_int32, C01_int64, C01_uint16, C01_uint32, C01_uint64, C02_order, C02_panics, C03, C04_partial, C05_exact, C05_partial, C06_exact, C07_injective, C07_prefix_panics, C07_roundtrip, C08, C08_built, C09_contiguous, C09_injective, C09_spaces, C09_user_keys, C100, C100_needs_save, C100_start, C100_step, C101_point, C101_point_exact, C101_query, C101_query_exact, C101_range, C101_range_exact, C101_refuted, C101_scan, C102, C102_needs_closed, C102_needs_reindex, C102_refused, C102_start, C102_step, C103_forEach, C103_get, C103_query, C103_scanIndex, C104_direct, C104_partial, C104_refuted, C104_refuted_again, C105_batch, C105_direct, C106_delete, C106_exist, C106_get, C106_getOne, C106_insert, C106_refuted, C106_refuted_alias, C106_scan_partial, C106_unsafeInsert, C106_unsafeUpdate, C106_update, C106_upsert, C107_latest, C107_order, C107_partial, C107_refuted, C108_fresh_partial, C108_get_partial, C108_refuted, C108_refuted_callback, C108_refuted_stored, C108_sorted_partial, C108_update_partial, C108_upsert_partial, C109_last_partial, C109_loop_partial, C109_partial, C10_partial, C10_refuted, C10_short_partial, C111_partial, C111_refuted, C112_partial, C112_refuted_empty, C112_refuted_late, C112_refuted_loop, C112_refuted_retry, C113_exact, C113_partial, C113_refuted, C114_bounded, C114_partial, C114_refuted_delete, C114_refuted_update, C114_repair, C115_partial, C115_refuted_later, C115_refuted_next, C115_refuted_panic, C116_partial, C116_refuted, C117_batches, C117_repair, C118_ordered_partial, C118_point_partial, C118_points_partial, C118_range_partial, C118_ranges_partial, C118_refuted_order, C119, C11_batch, C11_effect, C11_success, C120_live_ordered_partial, C120_live_partial, C120_partial, C120_refuted_deleted, C120_refuted_limit, C120_rows, C12_across_slices, C12_exact_batch, C12_exact_partial, C12_partial, C12_refuted, C12_stored, C13, C14_partial, C14_refuted, C15_effect, C15_success, C15_unstable, C16_exact, C16_exact_batch, C16_exact_unstable, C16_partial, C16_refuted_foreign, C16_refuted_index, C16_refuted_lost, C16_sorted_index_partial, C16_sorted_partial, C16_success_partial, C17_exact, C17_iff, C17_partial, C17_refuted, C17_rows, C18_delete, C18_insert, C18_refuted_dup, C18_success, C18_update, C18_upsert, C19_commit, C19_equiv, C19_invisible, C19_own, C19_view, C20_exact, C20_partial, C20_refuted, C21_exact, C21_partial, C21_points_partial, C21_refuted, C22_outside, C22_reserved, C22_tables, C23_exact, C23_partial, C23_refuted, C24_all, C24_partial, C25, C25_size, C26_complete, C26_exact, C26_partial, C26_refuted, C27_complete, C27_exact, C27_exact_ffs, C27_exact_ord, C27_exact_ord_ffs, C27_get_partial, C27_partial, C27_refuted, C27_refuted_extends, C28_cursor, C28_empty, C28_get, C28_points, C28_ranges, C28_scan, C29_query, C29_refuted, C29_scan, C30, C30_point, C31, C32_ordered, C32_point_partial, C32_range_partial, C32_refuted_ff, C32_refuted_reverse, C33_after, C33_after_exact, C33_partial, C33_refuted_after, C33_refuted_nested, C33_rejected, C34_exact, C34_missing, C34_partial, C34_refuted, C35_exact, C35_notForEver_partial, C35_partial, C35_refuted, C36_crash, C36_exact_255, C36_heals, C36_outside, C36_partial, C36_refuted, C36_success, C38_batch, C38_overlap, C38_reads, C38_stale, C38_unsafeUpdate, C38_writes, C39_alone, C39_concurrent_partial, C39_words_partial, C40_partial, C40_refuted_scan, C40_roundtrip, C40_scan_partial, C41_exact, C41_partial, C41_refuted, C43_compose, C43_decompose, C43_ids, C43_increasing, C45_fresh, C45_held, C45_prealloc, C46, C46_rows, C47_all_partial, C47_flags_partial, C47_partial, C47_refuted_index, C47_refuted_path, C47_refuted_prefix, C48, C49_data, C49_exact, C49_format, C49_fresh, C49_number, C49_partial, C49_refuted_data, C49_refuted_first, C49_reopen, C50_query, C51_indexes, C51_returns, C51_sequential, C52_exact, C52_partial, C52_refuted, C52_refuted_index, C53_insert, C53_update, C54_error, C54_forEach_partial, C54_refuted, C54_scan, C54_scanAll, C54_scanForEach_partial, C54_selector_refuted, C55_exact, C55_exact_after, C55_exact_after_intersect, C55_exact_after_ordered, C55_exact_intersect, C55_panics_iff, C55_partial, C55_refuted, C56_programs_partial, C56_refuted_answers, C56_unchanged_partial, C57_collision, C57_exact, C57_no_file, C57_refuted_delete, C57_refuted_prefix, C57_set_partial, C57_set_result, C58_partial, C58_refuted, C60_partial, C60_refuted, C60_single_partial, C61_partial, C61_refuted, C62_delete, C62_exact, C62_keeps_partial, C62_partial, C62_primary, C62_refuted_error, C62_refuted_stale, C62_refuted_twice, C63_exact, C63_partial, C63_refuted, C63_same_iff, C65_refuted, C67_partial, C67_refuted, C68_partial, C68_refuted_lock, C68_refuted_torn, C69_blind, C69_partial, C69_refuted, C70_points_partial, C70_ranges_partial, C70_refuted_order, C70_refuted_panic, C70_refuted_primary, C71_done, C71_exact, C71_exact_scan, C71_partial, C71_query, C71_refuted, C73, C74_partial, C74_refuted, C74_refuted_rows, C76_alone, C76_complete, C76_inserts, C76_partial, C76_refuted_missing, C76_refuted_stale, C76_rows, C77_faithful, C77_panics, C77_partial, C77_refuted, C79_partial, C79_query, C79_refuted_fails, C79_refuted_other_value, C79_refuted_parts, C79_rows, C79_scanIndex, C79_unchanged, C80_partial, C80_prefetchOne, C80_primary, C80_query, C80_refuted, C81_exist, C81_getPoint, C81_good_getMany, C81_good_intersect, C81_good_reIndex_dump, C81_good_scan, C81_good_writes, C81_insert_partial, C81_limit_partial, C81_points_exact, C81_query_partial, C81_refuted_dump, C81_refuted_insert, C81_refuted_insert_holds, C81_refuted_intersect, C81_refuted_parts, C81_refuted_reIndex, C81_refuted_reads, C81_refuted_upsert, C81_repair, C81_reported, C81_scanIndex, C81_scan_partial, C81_stops_partial, C81_update, C81_upsert_partial, C82_bytes, C82_dataKey, C82_iff, C82_partial, C82_prefix, C83_gets, C83_iterators, C83_query_callbacks, C83_reIndex_partial, C83_scan_refuted_panic, C83_scans_partial, C83_unsafeUpdate_partial, C83_unsafeUpdate_refuted, C83_writes, C84_bytes, C84_errors, C84_fraction, C84_integers, C84_listed, C84_lists, C84_nil, C84_noField, C84_partial, C84_ranges, C84_refuted_fraction, C84_refuted_nil, C84_refuted_primary, C84_refuted_rune, C84_refuted_struct, C84_refuted_tag, C84_refuted_type, C84_runes, C84_slices, C84_typed, C85_local_partial, C85_refuted_bytes, C85_refuted_large, C85_refuted_nil, C85_remote_partial, C86_content, C86_reads, C86_refuted_batches, C86_refuted_overlap, C86_serial, C87_content, C87_crash, C87_durable, C87_refuted_empty, C88_accept, C88_lists_partial, C88_other, C88_query_partial, C88_refuted_accept, C88_refuted_url, C89_dump_partial, C89_query_partial, C89_refuted_exit, C89_refuted_header, C89_refuted_id, C90_refuted_pointer, C91_delete, C91_forEach_partial, C91_getMany_partial, C91_getOne, C91_intersect_safe, C91_others, C91_query, C91_query_safe, C91_refuted_reindex, C91_refuted_skip, C91_scanIndex, C91_update, C91_upsert, C92_filters_partial, C92_refuted_default, C92_refuted_table0, C92_tables, C92_writes, C93_exact, C93_refuted_filter, C93_refuted_stale, C93_reindex_partial, C93_rows_partial, C94_content, C94_ends, C94_refuted_sameKey, C94_serial, C95_ends, C95_reads, C95_refuted_low, C95_refuted_notScanned, C95_refuted_plain, C95_refuted_sameKey, C95_serial, C96_batch, C96_call, C96_history, C97, C97_read, C97_start, C97_step, C98_contract, C98_keys, C98_refuted, C98_rows, C98_seek, C99, C99_start, C99_step, clean_detects, pstep_outside, run_result.
