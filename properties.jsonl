{"id": "C01", "title": "Integer key fields sort like the integers", "statement": "For AddInt64Field/AddInt32Field/AddInt16Field (and the unsigned and byte fields), appended to the same KeyBuilder, the resulting keys compare bytewise exactly as the field values compare as integers, including the most negative value; equal keys only for equal values; whatever is appended afterwards only decides ties.", "quantifier": "all pairs of field values of every width, all builders, all suffixes", "why_tests_cant": "the value space is 2^128 pairs per width; the interesting points (sign change, MinInt) are easily missed", "anchors": ["keys.go:AddInt64Field,AddInt32Field,AddInt16Field,AddUint64Field,AddUint32Field,AddUint16Field,AddByteField"]}
{"id": "C02", "title": "Big-integer key fields sort like the integers", "statement": "AddBigIntField(x,bits) yields keys whose byte order is the numeric order of x for every x that fits in bits/8 bytes, and panics (no key) for exactly those that do not fit.", "quantifier": "all integers, all bit sizes", "why_tests_cant": "unbounded integers and sizes", "anchors": ["keys.go:AddBigIntField", "index.go:OrderBigInt"]}
{"id": "C03", "title": "Multi-field keys sort as tuples", "statement": "Keys built from the same sequence of fixed-width fields, optionally followed by one bytes/string field, compare bytewise as the tuples of field values compare lexicographically.", "quantifier": "all field sequences of any length, all values", "why_tests_cant": "unbounded number of fields and values", "anchors": ["keys.go:KeyBuilder"]}
{"id": "C04", "title": "Different rows get different primary keys", "statement": "Two records whose key fields differ get different key bytes. (Expected by users of KeyBuilder for any field sequence.)", "quantifier": "all field sequences and values", "why_tests_cant": "collisions are isolated points in an infinite space", "anchors": ["keys.go:AddStringField,AddBytesField,putFieldID"]}
{"id": "C05", "title": "DESC order is the reverse order", "statement": "An IndexOrder field declared DESC sorts the rows of an index in exactly the reverse numeric (or bytewise) order of the same field declared ASC.", "quantifier": "all pairs of values, all field kinds", "why_tests_cant": "the failing points are single values (MinInt) or shapes (prefixes)", "anchors": ["index.go:OrderInt64,OrderInt32,OrderInt16,OrderUint64,OrderUint32,OrderUint16,OrderByte,OrderBytes,OrderBigInt"]}
{"id": "C06", "title": "Computing a key does not change the record", "statement": "Evaluating an index order function on a record leaves the record unchanged, so evaluating it again gives the same key.", "quantifier": "all byte strings, ASC and DESC", "why_tests_cant": "needs aliasing between the record and the key code", "anchors": ["index.go:OrderBytes"]}
{"id": "C07", "title": "Key encoding round-trips", "statement": "KeyDecode(KeyEncode(k)) = k for every key with a non-empty primary key and index parts shorter than 2^32; a prefix key (no primary key) cannot be decoded (KeyDecode panics).", "quantifier": "all keys", "why_tests_cant": "infinite key space", "anchors": ["keys.go:KeyEncode,KeyDecode,IsKeyPrefix"]}
{"id": "C08", "title": "An index entry leads back to its row", "statement": "The index key written for a record, converted with ToDataKeyBytes, is exactly the data key under which that record is stored; TableID/IndexID/Index/Split read back the parts that were encoded.", "quantifier": "all records, index functions, tables", "why_tests_cant": "infinite key space; length fields at every size", "anchors": ["keys.go:ToDataKeyBytes,KeyEncodeRaw,_KeyPrefixSplitIndex", "index.go:encodeIndexKey", "table.go:key"]}
{"id": "C09", "title": "Key spaces never overlap", "statement": "Keys of different tables, of different indexes of a table, data keys and index keys, user-space keys and the version key are pairwise different, and each key space is a contiguous byte range disjoint from the others.", "quantifier": "all tables, indexes, records, user keys", "why_tests_cant": "any two of infinitely many keys could collide", "anchors": ["keys.go:KeyEncodeRaw,NewUserKey", "version.go:bondDataVersionKey"]}
{"id": "C10", "title": "Index ranges follow the index value order", "statement": "A range selector on an index returns the rows whose index value lies between the two bounds in bytewise order of the index value.", "quantifier": "all index values, all lengths", "why_tests_cant": "values of different length behave differently", "anchors": ["index.go:Iter", "keys.go:KeyEncodeRaw"]}
{"id": "C11", "title": "Insert makes exactly the given rows appear", "statement": "A successful Insert of any number of rows with pairwise different primary keys leaves the table equal to its previous content plus exactly those rows; it succeeds iff none of the keys was present; every other key of the database is unchanged.", "quantifier": "all tables, contents, row lists of any length, all sort permutations", "why_tests_cant": "unbounded lists, chunk boundary at 5000", "anchors": ["table.go:Insert,keysExternal,sortKeys,batched"]}
{"id": "C12", "title": "Insert never overwrites", "statement": "Insert rejects a call containing a primary key that is already stored or occurs twice in the call, for any number of rows, and then changes nothing.", "quantifier": "all tables, contents, row lists of any length", "why_tests_cant": "duplicates separated by more than 5000 rows", "anchors": ["table.go:Insert,keyDuplicate,exist,batched"]}
{"id": "C13", "title": "Writes are all-or-nothing", "statement": "Insert, Update, Upsert, Delete, UnsafeInsert and UnsafeUpdate called without a batch either apply completely or leave the database unchanged, whatever the reason of failure (duplicate, missing row, serializer error, context cancelled at any row, commit failure, crash at any point).", "quantifier": "all inputs, all cancellation points, all crash points", "why_tests_cant": "every cancellation and crash point of every input", "anchors": ["table.go:Insert,Update,Upsert,Delete", "table_unsafe.go:UnsafeInsert,UnsafeUpdate", "batch.go:Commit"]}
{"id": "C14", "title": "Indexes always agree with the data", "statement": "After any sequence of Insert, Update, Upsert and Delete calls, every index contains exactly one entry per stored record accepted by its filter, under that record's index key, and no other entry.", "quantifier": "all histories of operations, all tables with any number of partial/ordered indexes", "why_tests_cant": "unbounded histories", "anchors": ["index.go:OnInsert,OnUpdate,OnDelete", "table.go:Insert,Update,Upsert,Delete"]}
{"id": "C15", "title": "Update replaces exactly the given rows", "statement": "Update succeeds iff all rows exist; afterwards each given key holds the given record (the last given one if a key is repeated, when the sort keeps equal keys in order) and nothing else changed.", "quantifier": "all tables, contents, row lists", "why_tests_cant": "unbounded lists, repeated keys", "anchors": ["table.go:Update"]}
{"id": "C16", "title": "Upsert folds onConflict per key", "statement": "Upsert stores, for every key, the result of folding onConflict over the stored record (if any) and the given records of that key in order; all other rows are unchanged and the indexes agree with the data.", "quantifier": "all tables, contents, row lists, conflict functions", "why_tests_cant": "repeated keys in unsorted order", "anchors": ["table.go:Upsert"]}
{"id": "C17", "title": "Delete removes the row and its index entries", "statement": "After Delete of a record its primary key is absent and no index contains an entry for it; other rows are unchanged.", "quantifier": "all tables, contents, records passed to Delete", "why_tests_cant": "depends on the record passed, not only on its key", "anchors": ["table.go:Delete", "index.go:OnDelete"]}
{"id": "C18", "title": "Chunking and index iteration order are invisible", "statement": "The result of a write does not depend on the internal chunk size of 5000, on the permutation the (unstable) sort picks, nor on the random order in which Go iterates over the table's indexes.", "quantifier": "all chunk sizes, all permutations, all sort results", "why_tests_cant": "nondeterminism of map iteration and of sort", "anchors": ["table.go:batched,sortKeys,Insert,Update,Upsert"]}
{"id": "C19", "title": "A batch is invisible until committed, then applied atomically", "statement": "Operations given a batch do not change what reads without the batch return; reads with a read-write batch see the batch's own writes; Commit makes the database equal to what the batch view showed (if nothing else was committed in between).", "quantifier": "all histories on a batch", "why_tests_cant": "unbounded histories", "anchors": ["batch.go", "table.go:Insert,Get,Exist", "bond.go:Get,Iter"]}
{"id": "C20", "title": "Get with several points is positional", "statement": "Get(NewSelectorPoints(p1..pn)) returns n results, the i-th being the stored record with the primary key of pi, or the nil value if there is none, for any order and repetition of points.", "quantifier": "all tables, contents, point lists", "why_tests_cant": "unbounded lists, repeated and unsorted points", "anchors": ["table.go:Get,get,sortKeys,reorderValues"]}
{"id": "C21", "title": "Get and Exist return the latest committed write", "statement": "GetPoint(r) returns the record most recently written for r's primary key, or ErrNotFound iff the last operation on it was a delete or there was none; Exist agrees.", "quantifier": "all histories", "why_tests_cant": "unbounded histories", "anchors": ["table.go:Get,GetPoint,Exist"]}
{"id": "C22", "title": "Tables are isolated", "statement": "No operation on one table changes any row or index entry of another table, any user-space key or the version key.", "quantifier": "all operations, tables", "why_tests_cant": "infinite key space", "anchors": ["table.go", "keys.go:KeyEncodeRaw"]}
{"id": "C23", "title": "Scan returns every row once, in primary-key order", "statement": "Scan/ScanForEach return all stored rows of the table exactly once, in bytewise order of the primary key (reverse: in reverse order).", "quantifier": "all table contents, all primary key functions", "why_tests_cant": "depends on the key of the empty record", "anchors": ["table.go:Scan,ScanForEach,scanForEachPrimaryIndex"]}
{"id": "C24", "title": "Index scans return each matching row once, in index order", "statement": "ScanIndex with a point selector returns the stored rows accepted by the index filter that lie at or after the selector in its index group, once each, ordered by index order then primary key, with the current record content.", "quantifier": "all table contents, indexes, selectors", "why_tests_cant": "unbounded contents", "anchors": ["table.go:scanForEachSecondaryIndex", "index.go:Iter"]}
{"id": "C25", "title": "Prefetching is invisible", "statement": "For callbacks that fetch every row (after possibly skipping an initial run of rows), a secondary-index scan calls the callback once per row in order with that row's record, whatever ScanPrefetchSize is, and stops when asked.", "quantifier": "all contents, prefetch sizes >0, callbacks", "why_tests_cant": "interaction of two nested loops with callback behaviour", "anchors": ["table.go:scanForEachSecondaryIndex"]}
{"id": "C26", "title": "Point selectors select only the point", "statement": "A point selector on a secondary index returns only rows whose index value equals the selector's, and never misses such a row at or after the selector.", "quantifier": "all index values", "why_tests_cant": "index values ending in 0xFF bytes", "anchors": ["index.go:Iter", "table.go:keySuccessor"]}
{"id": "C27", "title": "Range selectors are inclusive and exact", "statement": "A range selector returns exactly the rows between the two bound rows, both included.", "quantifier": "all bounds and contents", "why_tests_cant": "bounds ending in 0xFF; keys extending a bound", "anchors": ["index.go:Iter", "table.go:keySuccessor"]}
{"id": "C28", "title": "Multi-selectors are the concatenation of their parts", "statement": "Scanning with SelectorPoints/SelectorRanges yields the concatenation of the parts' results in the given order (reverse: the exact reverse), for any mixture of empty and non-empty parts; the cursor behaves as one cursor over the concatenation under any sequence of First/Last/Next/Prev.", "quantifier": "all part lists, all cursor call sequences", "why_tests_cant": "unbounded call sequences, empty parts", "anchors": ["iter.go:_iteratorMulti"]}
{"id": "C29", "title": "Reverse scans are exact reversals", "statement": "A scan or query without After executed in reverse visits exactly the rows of the forward scan in the opposite order.", "quantifier": "all contents, selectors", "why_tests_cant": "unbounded contents", "anchors": ["table.go:scanForEachPrimaryIndex,scanForEachSecondaryIndex", "iter.go:Last,Prev"]}
{"id": "C30", "title": "Query filter, offset and limit", "statement": "Query without Order returns: selected rows in index order, filtered, then Offset rows dropped, then at most Limit rows (Limit 0 = all).", "quantifier": "all contents, filters, offsets, limits below 2^63 (larger ones are C55)", "why_tests_cant": "early termination logic and its interaction with filters", "anchors": ["query.go:executeQuery"]}
{"id": "C31", "title": "Query order", "statement": "Query with Order returns the filtered selected rows sorted by the given less function, then offset and limit applied to the sorted list.", "quantifier": "all contents, strict weak orders, offsets, limits < 2^63", "why_tests_cant": "unbounded contents", "anchors": ["query.go:executeQuery"]}
{"id": "C32", "title": "Cursor pagination loses and repeats nothing", "statement": "Reading a point- or range-selected query page by page with Limit n and After(last row of the previous page) yields exactly the rows of the unpaged query, in order, each once.", "quantifier": "all contents, page sizes >0", "why_tests_cant": "unbounded number of pages", "anchors": ["query.go:selectorWithAfter,executeQuery"]}
{"id": "C33", "title": "Intersect is set intersection", "statement": "A query with Intersects returns exactly the rows selected by all its parts, once each, in primary-key order, then filter/order/offset/limit.", "quantifier": "all contents, any number of parts", "why_tests_cant": "unbounded contents and parts", "anchors": ["index.go:Intersect", "query.go:executeIntersect"]}
{"id": "C34", "title": "Intersect inside a batch", "statement": "An intersect query executed with a read-write batch sees the batch's writes, like every other query.", "quantifier": "all batches", "why_tests_cant": "needs a row present only in the batch", "anchors": ["query.go:executeIntersect"]}
{"id": "C35", "title": "Scans terminate", "statement": "ScanIndexForEach terminates for every callback and calls it at most once per row.", "quantifier": "all callbacks, contents", "why_tests_cant": "divergence cannot be observed by a test that returns", "anchors": ["table.go:scanForEachSecondaryIndex"]}
{"id": "C36", "title": "ReIndex repairs", "statement": "After ReIndex(idxs) each of these indexes agrees exactly with the data, whatever it contained before, including after a crash at any point of an earlier ReIndex; the data itself is never changed.", "quantifier": "all contents, all crash points", "why_tests_cant": "every crash point; stale entries", "anchors": ["table.go:ReIndex,AddIndex"]}
{"id": "C37", "title": "A rejected AddIndex leaves the table usable", "statement": "AddIndex with an already registered IndexID returns an error and the table can still be used.", "quantifier": "all index lists", "why_tests_cant": "a lock leak shows only in later calls", "anchors": ["table.go:AddIndex"]}
{"id": "C38", "title": "A filter never changes results", "statement": "With any filter that has no false negatives on added keys, Exist, Get, Insert and Upsert on a table whose filter was attached from the start behave exactly as without filter.", "quantifier": "all histories, all filters", "why_tests_cant": "unbounded histories", "anchors": ["filter.go", "table.go:exist,Exist,Get,get,Insert,Upsert"]}
{"id": "C39", "title": "The bloom filter has no false negatives", "statement": "After Add(k), MayContain(k) is true forever, whatever is added, saved or loaded afterwards, for any number of buckets and any schedule of concurrent Adds.", "quantifier": "all histories and schedules", "why_tests_cant": "lost updates need a particular interleaving", "anchors": ["bloom/bloom_filter.go:Add,MayContain"]}
{"id": "C40", "title": "Filter save/load round trip and rebuild", "statement": "After Save by one instance, Initialize of a new instance with the same configuration answers MayContain=true for every key that was added; when the stored configuration differs or is missing or partial, Initialize rebuilds it from the scanned tables.", "quantifier": "all contents, bucket counts, partial stores", "why_tests_cant": "unbounded contents, partial writes", "anchors": ["bloom/bloom_filter.go:Save,Load,Clear", "filter.go:FilterInitialize"]}
{"id": "C41", "title": "The filter is valid after a crash", "statement": "After a crash and reopen, the initialized filter has no false negative for any row in the database.", "quantifier": "all crash points", "why_tests_cant": "crash between row commit and filter save", "anchors": ["filter.go:FilterInitialize", "bloom/bloom_filter.go:Load"]}
{"id": "C42", "title": "Batch callbacks", "statement": "OnCommit callbacks run before the commit and an error from one prevents the commit; OnCommitted callbacks run exactly once per successful commit and only after it; OnClose callbacks run when the batch is closed; committing an empty batch runs none.", "quantifier": "all callback lists, all call histories", "why_tests_cant": "histories of commit/close/reset", "anchors": ["batch.go"]}
{"id": "C43", "title": "Sequence numbers are unique and increasing", "statement": "NumberSequence.Next never returns the same id twice and ids increase, as long as the clock does not go backwards and it does not return an error; Timestamp and SequenceNumber decompose the id.", "quantifier": "all histories of clock readings, any number of calls", "why_tests_cant": "2^24 calls per second, clock behaviour", "anchors": ["helpers.go"]}
{"id": "C44", "title": "SyncBatch serializes access", "statement": "At most one function runs inside WithSync at any time, under any schedule, and each call's function runs exactly once.", "quantifier": "all schedules of any number of goroutines", "why_tests_cant": "schedules", "anchors": ["sync.go"]}
{"id": "C45", "title": "Buffer pools never hand out a buffer twice", "statement": "A buffer obtained from a PreAllocatedPool is not handed out again before it is put back, and the preallocated list never exceeds its size.", "quantifier": "all Get/Put histories in which clients put back only what they hold", "why_tests_cant": "unbounded histories and schedules", "anchors": ["utils/sync.go"]}
{"id": "C46", "title": "Dump then Restore reproduces the tables", "statement": "Restoring a dump with index into an empty database reproduces every row and index entry of the dumped tables exactly and nothing else (any number of SST files per table).", "quantifier": "all contents, table lists, file size thresholds", "why_tests_cant": "unbounded contents, roll-over points", "anchors": ["bond.go:Dump,Restore,iteratorToSST"]}
{"id": "C47", "title": "Restore touches only the requested tables", "statement": "Restore(tables, withIndex) ingests the files of exactly the requested tables (and their index files iff withIndex).", "quantifier": "all table id sets, all dump directory paths", "why_tests_cant": "table ids that are decimal prefixes of others; directory names", "anchors": ["bond.go:Restore"]}
{"id": "C48", "title": "Dump finds every index", "statement": "The set of index ids exported for a table is exactly the set of non-primary index ids having at least one entry (nobody writing meanwhile).", "quantifier": "all database contents", "why_tests_cant": "unbounded contents, id 255", "anchors": ["bond.go:getIndexIDS"]}
{"id": "C49", "title": "Opening with a wrong version fails, with the right one succeeds", "statement": "Open succeeds on a fresh directory and on reopening with the same pebble format version; it refuses a directory recorded with a different format or data version, and recorded versions do not change on refused opens.", "quantifier": "all recorded versions, all sequences of opens", "why_tests_cant": "histories of opens", "anchors": ["bond.go:Open", "version.go"]}
{"id": "C50", "title": "Condition combinators", "statement": "cond.And/Or/Not/Eq/Gt/Gte/Lt/Lte evaluate as the corresponding logical formula for any nesting; And() is true, Or() is false.", "quantifier": "all condition trees, all records", "why_tests_cant": "unbounded nesting", "anchors": ["cond/cond.go"]}
{"id": "C51", "title": "Concurrent writers on different keys behave sequentially", "statement": "Any interleaving of concurrent calls writing pairwise disjoint primary keys gives the same database as running them one after the other in commit order, and indexes agree with the data.", "quantifier": "all schedules, any number of writers", "why_tests_cant": "schedules", "anchors": ["table.go:Insert,Update,Upsert,Delete"]}
{"id": "C52", "title": "Concurrent Inserts of one key", "statement": "Of several concurrent Inserts of the same key at most one succeeds.", "quantifier": "all schedules", "why_tests_cant": "schedules", "anchors": ["table.go:Insert"]}
{"id": "C53", "title": "Unsafe operations are equivalent under their preconditions", "statement": "UnsafeInsert of new keys equals Insert; UnsafeUpdate given the stored records equals Update.", "quantifier": "all contents and row lists meeting the preconditions", "why_tests_cant": "unbounded lists", "anchors": ["table_unsafe.go"]}
{"id": "C54", "title": "TableAnyScanner forwards everything", "statement": "Scanning through TableAnyScanner returns the same rows as scanning the table, also when a batch is given.", "quantifier": "all contents, batches", "why_tests_cant": "batch forwarding", "anchors": ["table_utils.go"]}
{"id": "C55", "title": "Extreme offsets and limits are safe", "statement": "Offset and Limit accept every uint64 without panicking and a huge limit means no limit.", "quantifier": "all uint64 offsets and limits", "why_tests_cant": "integer conversion at 2^63", "anchors": ["query.go:executeQuery,executeIntersect"]}
{"id": "C56", "title": "A query is a value: building on it changes no other query", "statement": "The methods of a query return a new query and leave their receiver as it is. A program may keep a query, derive others from it with any calls in any order, and pass queries as parts to Intersects: each of its query variables answers, whenever it is executed, as the calls that made it say, whatever was built from it or beside it before or after.", "quantifier": "all programs of query calls on any number of variables, all growth policies of Go slices, all tables, databases and batches", "why_tests_cant": "Two derived queries interfere only if a list of parts has room to spare when the second is made, which depends on the number of Intersects calls before and on how Go grows slices; tests build each query once.", "anchors": ["query.go:27-41", "query.go:43-55", "query.go:74-128", "query.go:131-148", "query.go:150-153", "query.go:393-428"]}
{"id": "C57", "title": "FS filter storer is a faithful store", "statement": "FilterFSStorer.DeleteRange(start,end) removes exactly the keys in [start,end), and different keys never share a file.", "quantifier": "all keys, all directory contents", "why_tests_cant": "infinite key space", "anchors": ["filters/filter_fs_storer.go"]}
{"id": "C58", "title": "Format migration is crash-safe", "statement": "A crash during MigratePebbleFormatVersion leaves the database openable with either the old or the new version.", "quantifier": "all crash points", "why_tests_cant": "crash points", "anchors": ["bond.go:MigratePebbleFormatVersion,Open"]}
{"id": "C59", "title": "Context batches", "statement": "ContextRetrieveBatch(ContextWithBatch(ctx,b)) = b, the innermost wins, and the sync batch slot is independent.", "quantifier": "all nestings", "why_tests_cant": "unbounded nesting", "anchors": ["context.go"]}
{"id": "C60", "title": "Results do not depend on what was decoded before", "statement": "Update and Upsert see, for each row, exactly the stored record, not remains of the row processed before it.", "quantifier": "all row lists, all serializers that decode correctly into a fresh value", "why_tests_cant": "needs rows with absent fields in a particular order", "anchors": ["table.go:Update,Upsert (var oldTr T)"]}
{"id": "C61", "title": "A failed call leaves its batch unchanged", "statement": "A write call given a batch that returns an error has added nothing to the batch.", "quantifier": "all calls, batches, failure reasons", "why_tests_cant": "every failure position in lists of any length", "anchors": ["table.go:Insert,Update,Upsert,Delete", "table_unsafe.go"]}
{"id": "C62", "title": "A scan callback may write to the scanned table", "statement": "A callback of an index scan may delete or change rows of the scanned table: every other selected row is still visited exactly once, in order, with its current record, no row is visited twice, and the scan does not fail.", "quantifier": "all contents, callbacks, prefetch sizes", "why_tests_cant": "interaction of prefetching with writes between any two callback calls", "anchors": ["table.go:scanForEachSecondaryIndex"]}
{"id": "C63", "title": "Batch ids are unique", "statement": "Two batches created or reset during the life of a process have different IDs, as long as the clock does not go backwards.", "quantifier": "all histories of creations and resets", "why_tests_cant": "needs more than 2^24 batches in one second", "anchors": ["batch.go:newBatch,Reset", "helpers.go:Next"]}
{"id": "C64", "title": "A panicking function does not block a SyncBatch", "statement": "If a function given to WithSync panics and the caller recovers, later WithSync calls on the same batch still run.", "quantifier": "all schedules, all numbers of calls", "why_tests_cant": "needs a panic followed by another call; a test would hang", "anchors": ["sync.go"]}
{"id": "C65", "title": "A Save to files that is cut short does not prevent the next start", "statement": "If the process dies at any point of saving a bloom filter through the file based storer, the next Initialize does not panic; it loads or rebuilds the filter.", "quantifier": "all crash points inside Save, all filter contents", "why_tests_cant": "torn writes are not produced by tests", "anchors": ["filters/filter_fs_storer.go:Set", "bloom/bloom_filter.go:Load,Save"]}
{"id": "C66", "title": "Dump closes the iterators it opens", "statement": "After Dump has returned, no iterator opened by it is open (closing the database with open iterators fails).", "quantifier": "all table lists, with and without indexes", "why_tests_cant": "a leak has no effect on the result of Dump", "anchors": ["bond.go:Dump,getIndexIDS,iteratorToSST"]}
{"id": "C67", "title": "A dump is the state of one moment", "statement": "Dump run while others write exports the rows and index entries as they were at one moment: restoring it gives tables whose indexes agree with their rows.", "quantifier": "all interleavings of writes with Dump", "why_tests_cant": "schedules", "anchors": ["bond.go:Dump,getIndexIDS"]}
{"id": "C68", "title": "A failed or interrupted Open can be repeated", "statement": "If Open fails, or the process dies during it, a later Open with the version the directory was made with succeeds; in particular nothing stays locked in the process after a refused Open.", "quantifier": "all points of failure, all recorded versions", "why_tests_cant": "needs a crash at a chosen point", "anchors": ["bond.go:Open"]}
{"id": "C69", "title": "Reads through a batch see the rows or fail", "statement": "A read that is given a batch answers from the committed rows together with the writes in the batch, or returns an error that does not mean that the row is missing.", "quantifier": "all batches, all contents", "why_tests_cant": "both kinds of batches on every content", "anchors": ["table.go:Exist,GetPoint,Get,ScanIndex", "bond.go:Get,Iter", "batch.go:Get,Iter"]}
{"id": "C70", "title": "Cursor pagination with several points or ranges", "statement": "Reading a query that selects several points or several ranges page by page with Limit n and After(last row of the previous page) yields exactly the rows of the unpaged query, in order, each once, and ends.", "quantifier": "all contents, lists of points and ranges, page sizes >0", "why_tests_cant": "unbounded number of pages and selected parts", "anchors": ["query.go:selectorWithAfter,executeQuery"]}
{"id": "C71", "title": "Reads stop when the context is done", "statement": "Once the context is done, a scan or query calls no callback for a further row and returns the context's error.", "quantifier": "all contents, indexes, moments", "why_tests_cant": "every moment of cancellation", "anchors": ["table.go:ScanIndexForEach", "query.go:Execute"]}
{"id": "C72", "title": "A filter that is not ready denies nothing", "statement": "Until its initialisation has succeeded, a filter that is initialised later answers maybe for every key, and saving it fails and keeps what was saved before.", "quantifier": "all sequences of calls", "why_tests_cant": "all sequences of failed initialisations, adds and saves", "anchors": ["filter.go:FilterInitializable"]}
{"id": "C73", "title": "Restore refuses what it cannot restore", "statement": "Restore succeeds exactly if the dump has the current data version, a directory for every requested table and the files taken do not overlap; whenever it returns an error the database and the dump are unchanged.", "quantifier": "all dumps, versions, table lists, databases", "why_tests_cant": "versions and directory contents are unbounded", "anchors": ["bond.go:Restore"]}
{"id": "C74", "title": "A dump can be restored again", "statement": "After a successful Restore, the same dump can be restored into another database (or other tables of it) with the result it would have had the first time.", "quantifier": "all dumps, table lists, databases", "why_tests_cant": "tests restore a dump once; the effect is on the directory", "anchors": ["bond.go:Restore"]}
{"id": "C75", "title": "Results of the file based filter storer can be trusted", "statement": "If Set returns nil, Get returns exactly the value; if it returns an error, other keys keep their values; if DeleteRange returns nil, all keys from the start on are gone; keys that have no file name are refused by Set and Get.", "quantifier": "all keys, values, directories, failures at any operation", "why_tests_cant": "failing file operations and torn writes", "anchors": ["filters/filter_fs_storer.go"]}
{"id": "C76", "title": "ReIndex while the table is written", "statement": "ReIndex (and AddIndex with reindexing) may run while other calls write the table: when all have finished successfully, the rebuilt indexes agree with the rows, no entry is missing and none is stale, and the rows and other indexes are those the calls produced.", "quantifier": "all tables, all contents, all interleavings of ReIndex's deletions, snapshot and commits with any write calls, all failures", "why_tests_cant": "needs a write in the window between ReIndex's snapshot and a later commit; tests reindex a quiet table", "anchors": ["table.go:ReIndex", "table.go:AddIndex"]}
{"id": "C77", "title": "A nil batch means no batch", "statement": "Every table method and query called with a nil batch (what ContextRetrieveBatch answers for a context without a batch) behaves as without the batch argument.", "quantifier": "all methods, contents, selectors, callbacks", "why_tests_cant": "tests pass a batch or leave it out", "anchors": ["table.go:optBatch", "index.go:Iter", "query.go:Execute", "context.go:ContextRetrieveBatch"]}
{"id": "C78", "title": "Serializers encode the record they are given", "statement": "In every history of calls on a serializer that reuses buffers, each result is the encoding of the record given to that call, and stays so until its buffer is released.", "quantifier": "all serializers of serializers/ with and without pools, all histories of serialize and release calls, all buffers the pool may hand out", "why_tests_cant": "depends on which buffer the pool hands out", "anchors": ["serializers/msgp.go", "serializers/msgp_gen.go", "serializers/cbor.go"]}
{"id": "C79", "title": "A scan shows the table at one moment", "statement": "While others write, a scan or query visits exactly the rows that match at one moment during the scan, with their records of that moment.", "quantifier": "all indexes, selectors, callbacks, directions, all contents at all moments, all moments at which the parts of the iterator are opened", "why_tests_cant": "needs a write between two steps of a scan; tests scan quiet tables", "anchors": ["table.go:ScanIndexForEach", "iter.go:_iteratorMulti", "query.go:Execute"]}
{"id": "C80", "title": "The key bytes stay those of the row during the callback", "statement": "During ScanForEach and ScanIndexForEach the key bytes given to the callback are those of the callback's row for as long as the callback runs, also after it called lazy.Get.", "quantifier": "All tables, indexes, selectors, directions, prefetch sizes, contents, callbacks (reading the key and calling Get any number of times in any order), and all contents an iterator's memory may have after it moved.", "why_tests_cant": "The bytes are the iterator's memory and what they hold after the iterator moved depends on the storage engine's block layout; a test sees the old bytes by luck, or only compares records.", "anchors": ["table.go:1062", "table.go:1128-1156", "table.go:1158-1179", "query.go:183-198"]}
{"id": "C81", "title": "A failed read is reported, not taken for a missing row", "statement": "If reading from the storage fails during a call (an iterator or a point read returns an error), the call returns an error; a call that returns without error has the result and the effect it has when no read fails.", "quantifier": "All tables, contents, batches, directions, callbacks, and all ways in which reads may fail (any iterator after any number of entries, any seek, any point read).", "why_tests_cant": "Tests run on a healthy file system; a storage iterator that fails looks exactly like one at its end unless its error is asked for.", "anchors": ["iter.go:72-190", "table.go:818-834", "table.go:804-815", "table.go:967-974", "table.go:265-336", "table.go:1055-1070", "table.go:1158-1193", "index.go:355-403", "bond.go:525-558"]}
{"id": "C82", "title": "Keys and their bytes are classified alike", "statement": "For every key the library writes: ToDataKey then KeyEncode equals ToDataKeyBytes of the bytes and is the key of the row; ToKeyPrefix encodes to exactly the bytes up to Split; IsDataKey and IsIndexKey say of the decoded key what they say of the bytes, and tell rows from index entries.", "quantifier": "all keys, tables, indexes, index values", "why_tests_cant": "infinite key space, in particular empty index values", "anchors": ["keys.go:ToDataKey,ToKeyPrefix,IsDataKey,IsIndexKey,IsKeyPrefix,ToDataKeyBytes"]}
{"id": "C83", "title": "Every call gives back what it takes", "statement": "However a call ends, the pebble iterators, batches, closers and pooled buffers it took are closed or put back, exactly once, none is used afterwards, and the caller's batch is left open; an iterator made by Index.Iter holds at most one pebble iterator at a time and gives everything back on Close.", "quantifier": "all calls, all outcomes of every storage operation, serializer and user function, any number of rows, chunks, indexes, points; all sequences of iterator calls", "why_tests_cant": "every error path and every interleaving of empty and non-empty parts would have to be forced", "anchors": ["table.go:Insert,Update,Delete,Upsert,Exist,Get,get,scanForEachPrimaryIndex,scanForEachSecondaryIndex,ReIndex", "table_unsafe.go:UnsafeUpdate,UnsafeInsert", "index.go:Iter,Intersect", "iter.go:Close,_iteratorMulti", "query.go:executeQuery,executeIntersect"]}
{"id": "C84", "title": "Inspect queries return what they ask for", "statement": "Query of the inspect package returns, in index order and at most Limit of them, exactly the rows whose index value is that of the selector, starting at the selector's record, and whose fields have the values given in the filter; unknown tables, indexes and selector fields are errors; everything Indexes and EntryFields list can be used.", "quantifier": "all tables, contents, filters, selectors, all orders in which Go may visit a map", "why_tests_cant": "conversions between values and fields depend on types, sizes and values in ways samples do not cover; map order is random", "anchors": ["inspect/inspect.go:Query,findTableAndIndexInfo,setFields,Indexes,EntryFields", "utils/reflect.go:MakeValue"]}
{"id": "C85", "title": "Paging with inspect rows as cursor visits every row once", "statement": "Using the last row that Query returned, as it was returned, as After of the next request until a page is empty gives every row of the request exactly once, in order, in pages of at most Limit rows: in the process of the database and through the remote client.", "quantifier": "all tables, contents, requests, limits, local and remote", "why_tests_cant": "whether a row survives the round trip through JSON and reflection depends on its values", "anchors": ["inspect/inspect.go:Query,setFields", "inspect/inspect_handler.go:buildQueryHandler", "inspect/inspect_handler_client.go:Query", "query.go:After"]}
{"id": "C86", "title": "Open batches on different rows do not interfere", "statement": "While several batches are open and are filled by calls on a table, interleaved with calls without batch, commits of other batches and writes to other tables, then as long as the rows of a call are in no other open batch every batch behaves as if all its calls were made at the moment of its commit: the same database, the same results of all calls and commits, and with calls within the documented use every index agrees with the rows, reads through an open batch show the committed rows changed by the calls of that batch, and reads without it the committed rows.", "quantifier": "all tables, filters, batches of both kinds, calls, interleavings, failing calls and commits", "why_tests_cant": "the interleavings of calls and commits are unbounded, and the filter is shared by all of them", "anchors": ["table.go:Insert,Update,Upsert,Delete", "table_unsafe.go", "batch.go:Commit,Close,Reset", "bond.go:Batch"]}
{"id": "C87", "title": "A crash loses nothing that was promised and leaves every index in agreement", "statement": "When the process dies at any moment, also in the middle of a call or commit, and the database is opened again, it is as it was at some earlier moment, and everything that wrote something and was to be durable (calls without batch, commits with Sync) had happened by then; with calls within the documented use the table stores exactly the rows of what had happened by that moment, and every index agrees with them. This holds over any number of crashes.", "quantifier": "all tables, calls, batches, interleavings, write options, crash points, numbers of unsynced commits found, sequences of lives", "why_tests_cant": "crash points and the number of unsynced commits found cannot be enumerated by tests", "anchors": ["table.go:Insert,Update,Upsert,Delete", "table_unsafe.go", "batch.go:Commit", "bond.go:pebbleWriteOptions,Open"]}
{"id": "C88", "title": "The remote inspector answers as the inspector of the server", "statement": "A client made with NewInspectRemote for the address of a server that runs NewInspectHandler lists the tables, indexes and fields that the inspector of the server lists, returns the rows that its query returns (as JSON gives them), and where that returns an error fails with that error as the reason; other addresses are answered with 404.", "quantifier": "all addresses, headers, databases, tables, requests", "why_tests_cant": "addresses, headers and requests are unbounded", "anchors": ["inspect/inspect_handler.go:NewInspectHandler", "inspect/inspect_handler_client.go:NewInspectRemote,Tables,Indexes,EntryFields,Query"]}
{"id": "C89", "title": "The command line does what its arguments say", "statement": "Headers given as name=value are sent with that name and value; a query without index uses the primary index and without limit returns at most 30 rows; dump and restore work on the tables whose numbers are given and on no others; a command that fails exits with a status other than 0.", "quantifier": "all argument lists, databases, dumps", "why_tests_cant": "argument lists are unbounded", "anchors": ["inspect/inspect_cli.go:NewInspectCLI", "cmd/bond-cli/bond-cli.go:main", "cmd/bond-cli/dump.go", "cmd/bond-cli/restore.go"]}
{"id": "C90", "title": "The supplied serializers work for the record types tables are made of", "statement": "With the generated msgpack serializer and with the protobuf serializer, a row put into a table is stored as the encoding of its message and read back as the same message, whether the table is declared over the message struct or over a pointer to it, and whatever the object read into held before.", "quantifier": "all message types and values, numbers of stars in the record type, configurations of Encoder and Decoder", "why_tests_cant": "types and values are unbounded; the choice between interfaces is made by reflection at run time", "anchors": ["serializers/msgp_gen.go:Serialize", "serializers/msgp_gen.go:Deserialize", "serializers/protobuf.go:Serialize", "serializers/protobuf.go:Deserialize", "table.go:NewTable"]}
{"id": "C91", "title": "A row that cannot be decoded is reported, and does no other harm", "statement": "When the stored bytes of some rows cannot be decoded, every Get, scan, query, Update and Upsert that has to read such a row fails and changes nothing; scans return the rows before it; all other calls do exactly what they would do without the damage; deleting the damaged rows repairs the table; a callback may skip such a row and go on; rebuilding an index loses no other rows.", "quantifier": "all tables, sets of damaged rows, selectors, directions, callbacks, write calls", "why_tests_cant": "which rows are damaged, where they lie in a scan and in its prefetched blocks is unbounded", "anchors": ["table.go:ScanIndexForEach", "table.go:Get", "table.go:Update", "table.go:Upsert", "table.go:Delete", "table.go:ReIndex", "query.go:executeQuery"]}
{"id": "C92", "title": "Tables, filters and keys of the user share a database without harm", "statement": "Any number of tables, of filters that save themselves in the database, and of keys written by the user below the reserved ones do not affect each other: every filter answers after any sequence of calls as if it were alone, no table loses or gains a row, and the version of the database stays readable.", "quantifier": "all numbers of filters, key prefixes, tables and sequences of calls", "why_tests_cant": "collisions depend on the choice of prefixes, bucket numbers and table numbers", "anchors": ["bloom/bloom_filter.go:NewBloomFilter", "bloom/bloom_filter.go:Save", "bloom/bloom_filter.go:Clear", "keys.go:NewUserKey", "version.go:bondDataVersionKey"]}
{"id": "C93", "title": "After Restore the tables work as if the rows had been written to them", "statement": "After Restore each restored table holds the rows of the dump on top of the rows it had, every index agrees with them, and every read and write treats the restored rows as stored.", "quantifier": "all dumps, databases restored into, tables and indexes", "why_tests_cant": "which rows overlap, and how their index values differ, is unbounded", "anchors": ["bond.go:Restore", "table.go:ReIndex", "filter.go:FilterInitialize"]}
{"id": "C94", "title": "Transactions in several goroutines at the same time are serialisable", "statement": "If several goroutines fill their own batches with table calls and commit or close them, or make calls without a batch, on a table without any lock held by the caller, and no row key is used by two of them, then whatever the interleaving the database and all results are those of carrying out the transactions and calls one after the other in the order in which they ended.", "quantifier": "all numbers of goroutines, calls, batches of either kind, failures and interleavings of the reads and writes inside the calls", "why_tests_cant": "the number of interleavings is unbounded", "anchors": ["table.go:Insert", "table.go:Update", "table.go:Upsert", "table.go:Delete", "batch.go:Commit"]}
{"id": "C95", "title": "Rows written while the filter is initialised are not lost", "statement": "If a filter behind FilterInitializable is initialised (loaded, or filled by scanning the tables) by one goroutine while others fill and commit batches or make calls on the table, then at every moment before, during and after the initialisation Exist and Get find exactly what they would find without a filter, and what is stored and returned is as without initialisation.", "quantifier": "all filters that never forget a key, numbers of goroutines, calls, batches, failures, repeated initialisations and interleavings of all their actions", "why_tests_cant": "the number of interleavings is unbounded, and a lost row is seen only if a commit falls between two particular actions of the initialisation", "anchors": ["filter.go:FilterInitializable", "filter.go:Initialize", "table.go:ScanForEach", "table.go:Insert", "batch.go:Commit"]}
{"id": "C96", "title": "A failed call on a batch leaves rows and indexes in agreement", "statement": "If a write call on a read-write batch fails, the batch holds what the same call with a part of its rows would have written, each of these rows with all its index entries, and nothing of the others; so the batch may be used on or committed, and at every moment the rows stored agree with the indexes, also as seen through open batches.", "quantifier": "all tables, calls, batches, failure positions and reasons, and histories of batches with any number of failed calls", "why_tests_cant": "every failure position in lists of any length, followed by any use of the batch", "anchors": ["table.go:Insert,Update,Upsert,Delete", "table_unsafe.go", "batch.go:Commit"]}
{"id": "C97", "title": "A table behaves as a map with sorted views", "statement": "One goroutine uses a table with calls without batch and with transactions (a read-write batch that is filled, read through, and committed or closed), one after the other, each call within the documented use given the answers so far. Then every call returns, and all answers are those of a map from primary keys to records: a write call changes the map by its rows or, if it fails, not at all (in a transaction: by a part of its rows); which undisturbed calls fail, and with which error, depends on the map only; Get, Get of many and Exist look up; scans and queries return the records of the map in the order of the index, filtered, ordered, after the given row and cut as asked; a transaction is a copy of the map that replaces the map at its commit and vanishes when it is closed.", "quantifier": "all tables with any indexes and filters, all programs of any length made of calls, begin, commit and close, all contexts and commit outcomes, all sort implementations", "why_tests_cant": "A test runs a few programs and compares a few answers; that every answer of every program is determined by the map, whatever indexes, filters, transactions and failures came before, is a statement about all programs.", "anchors": ["table.go:338-1000", "query.go:131-380", "batch.go:97-152", "table_scan.go:1", "filter.go:1"]}
{"id": "C98", "title": "The key comparer fulfils the contract of the store", "statement": "For every key that the library makes (rows, index entries, bounds, user keys made with NewUserKey, the data version key) the comparer installed in the database is well defined and satisfies what the store demands: the prefix it splits off is not longer than the key, the prefix of a prefix is itself, prefixes are ordered as the keys are, and keys with the same prefix are ordered by what follows. So an iterator of the database positioned with SeekPrefixGE visits exactly the entries with that prefix from the key on, in order: for an index, the entries of the rows with one index value.", "quantifier": "all table and index numbers, all index values, orders and primary keys of any length below 4 GiB, all database contents made of such keys", "why_tests_cant": "The store consults the comparer when it builds and reads its files, which tests with little data never reach; that the split agrees with the order for all pairs of keys is a statement about infinitely many pairs.", "anchors": ["keys.go:339-347", "bond.go:192", "options.go:48", "iter.go:22", "keys.go:155-163"]}
{"id": "C99", "title": "Several tables and user keys behave as independent maps under common transactions", "statement": "One goroutine uses a database with any number of tables of any record types, and keys of its own made with NewUserKey: calls on the tables, Get, Set, Delete and DeleteRange of its own keys, without batch or in a transaction (one read-write batch given to calls on all of them, which is committed or closed). Then every answer is that of one map per table and one map for the own keys: a call changes the map it is about and no other, in a transaction only the copy of it; a commit replaces all maps by their copies or, if it fails, none; closing the batch changes none.", "quantifier": "all numbers of tables, record types, indexes, filters and programs of any length, all outcomes of commits and contexts", "why_tests_cant": "Whether a call on one table shows in another, or a commit takes effect for some of the tables only, depends on keys, table numbers and histories without bound.", "anchors": ["bond.go:242-297", "batch.go:94-163", "table.go:338-1000", "query.go:131-380", "keys.go:155-163"]}
{"id": "C100", "title": "Restarts of the process do not change what a table with a bloom filter answers", "statement": "A process uses a table with a bloom filter (calls and transactions as in C97), saves the filter now and then, and ends and is started again any number of times; each start makes a new filter of the same configuration and initialises it from its store or, if nothing was stored, by scanning the table. If the filter was saved without error after the last write call before each end, or nothing of it was ever stored (and then no row is below the empty record), all calls are answered by one map from primary keys to records that no start changes; only an open transaction is lost. A start fails only if nothing is stored and the store cannot be cleared or the table not be scanned; Save fails only if a write to the store fails.", "quantifier": "all programs of any length with any number of starts, all hash functions, encodings and sizes of the filter, record types and indexes, failures of the store, the scan and commits", "why_tests_cant": "Whether a filter hides a row after a restart depends on the set of keys added before, the hash collisions, which buckets were written by which Save and which failed, and on the number of restarts; tests restart once with a handful of keys.", "anchors": ["filter.go:24-79", "bloom/bloom_filter.go:42-212", "table.go:338-1017", "bond.go:182-232"]}
{"id": "C101", "title": "Scans and queries return rows sorted by the declared fields, ascending or descending", "statement": "A table whose primary key function adds fields with a KeyBuilder (numbers, and perhaps a string as the last), and an index whose key function adds fields and whose order function orders by numeric fields, each ASC or DESC. A scan or query on the index for a record p returns exactly the rows whose index fields equal those of p and which are not before p, each once, sorted by the order fields as declared and then by the primary key fields (a reverse scan the other way round); a range returns the rows between its bounds in the order of index fields, order fields, primary key fields; Scan returns all rows by primary key fields. Expected for all values.", "quantifier": "all record types, field types and values, any number of fields and rows, all directions, pages and filters, with and without a batch", "why_tests_cant": "The order is the result of byte comparisons of encodings of tuples with complemented and negated fields, over unbounded values and rows.", "anchors": ["keys.go:16-145", "index.go:18-114", "index.go:405-422", "table.go:843-1000", "query.go:131-380"]}
{"id": "C102", "title": "Indexes may be added, rebuilt, left out and added again over the life of a table", "statement": "A table object starts without indexes. AddIndex registers indexes, with or without rebuilding them; ReIndex rebuilds registered ones; a new table object on the same database (a new process) registers its own selection. Between these, rows are written and read, with and without transactions. None of AddIndex, ReIndex, a failed or interrupted ReIndex, or a new table object changes a row or an entry of another index. All calls are answered as by one map, and every registered index is a sorted view of that map if, since its entries were last right (it was registered during all writes, or rebuilt without error, or table and index were empty), no rows were changed without it. ReIndex fails only if the store does.", "quantifier": "all sequences of calls, transactions, AddIndex, ReIndex, processes that end during ReIndex after any number of its durable operations, and new table objects; all index functions; all failures of the store", "why_tests_cant": "Tests add one index to one small table; that indexes stay right over every order of adding, rebuilding, dropping, failing and writing is a statement about all histories of a database.", "anchors": ["table.go:159", "table.go:248", "table.go:265", "table.go:298", "table.go:339"]}
{"id": "C103", "title": "A read whose context is cancelled is complete or returns an error", "statement": "If the context given to Scan, ScanIndex, ScanForEach, ScanIndexForEach, Get or a query is cancelled at any moment, the call returns exactly what it would have returned otherwise, or the error of the context. With the error a scan has delivered the first of its rows, in order, and a query delivers none. A short result without an error never happens.", "quantifier": "all tables and contents (also damaged ones), all selectors, indexes, prefetch sizes, callbacks (also those that write), all queries with filter, order, After, Offset, Limit and Intersects, all moments of cancellation", "why_tests_cant": "A test cancels at a few chosen moments; a silently truncated result depends on which loop notices the cancellation and when.", "anchors": ["table.go:1019", "table.go:1055", "table.go:1158", "query.go:155", "index.go:355", "table.go:848"]}
{"id": "C104", "title": "What a transaction reads fits the order of the transactions", "statement": "Several goroutines fill their own batches, read through them with Get and Exist between the calls, and commit or close them, at the same time. What each of them reads is what it would read at the same place if the transactions were carried out one after the other in the order in which they ended; in particular a row read twice is the same unless the transaction itself changed it, and never is only a part of another transaction seen. Get and Exist without batch see exactly the transactions that have ended.", "quantifier": "all numbers of goroutines, calls, batches of either kind, failures, moments of reading and interleavings", "why_tests_cant": "A test runs a handful of interleavings; which mixtures of old and new rows a reader can see is a statement about all schedules.", "anchors": ["bond.go:242", "batch.go:94", "table.go:791", "table.go:836", "batch.go:134"]}
{"id": "C105", "title": "A transaction sees the committed rows and its own changes, and nothing else", "statement": "While several goroutines fill their read-write batches and make calls on one table, every read call of one of them (Get, Exist, Scan, ScanIndex, Query with filter, order, offset, limit and After) answers as on a table that holds exactly the rows of the transactions committed so far and, if the call is given the goroutine's batch, the changes the goroutine has made in it; nothing of what other open transactions have done, complete or in the middle of a call, is visible, in rows or in indexes.", "quantifier": "All tables, contents, tasks without a common row key whose calls succeed, all interleavings of their actions, all moments between two calls, all read calls within their documented use, any context. The read call itself is one step (C91 is about writes during a scan).", "why_tests_cant": "The number of interleavings is exponential, and index entries or filter bits that leak from a half-done call show up only in scans made at one particular moment.", "anchors": ["table.go:338-789", "table.go:791-1193", "query.go:131-280", "batch.go:83-163"]}
{"id": "C106", "title": "Buffers that are used again never mix up keys or rows", "statement": "Insert, Update, Upsert, Delete, the unsafe writes, Get, Exist and index scans keep keys, index keys and values in buffers taken from pools and used again for every row, every slice of rows and every call. Whatever the buffers hold from earlier, however small or large they are, and however Go lets them grow, a call writes and returns the same keys and rows as if each key and value had memory of its own, and the buffers it returns to the pools do not overlap. A callback may use the key and row it is given like any Go value.", "quantifier": "all tables, rows, keys and values of all lengths, all memory contents, capacities and positions of the buffers that do not overlap, all growth policies, all numbers of rows per slice, callbacks that ask for the row at most once", "why_tests_cant": "An overwritten key shows only for particular combinations of key lengths, old capacities and number of rows, and depends on what earlier calls left in the pools.", "anchors": ["table.go:366", "table.go:941", "table.go:1097-1155", "table.go:1236", "index.go:292", "keys.go:223-312", "bond.go:209-220", "bond.go:342-376"]}
{"id": "C107", "title": "Every call on a query counts, in whatever order", "statement": "The calls With, Filter, Order, Reverse, Offset, Limit and After may be made in any order: calls of different kinds do not influence each other. A repeated With, Order, Offset, Limit or After replaces the earlier one, Reverse toggles, and Filter adds a condition: the query returns the page of the rows under its selector that satisfy all filters, sorted by the last Order.", "quantifier": "all sequences of calls, all tables, databases and batches (no After in the statement about answers)", "why_tests_cant": "There are unboundedly many sequences of calls; tests use each call once and in the usual order.", "anchors": ["query.go:74-128", "query.go:155-280"]}
{"id": "C108", "title": "Calls leave the caller's record objects alone", "statement": "In a table of pointer records a call only reads the records it is given: after Update, Upsert and Get every object the caller had before the call has the content it had (unless the caller's own conflict function writes it), the rows handed out by Get are new objects, and what is stored is what the same call stores for record values.", "quantifier": "all tables, rows, objects, databases, batches, filters and conflict functions; for Upsert: distinct keys, or rows in key order for what is stored", "why_tests_cant": "Whether an object is overwritten depends on which keys repeat, on their order in the call and on which rows are stored; tests upsert distinct keys and do not look at the records they passed afterwards.", "anchors": ["table.go:27-29", "table.go:452-575", "table.go:637-789", "table.go:888-927"]}
{"id": "C109", "title": "A key builder is a value: building on it changes no key built before", "statement": "Each Add method of a key builder returns a new builder and leaves the one it is called on, and every other builder and key, as they are. In particular several keys may be built from one builder with common leading fields, and the bytes of each of them are those of its own fields.", "quantifier": "all programs of NewKeyBuilder and Add calls on any of the builders made so far, all initial buffers with any content and capacity, all growth policies of append; partial: programs that add to no builder twice, and keys that are used before the next one is built", "why_tests_cant": "Whether two keys share memory depends on lengths, on the capacity of the buffer given and on how the Go runtime grows slices; a test with one key per builder never sees it.", "anchors": ["keys.go:11-145"]}
{"id": "C110", "title": "Close runs every callback registered with OnClose, once, before the store is closed", "statement": "Close calls every callback registered with OnClose exactly once, in the order of registration, and each of them can still read and write the database; then the store is closed. This includes callbacks registered by other callbacks and callbacks which close the database themselves.", "quantifier": "all numbers of callbacks and everything callbacks may do with the database (use it, register callbacks, close it), all sequences of actions before; partial: callbacks that do not call Close, and callbacks registered before Close began", "why_tests_cant": "Tests register one callback that sets a flag; what callbacks do to the list of callbacks and to the database while it is being closed varies without bound.", "anchors": ["bond.go:309-322"]}
{"id": "C111", "title": "Compact reaches the whole database", "statement": "Compact is documented to compact the entire bond database: the key range it gives to the store contains the key of every row, every index entry and every user key, for all tables and indexes.", "quantifier": "all table and index numbers, all index values, orders, primary keys and user keys; partial: not index 255 of table 255", "why_tests_cant": "Compaction changes no result, so no test of results can see keys which are left out; the range depends on all identifiers and key bytes.", "anchors": ["bond.go:298-307"]}
{"id": "C112", "title": "What OnCommit callbacks write belongs to the transaction", "statement": "Callbacks registered with OnCommit are given the batch before it is committed. What they write through it is committed together with the transaction, in the order of registration and after the writes made before; each callback reads what was written before it; if one of them returns an error, or the commit fails, nothing is stored. A transaction that failed so may be committed again, with the effect of one commit.", "quantifier": "all transactions, all numbers of callbacks with all writes, which may depend on what they read, all failures; partial: transactions with at least one write of their own, committed once, callbacks that do not call Commit and were registered before", "why_tests_cant": "The outcome depends on what arbitrary callbacks read, write and return, and on which of them fails first.", "anchors": ["batch.go:134-190"]}
{"id": "C113", "title": "A batch applied to another batch adds its changes to it", "statement": "After outer.Apply(inner), reads through outer show the committed rows changed by the calls made on outer and then by those made on inner, with every index in agreement; committing outer stores exactly that. inner is not changed.", "quantifier": "all tables, all calls on any number of open batches mixed with direct calls, all interleavings; partial: the two batches have changed different rows", "why_tests_cant": "Index entries in the two batches were computed from what each of them saw; whether they fit together depends on every call made on both.", "anchors": ["batch.go:114-132", "table.go:338-789"]}
{"id": "C114", "title": "Write calls on the same rows at the same time leave the indexes in agreement with the rows", "statement": "When several goroutines write the same rows of a table at the same time, then at any moment every stored row is found through every index by its values, and an index leads to no row that does not have the value; rows are ones that were stored or given to a call, and a key given to a call that succeeded is stored.", "quantifier": "all tables, any number of calls without a batch, all interleavings; partial: the calls are Insert, Update, Upsert, UnsafeInsert, and the rows they store under one key have the same index values", "why_tests_cant": "The outcome depends on which call looks and which commits first; a test sees one interleaving.", "anchors": ["table.go:338-789", "index.go:292-338", "table_unsafe.go:113-203"]}
{"id": "C115", "title": "lazy.Get returns the row under the key, however often it is called", "statement": "During a call of the callback of a scan, every call of lazy.Get returns the record of the row whose key the callback was called with.", "quantifier": "all tables, indexes, selectors, directions, batches, callbacks; partial: the primary index, or callbacks that call Get at most once per call", "why_tests_cant": "The answer depends on which Gets came before, on the order of the keys in the block and on ScanPrefetchSize.", "anchors": ["table.go:1019-1194", "table.go:941-986", "lazy.go"]}
{"id": "C116", "title": "The iterators of a table can be moved and sought like a cursor over the selected rows", "statement": "An iterator obtained with Table.Iter or Index.Iter for a selector can be moved with First, Last, Next, Prev, SeekGE and SeekLT in any order: after each call it stands on the row, or beyond the end, where a cursor over the rows that a scan with this selector returns would stand after the same calls. Its Key leads to the row, and on the primary index its Value decodes to it.", "quantifier": "all tables, contents, indexes, selectors, batches, sequences of calls that begin with a call that positions the iterator; partial: no seeks for selectors with several points or ranges", "why_tests_cant": "Positions depend on the whole history of calls and on how rows are spread over the parts, among them empty parts.", "anchors": ["iter.go:13-191", "index.go:175-278", "table.go:992-994"]}
{"id": "C117", "title": "Overlapping transactions never leave rows that nobody wrote, and ReIndex repairs the indexes", "statement": "Whatever several open batches and direct calls do to the same rows of a table, in whatever order, with calls or commits that fail, batches that are dropped or applied to another, or several goroutines that write at the same time: every stored row is a record that was stored before, given to a call, or returned by a conflict function, and is stored under its own key; every index entry is that of such a record. A later ReIndex of all indexes that returns no error makes them agree with the rows.", "quantifier": "all tables with index numbers other than 255, all numbers of batches, all calls and interleavings; conflict functions of Upsert return a record with the key of the first argument", "why_tests_cant": "Overlapping batches do leave indexes that disagree with the rows (C113, C114); that the damage stays within the indexes, for every order of calls, commits and failures, cannot be sampled.", "anchors": ["table.go:338-789", "table_unsafe.go:20-203", "batch.go:83-163", "index.go:280-353", "table.go:265-336"]}
{"id": "C118", "title": "Cursor pagination stays correct while the table changes", "statement": "Reading a point- or range-selected query page by page with Limit n and After(last row of the previous page) while rows are inserted, updated and deleted between the requests (the After row too): every request is answered, the rows of all pages come in the order of the query and no row comes twice, every row was selected when its page was requested, and a row that is selected unchanged at all requests is never left out.", "quantifier": "all contents at every request, all writes in between, all page sizes > 0, any number of pages", "why_tests_cant": "unbounded number of pages and every change between any two requests", "anchors": ["query.go:executeQuery,selectorWithAfter,After"]}
{"id": "C119", "title": "A write whose context is done is refused, or its end does not notice", "statement": "If the context of Insert, Update, Upsert, Delete, UnsafeInsert or UnsafeUpdate is done when the call starts and a record is given, the call fails. If it becomes done while the call runs, the call fails or its result and effect are exactly those with a context that is never done; all of them but Upsert (which asks once for each row) fail if it is done before the last record is processed. A call that fails leaves the database as it was.", "quantifier": "all records and numbers of records, all contents, batches and moments at which the context is done", "why_tests_cant": "every moment between any two records, any number of slices", "anchors": ["table.go:Insert,Update,Delete,Upsert", "table_unsafe.go:UnsafeInsert,UnsafeUpdate"]}
{"id": "C120", "title": "Cursor pagination of intersected queries", "statement": "Reading a query with Intersects page by page with Limit n and After(last row of the previous page) yields exactly the rows of the same query without Limit and After, in order, each once, in pages of at most n rows, and ends; also if rows of pages already read are deleted meanwhile.", "quantifier": "all contents, queries and parts, filters, orders, page sizes >0, any number of pages", "why_tests_cant": "unbounded number of pages, parts and rows", "anchors": ["query.go:executeIntersect,Intersects,After"]}
