{
 "claims": [
  {
   "property": "C01",
   "status": "proved",
   "theorems": [
    "Bond.C01_int64",
    "Bond.C01_int32",
    "Bond.C01_int16",
    "Bond.C01_uint64",
    "Bond.C01_uint32",
    "Bond.C01_uint16",
    "Bond.C01_byte"
   ],
   "note": ""
  },
  {
   "property": "C02",
   "status": "proved",
   "theorems": [
    "Bond.C02_order",
    "Bond.C02_panics"
   ],
   "note": ""
  },
  {
   "property": "C03",
   "status": "proved",
   "theorems": [
    "Bond.C03"
   ],
   "note": ""
  },
  {
   "property": "C04",
   "status": "partial",
   "theorems": [
    "Bond.C04_partial",
    "Bond.C04_refuted"
   ],
   "note": "False for two or more string/bytes fields (C04_refuted); proved when at most one field has variable length."
  },
  {
   "property": "C05",
   "status": "partial",
   "theorems": [
    "Bond.C05_partial",
    "Bond.C05_exact",
    "Bond.C05_refuted_minInt",
    "Bond.C05_refuted_bytes"
   ],
   "note": "False at MinInt and for byte strings of different length; proved otherwise. C05_exact gives the order of DESC for all values of all types of fixed width."
  },
  {
   "property": "C06",
   "status": "partial",
   "theorems": [
    "Bond.C06_partial",
    "Bond.C06_refuted",
    "Bond.C06_exact"
   ],
   "note": "False for DESC byte strings: OrderBytes complements the caller's slice in place. C06_exact says for which records and which repetitions the key is the same."
  },
  {
   "property": "C07",
   "status": "proved",
   "theorems": [
    "Bond.C07_roundtrip",
    "Bond.C07_prefix_panics",
    "Bond.C07_injective"
   ],
   "note": ""
  },
  {
   "property": "C08",
   "status": "proved",
   "theorems": [
    "Bond.C08",
    "Bond.C08_built"
   ],
   "note": ""
  },
  {
   "property": "C09",
   "status": "proved",
   "theorems": [
    "Bond.C09_spaces",
    "Bond.C09_disjoint",
    "Bond.C09_contiguous",
    "Bond.C09_injective",
    "Bond.C09_user_keys"
   ],
   "note": "User tables are assumed not to use the reserved table id 0 and secondary indexes not id 0, as the API documents; the code does not check it."
  },
  {
   "property": "C11",
   "status": "proved",
   "theorems": [
    "Bond.C11_effect",
    "Bond.C11_success",
    "Bond.C11_batch"
   ],
   "note": "Refinement of Insert to the row map for any number of rows, any legal sort and index order; also through a read-write batch."
  },
  {
   "property": "C12",
   "status": "partial",
   "theorems": [
    "Bond.C12_stored",
    "Bond.C12_partial",
    "Bond.C12_across_slices",
    "Bond.C12_exact_partial",
    "Bond.C12_exact_batch",
    "Bond.C12_refuted"
   ],
   "note": "C12_exact_partial says exactly which calls are accepted: no given key is stored and none is repeated within a group of 5000 rows; C12_exact_batch: with a read-write batch the full claim holds, for any number of rows. A stored key is rejected for any number of rows; repeated keys are rejected in calls of at most 5000 rows. False beyond: 5001 rows whose last repeats the first key are accepted (C12_refuted, the code checks each slice of 5000 against the database only)."
  },
  {
   "property": "C13",
   "status": "proved",
   "theorems": [
    "Bond.C13"
   ],
   "note": "All six write calls; a crash leaves a prefix of the (at most one) commits."
  },
  {
   "property": "C14",
   "status": "partial",
   "theorems": [
    "Bond.C14_partial",
    "Bond.C14_refuted"
   ],
   "note": "Induction over all histories of calls, succeeding or failing, with any legal environment; excludes repeated keys in Upsert or across slices and untruthful records in Delete/Unsafe calls, for which it is false (C14_refuted, C17_refuted)."
  },
  {
   "property": "C15",
   "status": "proved",
   "theorems": [
    "Bond.C15_effect",
    "Bond.C15_success",
    "Bond.C15_unstable"
   ],
   "note": "Any number of different keys, repeated keys in calls of at most 5000 rows; last record wins for stable sorts; C15_unstable shows the stability condition is needed."
  },
  {
   "property": "C16",
   "status": "partial",
   "theorems": [
    "Bond.C16_partial",
    "Bond.C16_success_partial",
    "Bond.C16_sorted_partial",
    "Bond.C16_sorted_index_partial",
    "Bond.C16_exact",
    "Bond.C16_exact_batch",
    "Bond.C16_exact_unstable",
    "Bond.C16_refuted_lost",
    "Bond.C16_refuted_index",
    "Bond.C16_refuted_foreign"
   ],
   "note": "Proved for calls without repeated keys, and with repeated keys when the rows are given in key order (data always; indexes too unless a stored row is given twice). C16_exact says which record is stored under every key for any rows in any order, also over several groups of 5000 and through a batch, for any conflict function. The property is false otherwise: the code reads trs[i] with the sorted position and loses the stored record for index maintenance."
  },
  {
   "property": "C17",
   "status": "partial",
   "theorems": [
    "Bond.C17_rows",
    "Bond.C17_partial",
    "Bond.C17_exact",
    "Bond.C17_iff",
    "Bond.C17_refuted"
   ],
   "note": "C17_exact: for any records a successful call removes exactly the data and index keys of the records as given; C17_iff: rows and indexes agree afterwards if and only if every index entry of a deleted row is that of a given record. Rows always disappear; index entries disappear if the records passed have the stored index values. False otherwise (C17_refuted: a record with only the key leaves a dangling index entry)."
  },
  {
   "property": "C18",
   "status": "proved",
   "theorems": [
    "Bond.C18_insert",
    "Bond.C18_update",
    "Bond.C18_upsert",
    "Bond.C18_delete",
    "Bond.C18_success",
    "Bond.C18_refuted_dup"
   ],
   "note": "Equality of databases for any two slice sizes, sorts and index orders, for calls without repeated keys; C18_refuted_dup shows why repeated keys are excluded."
  },
  {
   "property": "C22",
   "status": "proved",
   "theorems": [
    "Bond.C22_outside",
    "Bond.C22_tables",
    "Bond.C22_reserved"
   ],
   "note": "For every write call, outcome and kind of batch."
  },
  {
   "property": "C53",
   "status": "proved",
   "theorems": [
    "Bond.C53_insert",
    "Bond.C53_update"
   ],
   "note": "Equality of resulting databases."
  },
  {
   "property": "C60",
   "status": "partial",
   "theorems": [
    "Bond.C60_partial",
    "Bond.C60_single_partial",
    "Bond.C60_refuted"
   ],
   "note": "Proved for serializers that decode correctly into a used object, and for one-row calls with serializers correct in a zero object only; false for the latter with several rows (C60_refuted)."
  },
  {
   "property": "C19",
   "status": "proved",
   "theorems": [
    "Bond.C19_invisible",
    "Bond.C19_own",
    "Bond.C19_commit",
    "Bond.C19_equiv",
    "Bond.C19_view"
   ],
   "note": "C19_view: for any contents, every read through a read-write batch answers what it answers after the commit. Any call with any outcome leaves the database and batch-less reads unchanged; for successful calls (within GoodRun) the read-write batch shows their effects, and commit equals direct execution."
  },
  {
   "property": "C20",
   "status": "partial",
   "theorems": [
    "Bond.C20_partial",
    "Bond.C20_exact",
    "Bond.C20_refuted"
   ],
   "note": "C20_exact gives the result for all records, including those with an empty serialized form. Any order and repetition of points, no batch or read-write batch. False for records whose serialized form is empty (C20_refuted: Get returns the nil value for a stored protobuf-style zero record)."
  },
  {
   "property": "C21",
   "status": "partial",
   "theorems": [
    "Bond.C21_exact",
    "Bond.C21_points_partial",
    "Bond.C21_partial",
    "Bond.C21_last_put",
    "Bond.C21_last_delete",
    "Bond.C21_untouched",
    "Bond.C21_refuted"
   ],
   "note": "C21_exact gives the answer after any history (Upserts of any rows with any conflict function included) but UnsafeUpdate of rows that are not stored on a table with a filter. C21_points_partial, as specified: all histories in which Update repeats no key or sorts stably, Upsert repeats no key and keeps primary keys, and UnsafeUpdate with a filter is given stored rows; all other calls are arbitrary and the indexes may be in any state. The excluded calls can break it: C21_refuted."
  },
  {
   "property": "C38",
   "status": "proved",
   "theorems": [
    "Bond.C38_writes",
    "Bond.C38_reads",
    "Bond.C38_batch",
    "Bond.C38_overlap",
    "Bond.C38_stale",
    "Bond.C38_unsafeUpdate"
   ],
   "note": "All histories of Insert, Update, Upsert, Delete, UnsafeInsert with any arguments; C38_overlap: also with any number of batches that are open at the same time on the same rows; C38_stale and C38_unsafeUpdate show why the conditions are needed."
  },
  {
   "property": "C61",
   "status": "partial",
   "theorems": [
    "Bond.C61_partial",
    "Bond.C61_refuted",
    "Bond.C96_call"
   ],
   "note": "False: rows processed before the failing one stay in the caller's batch (C61_refuted). What stays is described exactly by C96_call: some of the rows, complete with their index entries."
  },
  {
   "property": "C10",
   "status": "partial",
   "theorems": [
    "Bond.C10_partial",
    "Bond.C10_short_partial",
    "Bond.C10_refuted"
   ],
   "note": "Proved for index values of one length and an upper bound whose primary key does not end with 0xFF; false for index values of different lengths (C10_refuted: entries are ordered by length first); C10_short_partial gives the order for all lengths."
  },
  {
   "property": "C23",
   "status": "partial",
   "theorems": [
    "Bond.C23_partial",
    "Bond.C23_exact",
    "Bond.C23_refuted"
   ],
   "note": "Proved for contents without primary keys below that of the empty record; false otherwise (C23_refuted: rows with a negative signed key are not returned). C23_exact: in general exactly the rows not below the empty record are returned, by Scan and by ScanForEach with any callback."
  },
  {
   "property": "C24",
   "status": "partial",
   "theorems": [
    "Bond.C24_partial",
    "Bond.C24_all",
    "Bond.C26_exact",
    "Bond.C26_refuted"
   ],
   "note": "All contents, indexes (also with filter and order), batches, prefetch sizes. Exact for index values not ending with 0xFF; otherwise the group is returned completely and in order, but other rows may follow (C26_refuted); C26_exact says which."
  },
  {
   "property": "C25",
   "status": "proved",
   "theorems": [
    "Bond.C25",
    "Bond.C25_size"
   ],
   "note": "All selectors, both directions, callbacks as interaction trees."
  },
  {
   "property": "C26",
   "status": "partial",
   "theorems": [
    "Bond.C26_partial",
    "Bond.C26_complete",
    "Bond.C26_exact",
    "Bond.C26_exact_sane",
    "Bond.C26_refuted"
   ],
   "note": "Nothing is missed for any index value; exact unless the index value ends with 0xFF (C26_refuted). C26_exact gives for every index value exactly the other values whose rows are returned too."
  },
  {
   "property": "C27",
   "status": "partial",
   "theorems": [
    "Bond.C27_partial",
    "Bond.C27_complete",
    "Bond.C27_refuted",
    "Bond.C27_refuted_extends",
    "Bond.C27_get_partial",
    "Bond.C27_exact",
    "Bond.C27_exact_ffs",
    "Bond.C27_exact_ord",
    "Bond.C27_exact_ord_ffs"
   ],
   "note": "Nothing between the bounds is missed; exact unless the upper primary key ends with 0xFF or is a proper prefix of a stored one (refuted there). The C27_exact theorems together say, for every upper bound, exactly which further rows are returned."
  },
  {
   "property": "C28",
   "status": "proved",
   "theorems": [
    "Bond.C28_cursor",
    "Bond.C28_scan",
    "Bond.C28_points",
    "Bond.C28_ranges",
    "Bond.C28_empty",
    "Bond.C28_get"
   ],
   "note": "Refinement of the multi cursor to one cursor over the concatenation under any call sequence. SelectorPoints on the primary index treats a point differently from SelectorPoint (successor of the whole key) and is covered by C28_cursor/C28_scan only. Empty lists panic (C28_empty)."
  },
  {
   "property": "C29",
   "status": "partial",
   "theorems": [
    "Bond.C29_scan",
    "Bond.C29_query",
    "Bond.C29_refuted"
   ],
   "note": "All scans and all queries without Intersects (reversed rows then cut by Offset and Limit). False for queries with Intersects, which ignore Reverse (C29_refuted)."
  },
  {
   "property": "C35",
   "status": "partial",
   "theorems": [
    "Bond.C35_partial",
    "Bond.C35_refuted",
    "Bond.C35_exact",
    "Bond.C35_served_unique",
    "Bond.C35_notForEver_partial"
   ],
   "note": "Terminates on the primary index for all callbacks and on secondary indexes for callbacks that fetch all rows after an initial run (or none); false for callbacks that stop fetching (C35_refuted: no fuel suffices). C35_exact says for every callback with at most one Get per call whether the scan ends and with what result; it ends if the callback, called again and again for one row, at last calls Get or stops."
  },
  {
   "property": "C62",
   "status": "partial",
   "theorems": [
    "Bond.C62_partial",
    "Bond.C62_delete",
    "Bond.C62_refuted_error",
    "Bond.C62_refuted_stale",
    "Bond.C62_refuted_twice",
    "Bond.C62_primary",
    "Bond.C62_exact",
    "Bond.C62_keeps_partial"
   ],
   "note": "False for callbacks that delete later rows (error), for callbacks that change later rows (stale record), and with several ranges for callbacks that change the row they visit: it is visited again in a later range (C62_refuted_twice). Proved for callbacks that keep rows not yet visited readable, in particular deleting each visited row; on the primary index for every callback; on a secondary index for every callback that never takes away a selected row (each visited once, with a record stored at some moment of the scan); and C62_exact says for every callback that fetches its rows and stops on errors what the scan does: records are read in blocks of ScanPrefetchSize when the first of a block is asked for. The last three are for point and range selectors."
  },
  {
   "property": "C30",
   "status": "proved",
   "theorems": [
    "Bond.C30",
    "Bond.C30_point"
   ],
   "note": "All contents, indexes, selectors, filters, batches; early termination in offset+limit rows proved equivalent to cutting the full list."
  },
  {
   "property": "C31",
   "status": "proved",
   "theorems": [
    "Bond.C31"
   ],
   "note": "Any sorting permutation that respects a strict weak order (sort.Slice is not stable)."
  },
  {
   "property": "C32",
   "status": "partial",
   "theorems": [
    "Bond.C32_point_partial",
    "Bond.C32_range_partial",
    "Bond.C32_ordered",
    "Bond.C32_refuted_reverse",
    "Bond.C32_refuted_ff"
   ],
   "note": "Pagination as an inductive sequence of pages: existence, completeness, no repetition. False for reversed queries without Order and for points whose index value ends with 0xFF. Points and Ranges selectors are C70."
  },
  {
   "property": "C33",
   "status": "partial",
   "theorems": [
    "Bond.C33_partial",
    "Bond.C33_after",
    "Bond.C33_rejected",
    "Bond.C33_after_exact",
    "Bond.C33_refuted_after",
    "Bond.C33_refuted_nested"
   ],
   "note": "C33_after_exact gives the exact result with After but neither Filter nor Order. False with After but neither Filter nor Order (Limit and Offset ignored) and for nested Intersects (ignored)."
  },
  {
   "property": "C34",
   "status": "partial",
   "theorems": [
    "Bond.C34_partial",
    "Bond.C34_exact",
    "Bond.C34_missing",
    "Bond.C34_refuted"
   ],
   "note": "C34_exact and C34_missing give the exact result for every batch: keys as seen through the batch, records of the database, not found if one is missing. False: keys come from the batch, values from the database (C34_refuted). Holds for rows the batch does not touch."
  },
  {
   "property": "C54",
   "status": "partial",
   "theorems": [
    "Bond.C54_scan",
    "Bond.C54_scanAll",
    "Bond.C54_error",
    "Bond.C54_forEach_partial",
    "Bond.C54_scanForEach_partial",
    "Bond.C54_refuted",
    "Bond.C54_selector_refuted"
   ],
   "note": "False for the ForEach variants with a batch, which drop the batch, and for selectors made for any (which the interface type asks for): the type assertion in index.go panics."
  },
  {
   "property": "C55",
   "status": "partial",
   "theorems": [
    "Bond.C55_partial",
    "Bond.C55_exact",
    "Bond.C55_exact_after",
    "Bond.C55_exact_intersect",
    "Bond.C55_exact_after_ordered",
    "Bond.C55_exact_after_intersect",
    "Bond.C55_panics_iff",
    "Bond.C55_refuted"
   ],
   "note": "False from 2^63 on: panics and lost rows. The C55_exact theorems say for every uint64 and every kind of query (with and without After, Order, Filter, Intersects) exactly what is returned and when it panics, for tables with fewer than 2^63 rows."
  },
  {
   "property": "C56",
   "status": "partial",
   "theorems": [
    "Bond.C56_programs_partial",
    "Bond.C56_unchanged_partial",
    "Bond.C56_refuted_answers",
    "Bond.C56_full_partial",
    "Bond.C56_linear_partial",
    "Bond.C56_refuted"
   ],
   "note": "Proved for all programs that extend no list of parts twice with Intersects (a query may be used any number of times with the other calls; a query without parts also with Intersects), for all capacities Go may choose. False otherwise: append in Intersects writes into the spare capacity of the receiver's array, so of two queries derived with Intersects from one query with three parts the first answers like the second (C56_refuted_answers)."
  },
  {
   "property": "C36",
   "status": "partial",
   "theorems": [
    "Bond.C36_outside",
    "Bond.C36_crash",
    "Bond.C36_success",
    "Bond.C36_heals",
    "Bond.C36_partial",
    "Bond.C36_exact_255",
    "Bond.C36_refuted"
   ],
   "note": "All contents, any earlier crash point: a successful ReIndex makes the listed indexes agree with the data and never touches the data; needs an index id below 255. False for index id 255, where the range delete covers nothing (C36_refuted)."
  },
  {
   "property": "C37",
   "status": "partial",
   "theorems": [
    "Bond.C37_partial",
    "Bond.C37_refuted"
   ],
   "note": "False: AddIndex returns its error without releasing the table mutex; every later call that needs the mutex waits forever (C37_refuted, for all tables). Holds for distinct new ids."
  },
  {
   "property": "C42",
   "status": "partial",
   "theorems": [
    "Bond.C42_commit",
    "Bond.C42_counts",
    "Bond.C42_partial",
    "Bond.C42_onClose_never",
    "Bond.C42_refuted_close",
    "Bond.C42_refuted_apply",
    "Bond.C42_reset"
   ],
   "note": "Commit calls are fully specified for all callbacks and outcomes; all histories without Close and failed Apply. False for OnClose (callbacks never run, C42_onClose_never), for Close and failed Apply (OnCommitted callbacks run without a commit)."
  },
  {
   "property": "C43",
   "status": "proved",
   "theorems": [
    "Bond.C43_ids",
    "Bond.C43_increasing",
    "Bond.C43_decompose",
    "Bond.C43_compose",
    "Bond.C43_clock_needed"
   ],
   "note": "Every call after every history: the id is (second, number of earlier calls in that second), error from the 2^24-th on. C43_clock_needed shows the clock condition is needed."
  },
  {
   "property": "C63",
   "status": "partial",
   "theorems": [
    "Bond.C63_partial",
    "Bond.C63_exact",
    "Bond.C63_same_iff",
    "Bond.C63_refuted"
   ],
   "note": "C63_exact, C63_same_iff: the ids for any number of batches, equal if and only if each was preceded by 2^24 others in its second. False: the error of Next is dropped, so from the 2^24-th batch in a second on all ids are equal (C63_refuted, any second, any number). Proved for at most 2^24 per second."
  },
  {
   "property": "C44",
   "status": "proved",
   "theorems": [
    "Bond.C44_serial",
    "Bond.C44_exclusive",
    "Bond.C44_once",
    "Bond.C44_progress"
   ],
   "note": "All schedules of any number of calls, with panicking functions for safety; progress while no function panics."
  },
  {
   "property": "C64",
   "status": "partial",
   "theorems": [
    "Bond.C64_refuted"
   ],
   "note": "False: WithSync does not unlock on panic; after a panic nothing changes under any schedule. Without panics see C44_progress."
  },
  {
   "property": "C45",
   "status": "proved",
   "theorems": [
    "Bond.C45_fresh",
    "Bond.C45_held",
    "Bond.C45_prealloc",
    "Bond.C45_double_put"
   ],
   "note": "All histories and all choices of sync.Pool and the garbage collector; C45_double_put shows the client condition is needed."
  },
  {
   "property": "C50",
   "status": "proved",
   "theorems": [
    "Bond.C50",
    "Bond.C50_total",
    "Bond.C50_query"
   ],
   "note": "All trees, with panicking functions, getters and nil members, read from the left. ObjectsAreEqual is assumed to be equality."
  },
  {
   "property": "C59",
   "status": "partial",
   "theorems": [
    "Bond.C59_partial",
    "Bond.C59_refuted"
   ],
   "note": "All nestings. False when another package uses the same plain string key (C59_refuted)."
  },
  {
   "property": "C39",
   "status": "partial",
   "theorems": [
    "Bond.C39_partial",
    "Bond.C39_filterSound",
    "Bond.C39_alone",
    "Bond.C39_concurrent_partial",
    "Bond.C39_words_partial",
    "Bond.C39_flag",
    "Bond.C39_refuted_bits",
    "Bond.C39_refuted_flag"
   ],
   "note": "Proved for non-overlapping calls (any history of Add, Load from any store, Save, Clear), and, under any schedule of word-level steps of overlapping Adds, for keys added before they start and for keys that share no 64-bit word with another key being added. False for overlapping Adds: Add holds only the read lock, so a bit or the hasChanges flag can be lost (witnesses)."
  },
  {
   "property": "C40",
   "status": "partial",
   "theorems": [
    "Bond.C40_roundtrip",
    "Bond.C40_save_ok",
    "Bond.C40_rebuild",
    "Bond.C40_scan_partial",
    "Bond.C40_partial",
    "Bond.C40_initialize_ok",
    "Bond.C40_refuted_scan",
    "Bond.C40_refuted_partial",
    "Bond.C40_refuted_ff"
   ],
   "note": "Round trip proved for all histories on one store with any failures; rebuild proved for everything the scanners deliver, which is every row not below the empty record. False for rows below the empty record, for a filter rebuilt after a half-failed Load, and for a key prefix ending with 0xFF (witnesses)."
  },
  {
   "property": "C41",
   "status": "partial",
   "theorems": [
    "Bond.C41_partial",
    "Bond.C41_exact",
    "Bond.C41_refuted"
   ],
   "note": "C41_exact: if the process dies before the next Save, the filter answers every key as at the last one. Keys added before the last successful Save survive every crash point afterwards. False for rows inserted after the last Save: Initialize accepts the stale filter (witness: stored row not found, and inserted twice)."
  },
  {
   "property": "C57",
   "status": "partial",
   "theorems": [
    "Bond.C57_exact",
    "Bond.C57_set_partial",
    "Bond.C57_delete_partial",
    "Bond.C57_partial",
    "Bond.C57_collision",
    "Bond.C57_refuted_delete",
    "Bond.C57_refuted_prefix"
   ],
   "note": "faithful for keys of letters, digits, '_' and '.' and ranges with nothing above them; refuted: keys that differ in other characters share a file, DeleteRange ignores its end and removes the files of other filters, a prefix without allowed characters cannot be cleared. C57_exact says for every sequence of calls with any keys what is stored: keys count as one if their allowed characters agree, ranges have no end."
  },
  {
   "property": "C65",
   "status": "partial",
   "theorems": [
    "Bond.C65_partial",
    "Bond.C65_refuted"
   ],
   "note": "a torn bucket file is refused by Load without panic; refuted: a torn bucket-count file (dead between open and write) makes every later Initialize panic"
  },
  {
   "property": "C46",
   "status": "proved",
   "theorems": [
    "Bond.C46",
    "Bond.C46_rows",
    "Bond.C46_keys"
   ],
   "note": "any contents, table lists, file split and target database; keys as bond writes them with index keys shorter than 2^32-1 bytes; nobody writing during Dump; SST writer and Ingest are modelled by their documented effect"
  },
  {
   "property": "C47",
   "status": "partial",
   "theorems": [
    "Bond.C47_partial",
    "Bond.C47_all_partial",
    "Bond.C47_flags_partial",
    "Bond.C47_refuted_prefix",
    "Bond.C47_refuted_index",
    "Bond.C47_refuted_path"
   ],
   "note": "exact if no requested table number is a decimal prefix of another dumped one and the path contains neither table_N nor (without indexes) the word index; refuted otherwise: table 7 also restores table 70; a path with 'index' restores nothing without error"
  },
  {
   "property": "C48",
   "status": "proved",
   "theorems": [
    "Bond.C48"
   ],
   "note": "for databases whose keys have at least two bytes (all keys bond writes)"
  },
  {
   "property": "C66",
   "status": "partial",
   "theorems": [
    "Bond.C66_partial",
    "Bond.C66_refuted"
   ],
   "note": "without indexes all are closed; with indexes one iterator per table stays open"
  },
  {
   "property": "C67",
   "status": "partial",
   "theorems": [
    "Bond.C67_partial",
    "Bond.C67_refuted"
   ],
   "note": "holds as long as no index loses its last entry during the dump; refuted in general: index ids are looked up in the live database, not in the snapshot"
  },
  {
   "property": "C49",
   "status": "partial",
   "theorems": [
    "Bond.C49_partial",
    "Bond.C49_fresh",
    "Bond.C49_reopen",
    "Bond.C49_format",
    "Bond.C49_data",
    "Bond.C49_number",
    "Bond.C49_refuted_data",
    "Bond.C49_refuted_first",
    "Bond.C49_exact"
   ],
   "note": "Over all histories of opens, closes and writes after a successful first Open: the recorded version opens, every other is refused and changes nothing. False for a data version that is not a number (overwritten, C49_refuted_data) and after a first Open that pebble refuses (its version is recorded, C49_refuted_first). C49_exact says for every stored data version whether Open succeeds and what it leaves."
  },
  {
   "property": "C58",
   "status": "partial",
   "theorems": [
    "Bond.C58_partial",
    "Bond.C58_refuted"
   ],
   "note": "Holds for crashes before the format file is truncated and for completed migrations; false for a crash between truncation and write: no version opens the database (C58_refuted, for all versions and states)."
  },
  {
   "property": "C68",
   "status": "partial",
   "theorems": [
    "Bond.C68_partial",
    "Bond.C68_refuted_torn",
    "Bond.C68_refuted_lock"
   ],
   "note": "Holds when the format file is complete and the data version is not foreign; false for a crash while the format file is first written (C68_refuted_torn) and in the process that was refused a foreign data version (C68_refuted_lock)."
  },
  {
   "property": "C69",
   "status": "partial",
   "theorems": [
    "Bond.C69_partial",
    "Bond.C69_blind",
    "Bond.C69_refuted"
   ],
   "note": "Proved for read-write batches; false for write-only batches: for all contents every point read says not found and scans succeed without rows (C69_blind)."
  },
  {
   "property": "C70",
   "status": "partial",
   "theorems": [
    "Bond.C70_ranges_partial",
    "Bond.C70_points_partial",
    "Bond.C70_refuted_primary",
    "Bond.C70_refuted_order",
    "Bond.C70_refuted_panic"
   ],
   "note": "Proved for ranges in order and points in order on a secondary index, forward; false for points on the primary index (rows repeated), for lists not in order (rows lost, pages repeated for ever), and After a row behind all ranges panics."
  },
  {
   "property": "C71",
   "status": "partial",
   "theorems": [
    "Bond.C71_partial",
    "Bond.C71_done",
    "Bond.C71_query",
    "Bond.C71_exact",
    "Bond.C71_exact_scan",
    "Bond.C71_refuted"
   ],
   "note": "C71_exact: on a secondary index the context is asked once per block, for all contexts; C71_exact_scan: ScanIndex appends whole blocks and reports the error if and only if rows are left. Proved for every moment on the primary index and for contexts done before the call on every index; false on secondary indexes, where the context is asked once per block of prefetched rows (C71_refuted)."
  },
  {
   "property": "C72",
   "status": "proved",
   "theorems": [
    "Bond.C72",
    "Bond.C72_ready",
    "Bond.C72_added"
   ],
   "note": "Over all sequences of Add, Initialize and Save."
  },
  {
   "property": "C51",
   "status": "proved",
   "theorems": [
    "Bond.C51_sequential",
    "Bond.C51_indexes",
    "Bond.C51_returns"
   ],
   "note": "any number of calls without a batch, any interleaving of their actions (open slice, handle row, commit) and of writes outside the table; commit order is the order in which calls return"
  },
  {
   "property": "C52",
   "status": "partial",
   "theorems": [
    "Bond.C52_exact",
    "Bond.C52_partial",
    "Bond.C52_refuted",
    "Bond.C52_refuted_index"
   ],
   "note": "C52_exact: for any number of concurrent Inserts under any schedule, exactly which rows and index entries are left (the only wrong entries are those of rows that lost against another successful Insert of the same key). False as stated: two Inserts of a key that was not stored can both succeed and leave an index entry to a lost row; proved: an Insert of a key stored at the start never succeeds unless a concurrent Delete has the key"
  },
  {
   "property": "C73",
   "status": "proved",
   "theorems": [
    "Bond.C73"
   ],
   "note": ""
  },
  {
   "property": "C74",
   "status": "partial",
   "theorems": [
    "Bond.C74_partial",
    "Bond.C74_refuted",
    "Bond.C74_refuted_rows"
   ],
   "note": "False: pebble's Ingest removes the files, so a second Restore of the same tables succeeds without restoring anything (C74_refuted, for all dumps). Proved for tables not restored before."
  },
  {
   "property": "C75",
   "status": "proved",
   "theorems": [
    "Bond.C57_set_result",
    "Bond.C57_no_file",
    "Bond.C57_delete_result",
    "Bond.C57_delete_bad"
   ],
   "note": "DeleteRange for start keys that are plain file names, or of which nothing is left (C57_delete_bad)"
  },
  {
   "property": "C76",
   "status": "partial",
   "theorems": [
    "Bond.C76_partial",
    "Bond.C76_rows",
    "Bond.C76_complete",
    "Bond.C76_inserts",
    "Bond.C76_alone",
    "Bond.C76_refuted_stale",
    "Bond.C76_refuted_missing"
   ],
   "note": "False as stated: an Update (or Delete) taking effect between ReIndex's snapshot and its commit leaves a stale entry, and a call that copied the index list before AddIndex leaves a row without entry. Proved for any interleaving: rows and other indexes are right, no entry is missing, and if the calls after the snapshot remove no entry of the rebuilt indexes (in particular Inserts) the result is exactly the one of ReIndex first."
  },
  {
   "property": "C77",
   "status": "partial",
   "theorems": [
    "Bond.C77_partial",
    "Bond.C77_faithful",
    "Bond.C77_panics",
    "Bond.C77_refuted"
   ],
   "note": "False as stated: with a nil batch every scan, Get with ranges and every query panics. Writes, Exist and Get with points treat nil as none, as the property says."
  },
  {
   "property": "C78",
   "status": "partial",
   "theorems": [
    "Bond.C78_tail",
    "Bond.C78_partial",
    "Bond.C78_first",
    "Bond.C78_refuted_all",
    "Bond.C78_refuted",
    "Bond.C78_cbor",
    "Bond.C78_cbor_refuted_kept",
    "Bond.C78_serialize_partial"
   ],
   "note": "False as stated for the msgp serializers with a buffer pool: released buffers are not reset, so a result may start with the encodings of earlier records and decode to one of them. Proved: every result ends with the right encoding; without a pool (or without release) it is the encoding; the CBOR serializer as the tables use it is right."
  },
  {
   "property": "C79",
   "status": "partial",
   "theorems": [
    "Bond.C79_partial",
    "Bond.C79_rows",
    "Bond.C79_unchanged",
    "Bond.C79_scanIndex",
    "Bond.C79_query",
    "Bond.C79_refuted_other_value",
    "Bond.C79_refuted_fails",
    "Bond.C79_refuted_parts"
   ],
   "note": "False as stated: on a secondary index the records are read after the index entries, so a scan can return a record that does not match, or fail with notFound; the parts of points and ranges selectors are opened one after another, so rows of different moments are mixed. Proved: it holds on the primary index with a point or range; in general the parts are selected each at its moment and records are current at some later moment of the scan; if the selected rows do not change, the scan is exact."
  },
  {
   "property": "C80",
   "status": "partial",
   "theorems": [
    "Bond.C80_primary",
    "Bond.C80_partial",
    "Bond.C80_prefetchOne",
    "Bond.C80_query",
    "Bond.C80_refuted"
   ],
   "note": "Refuted on secondary indexes with prefetch > 1: lazy.Get moves the iterator whose memory the key bytes are (table.go:1143, 1165). Proved for the primary index, for callbacks that read the key before their first Get (hence queries), and for prefetch size 1, for all contents of the iterator's memory."
  },
  {
   "property": "C81",
   "status": "partial",
   "theorems": [
    "Bond.C81_update",
    "Bond.C81_insert_partial",
    "Bond.C81_upsert_partial",
    "Bond.C81_getPoint",
    "Bond.C81_exist",
    "Bond.C81_points_exact",
    "Bond.C81_scan_partial",
    "Bond.C81_scanIndex",
    "Bond.C81_query_partial",
    "Bond.C81_refuted_insert",
    "Bond.C81_refuted_insert_holds",
    "Bond.C81_refuted_upsert",
    "Bond.C81_refuted_reads",
    "Bond.C81_refuted_parts",
    "Bond.C81_refuted_intersect",
    "Bond.C81_refuted_reIndex",
    "Bond.C81_refuted_dump",
    "Bond.C81_good_scan",
    "Bond.C81_good_intersect",
    "Bond.C81_good_getMany",
    "Bond.C81_good_writes",
    "Bond.C81_good_reIndex_dump",
    "Bond.C81_stops_partial",
    "Bond.C81_limit_partial",
    "Bond.C81_reported",
    "Bond.C81_repair"
   ],
   "note": "The code never asks an iterator for its error. Proved for Update, GetPoint, and scans, Get and queries over one part. C81_exist and C81_points_exact say exactly what Exist and Get with points answer: as if the rows whose read failed were not there. Refuted for Insert and Upsert (a failed seek is taken for absence: the row is overwritten and its index entries stay), Exist, Get with points, scans over several parts, Intersects, ReIndex and Dump (incomplete, yet reported as success). Scans ended by their callback and queries with Limit and without Order are covered on tables in good order (C81_stops_partial, C81_limit_partial)."
  },
  {
   "property": "C82",
   "status": "partial",
   "theorems": [
    "Bond.C82_dataKey",
    "Bond.C82_prefix",
    "Bond.C82_bytes",
    "Bond.C82_partial",
    "Bond.C82_iff",
    "Bond.C82_refuted"
   ],
   "note": "IsIndexKey of the decoded key is false for entries of an index whose key function appends nothing (C82_refuted); all else is proved."
  },
  {
   "property": "C83",
   "status": "partial",
   "theorems": [
    "Bond.C83_writes",
    "Bond.C83_gets",
    "Bond.C83_scans_partial",
    "Bond.C83_query_callbacks",
    "Bond.C83_iterators",
    "Bond.C83_scan_refuted_panic",
    "Bond.C83_reIndex_partial",
    "Bond.C83_reIndex_refuted",
    "Bond.C83_unsafeUpdate_partial",
    "Bond.C83_unsafeUpdate_refuted",
    "Bond.C83_unsafeUpdate_refuted_ext",
    "Bond.clean_detects"
   ],
   "note": "False for scans whose callback panics, for ReIndex that fails (iterator stays open) or handles more than one block (batches not closed) and for UnsafeUpdate (own batch never closed after success; the caller's batch closed when a write fails). Dump is C66."
  },
  {
   "property": "C84",
   "status": "partial",
   "theorems": [
    "Bond.C84_partial",
    "Bond.C84_fraction",
    "Bond.C84_nil",
    "Bond.C84_errors",
    "Bond.C84_noField",
    "Bond.C84_listed",
    "Bond.C84_integers",
    "Bond.C84_typed",
    "Bond.C84_slices",
    "Bond.C84_bytes",
    "Bond.C84_lists",
    "Bond.C84_ranges",
    "Bond.C84_runes",
    "Bond.C84_refuted_fraction",
    "Bond.C84_refuted_rune",
    "Bond.C84_refuted_type",
    "Bond.C84_refuted_nil",
    "Bond.C84_refuted_primary",
    "Bond.C84_refuted_struct",
    "Bond.C84_refuted_tag"
   ],
   "note": "Proved for tables of pointer records and values that the type of the field has, in any order of the maps. False otherwise: 1.5 matches the integer 1, 65 matches the text A, values for fields of named types never match in filters and panic in selectors, nil panics, selectors on the primary index are ignored, tables of structs panic with any other index, fields renamed by a tag cannot be selected."
  },
  {
   "property": "C85",
   "status": "partial",
   "theorems": [
    "Bond.C85_local_partial",
    "Bond.C85_remote_partial",
    "Bond.C85_base64",
    "Bond.C85_refuted_large",
    "Bond.C85_refuted_bytes",
    "Bond.C85_refuted_nil"
   ],
   "note": "Proved locally for records determined by their exported fields, remotely for rows that survive JSON. False remotely for integers beyond 2^53 (the same page for ever, or rows lost), []byte (base64 taken as bytes: rows lost) and nil []byte (panic)."
  },
  {
   "property": "C86",
   "status": "proved",
   "theorems": [
    "Bond.C86_serial",
    "Bond.C86_content",
    "Bond.C86_reads",
    "Bond.C86_refuted_overlap",
    "Bond.C86_refuted_batches"
   ],
   "note": "Any number of batches, any interleaving of whole calls (interleavings inside calls without batch are C51). UnsafeUpdate is given stored rows. If two open batches, or a batch and a direct call, change the same row, everything succeeds but updates are lost and index entries are stale (C86_refuted_*)."
  },
  {
   "property": "C87",
   "status": "proved",
   "theorems": [
    "Bond.C87_crash",
    "Bond.C87_durable",
    "Bond.C87_content",
    "Bond.C87_refuted_empty"
   ],
   "note": "Pebble's contract is trusted (atomic commits, the log found after a crash is a prefix with all synced commits). The filter of each life covers the rows it finds; a stale saved bloom filter does not (C41). Calls are whole steps. A commit with Sync, or a call, that writes nothing does not make earlier commits without Sync durable (C87_refuted_empty)."
  },
  {
   "property": "C88",
   "status": "partial",
   "theorems": [
    "Bond.C88_lists_partial",
    "Bond.C88_query_partial",
    "Bond.C88_other",
    "Bond.C88_accept",
    "Bond.C88_refuted_accept",
    "Bond.C88_refuted_url"
   ],
   "note": "Proved for addresses without query and fragment and for no Accept header or exactly application/json. Any other Accept header, also one that includes JSON, makes every request fail with 406 and no reason (C88_accept); an address with a query string makes them fail with 404 (C88_refuted_url). A panic of the server is an error of the connection. Network, multiplexer, and percent signs are not modelled; what JSON does to values is in C85."
  },
  {
   "property": "C89",
   "status": "partial",
   "theorems": [
    "Bond.C89_headers_partial",
    "Bond.C89_query_partial",
    "Bond.C89_dump_partial",
    "Bond.C89_refuted_header",
    "Bond.C89_refuted_id",
    "Bond.C89_refuted_exit"
   ],
   "note": "Headers: exactly the arguments with one equals sign are taken, so Base64 values are refused (C89_refuted_header). Table numbers from 0 to 255; others are cut to their low byte without an error, 263 is table 7 (C89_refuted_id). Failed commands exit with status 0 (C89_refuted_exit). The deadline is not modelled; the remote client ignores it."
  },
  {
   "property": "C90",
   "status": "partial",
   "theorems": [
    "Bond.C90_gen",
    "Bond.C90_gen_table",
    "Bond.C90_gen_bad",
    "Bond.C90_proto_partial",
    "Bond.C90_refuted_pointer",
    "Bond.C90_refuted_stars",
    "Bond.C90_refuted_mixed"
   ],
   "note": "msgp_gen: structs and pointers. Protobuf: structs only; for a table of pointers nothing can be encoded or decoded (C90_refuted_pointer: the serializer is given a pointer to the pointer). Two stars fail with msgp_gen (C90_refuted_stars). An Encoder without a Decoder stores rows that cannot be read (C90_refuted_mixed)."
  },
  {
   "property": "C91",
   "status": "partial",
   "theorems": [
    "Bond.C91_forEach_partial",
    "Bond.C91_scanIndex",
    "Bond.C91_query",
    "Bond.C91_query_safe",
    "Bond.C91_intersect_safe",
    "Bond.C91_getOne",
    "Bond.C91_getMany_partial",
    "Bond.C91_update",
    "Bond.C91_upsert",
    "Bond.C91_others",
    "Bond.C91_delete",
    "Bond.C91_refuted_skip",
    "Bond.C91_refuted_reindex"
   ],
   "note": "False for callbacks that go on after an error: on a secondary index they are called for ever with the same row (C91_refuted_skip). False for ReIndex, which removes all index entries and then fails (C91_refuted_reindex). Get with several points takes empty bytes for a missing row, so that case is left out of C91_getMany_partial. C91_query is for queries without After that look at all rows; C91_query_safe and C91_intersect_safe say of all queries that they fail or return what they would return if nothing were damaged."
  },
  {
   "property": "C92",
   "status": "partial",
   "theorems": [
    "Bond.C92_filters_partial",
    "Bond.C92_tables",
    "Bond.C92_writes",
    "Bond.C92_keys",
    "Bond.C92_refuted_default",
    "Bond.C92_refuted_related",
    "Bond.C92_refuted_table0",
    "Bond.C92_refuted_raw"
   ],
   "note": "Proved for filters with key prefixes of table 0 none of which begins with another, and tables with other numbers than 0. False for two filters with the default prefix (a stored row is not found after reopening), for prefixes one of which begins with another, for a table with number 0 (the version record is taken for a row) and for prefixes outside table 0; nothing refuses these."
  },
  {
   "property": "C93",
   "status": "partial",
   "theorems": [
    "Bond.C93_rows_partial",
    "Bond.C93_exact",
    "Bond.C93_reindex_partial",
    "Bond.C93_refuted_stale",
    "Bond.C93_refuted_filter"
   ],
   "note": "C93_exact: the rows of the dump on top of those there were, the index entries of all of them, agreement if and only if no replaced row had an entry that the new one does not have. Proved for tables whose replaced rows have no index entries that the new ones do not have (in particular empty tables), and for all rows if all indexes are rebuilt after Restore. False for a restored row that replaces one with another index value (the old entry stays and shows the wrong row), and for a table whose filter was ready before Restore: the restored rows are not found and can be inserted again. A filter initialised after Restore: C40_partial."
  },
  {
   "property": "C94",
   "status": "proved",
   "theorems": [
    "Bond.C94_serial",
    "Bond.C94_content",
    "Bond.C94_ends",
    "Bond.C94_refuted_sameKey"
   ],
   "note": "Transactions interleaved action by action (C51 has calls without batch, C86 whole calls). UnsafeUpdate is excluded on tables with a filter. For a common row key it is false: both transactions insert the same new key and both commits succeed (C94_refuted_sameKey)."
  },
  {
   "property": "C95",
   "status": "partial",
   "theorems": [
    "Bond.C95_reads",
    "Bond.C95_serial",
    "Bond.C95_ends",
    "Bond.C95_refuted_plain",
    "Bond.C95_refuted_sameKey",
    "Bond.C95_refuted_notScanned",
    "Bond.C95_refuted_low"
   ],
   "note": "Proved for goroutines without a common row key, a table that is among those scanned, rows not below the empty record, and a saved filter that knew the rows there were. False otherwise: a filter without FilterInitializable (rows are denied meanwhile), a row deleted and at the same time changed by a batch of another goroutine (denied for ever), a table not scanned, rows below the empty record. The Add of the filter is taken to be atomic; that of the bloom filter is not (C39)."
  },
  {
   "property": "C96",
   "status": "proved",
   "theorems": [
    "Bond.C96_call",
    "Bond.C96_batch",
    "Bond.C96_history"
   ],
   "note": "For read-write batches; each call within the documented use given what it sees, and in histories its keys are in no other open batch."
  },
  {
   "property": "C97",
   "status": "proved",
   "theorems": [
    "Bond.C97",
    "Bond.C97_start",
    "Bond.C97_step",
    "Bond.C97_read",
    "Bond.run_result"
   ],
   "note": "Refinement by induction on the program, put together from the theorems about the single calls (C12, C15, C16, C20, C23, C24, C27, C28, C30, C31, C33, C61, C96). Outside of the documented use (repeated keys over 5000 rows or in Upsert, untruthful records given to Delete or the unsafe calls, bounds ending with 0xFF, Intersects through a batch, After with reversed scans) the single properties are refuted; write calls without batch while a transaction is open are the subject of C94 and C96."
  },
  {
   "property": "C98",
   "status": "proved",
   "theorems": [
    "Bond.C98_keys",
    "Bond.C98_contract",
    "Bond.C98_seek",
    "Bond.C98_rows",
    "Bond.C98_refuted"
   ],
   "note": "C98_refuted shows the limit of the claim: raw keys of a user that do not come from NewUserKey (shorter than six bytes, or with a length beyond the end) make the comparer panic, also for other keys looked at together with them."
  },
  {
   "property": "C99",
   "status": "proved",
   "theorems": [
    "Bond.C99",
    "Bond.C99_start",
    "Bond.C99_step",
    "Bond.C99_userKey",
    "Bond.pstep_outside"
   ],
   "note": "Extends C97 to several tables of different record types and keys of the user; hypotheses as in C97, for each table, and different table numbers (which the library does not check)."
  },
  {
   "property": "C100",
   "status": "proved",
   "theorems": [
    "Bond.C100",
    "Bond.C100_start",
    "Bond.C100_step",
    "Bond.C100_needs_save"
   ],
   "note": "Hypotheses as in C97; the filter's own store is kept apart from the table's entries (files, C57, or reserved keys, C92). C100_needs_save shows that the condition about Save cannot be dropped (see C41)."
  },
  {
   "property": "C101",
   "status": "partial",
   "theorems": [
    "Bond.C101_point",
    "Bond.C101_range",
    "Bond.C101_query",
    "Bond.C101_scan",
    "Bond.C101_point_exact",
    "Bond.C101_range_exact",
    "Bond.C101_query_exact",
    "Bond.orderLtX_eq",
    "Bond.C101_refuted",
    "Bond.acc_declared",
    "Bond.acc_declaredAny"
   ],
   "note": "Fails for DESC fields that hold the smallest integer of their width (C101_refuted); the _exact theorems say where such rows are placed (first). Excluded: index values or upper bounds that end with 0xFF (C24, C27), rows below the empty record in Scan (C23), and byte strings as order fields."
  },
  {
   "property": "C102",
   "status": "partial",
   "theorems": [
    "Bond.C102_step",
    "Bond.C102",
    "Bond.C102_start",
    "Bond.C102_refused",
    "Bond.C102_needs_closed",
    "Bond.C102_needs_reindex"
   ],
   "note": "For all sequences of calls, transactions, AddIndex, ReIndex, interrupted ReIndex and new table objects within the documented use: answers and contents are those of one map whose registered, usable indexes are sorted views. Missing: an index added while a transaction is open (the rows written through it get no entries, C102_needs_closed), index number 255 (C36_refuted), and repeated index numbers (C37_refuted). C102_needs_reindex shows that the condition on left-out indexes is needed."
  },
  {
   "property": "C103",
   "status": "proved",
   "theorems": [
    "Bond.C103_forEach",
    "Bond.C103_scanIndex",
    "Bond.C103_get",
    "Bond.C103_query",
    "Bond.C97_read"
   ],
   "note": "For all contents, selectors, callbacks and moments; C97_read (and through it C97, C99, C100, C102) is about calls with any context."
  },
  {
   "property": "C104",
   "status": "partial",
   "theorems": [
    "Bond.C104_partial",
    "Bond.C104_direct",
    "Bond.C104_refuted",
    "Bond.C104_refuted_again"
   ],
   "note": "Proved for rows that no other task writes, whatever else the tasks do, and for all reads without batch. False for rows that others write: a batch reads the live database, so a transaction can see the old value of one row and the new value of another that were changed together (C104_refuted), or two values of one row (C104_refuted_again)."
  },
  {
   "property": "C105",
   "status": "proved",
   "theorems": [
    "Bond.C105_batch",
    "Bond.C105_direct"
   ],
   "note": "Conditions: no row key in two tasks (C94_refuted_sameKey shows why), read-write batches, the calls in committed batches and those of the reader so far succeeded, and the documented use of reads of C97 (Intersects not through a batch, C34). A read call is one step; the rows seen by two calls can differ when others commit in between (C104_refuted)."
  },
  {
   "property": "C106",
   "status": "partial",
   "theorems": [
    "Bond.C106_insert",
    "Bond.C106_update",
    "Bond.C106_upsert",
    "Bond.C106_delete",
    "Bond.C106_unsafeInsert",
    "Bond.C106_unsafeUpdate",
    "Bond.C106_get",
    "Bond.C106_getOne",
    "Bond.C106_exist",
    "Bond.C106_scan_partial",
    "Bond.C106_refuted",
    "Bond.C106_refuted_alias"
   ],
   "note": "Proved on a memory model of Go slices for all calls; for scans, callbacks that call lazy.Get at most once for the row under the iterator. False for callbacks that append to the key they are given (C106_refuted: the following keys of the round are overwritten) and for serializers that keep bytes instead of copying them (C106_refuted_alias). That the pools hand out buffers that do not overlap is the hypothesis Bufs, which every call preserves."
  },
  {
   "property": "C107",
   "status": "partial",
   "theorems": [
    "Bond.C107_latest",
    "Bond.C107_order",
    "Bond.C107_partial",
    "Bond.C107_refuted"
   ],
   "note": "Order and repetition of the calls proved for all sequences. False for Filter (C107_refuted): it is documented to add filtering, but a second call replaces the first; with at most one Filter the answers are as stated (C107_partial)."
  },
  {
   "property": "C108",
   "status": "partial",
   "theorems": [
    "Bond.C108_refuted",
    "Bond.C108_refuted_callback",
    "Bond.C108_refuted_stored",
    "Bond.C108_update_partial",
    "Bond.C108_upsert_partial",
    "Bond.C108_sorted_partial",
    "Bond.C108_fresh_partial",
    "Bond.C108_get_partial"
   ],
   "note": "False for Upsert with repeated keys: oldTr becomes a pointer to a caller's record, and the next stored row is decoded into it (C108_refuted); if that record was not written yet, its new content is lost and the call still succeeds (C108_refuted_stored). Proved for Update and Get with points without conditions on the rows, for Upsert with distinct keys, and, as far as what is stored is concerned, for Upsert of rows in key order; without conditions on the rows for serializers that decode into new objects (msgp_gen). Insert and Delete decode nothing and are not modelled on objects; contents are values (no sharing inside records)."
  },
  {
   "property": "C109",
   "status": "partial",
   "theorems": [
    "Bond.C109_partial",
    "Bond.C109_last_partial",
    "Bond.C109_loop_partial",
    "Bond.C109_refuted"
   ],
   "note": "False when two keys are built from one builder and the first is used after the second was built: append writes both into the same array (C109_refuted, with and without a buffer given by the program). Proved for all programs that add to no builder twice, for the key built last in any program, and for loops that are done with a key before the next is built."
  },
  {
   "property": "C110",
   "status": "partial",
   "theorems": [
    "Bond.C110_partial",
    "Bond.C110_refuted_late",
    "Bond.C110_refuted_loop",
    "Bond.C110_refuted_twice"
   ],
   "note": "Proved for callbacks that do not call Close. False otherwise: callbacks registered while Close runs are never called (C110_refuted_late), a callback that calls Close makes it recurse for ever (C110_refuted_loop), a second Close calls all callbacks again on the closed database (C110_refuted_twice)."
  },
  {
   "property": "C111",
   "status": "partial",
   "theorems": [
    "Bond.C111_partial",
    "Bond.C111_refuted"
   ],
   "note": "Proved for all tables and indexes but index 255 of table 255, which lies wholly above the range (C111_refuted)."
  },
  {
   "property": "C112",
   "status": "partial",
   "theorems": [
    "Bond.C112_partial",
    "Bond.C112_refuted_empty",
    "Bond.C112_refuted_retry",
    "Bond.C112_refuted_late",
    "Bond.C112_refuted_loop"
   ],
   "note": "Proved for callbacks that do not call Commit on a batch with writes. False otherwise: on a batch without writes the callbacks are not run and Commit succeeds (C112_refuted_empty); writes of callbacks stay in the batch when a later callback fails and are made twice by a second Commit (C112_refuted_retry); callbacks registered by callbacks are not run (C112_refuted_late); callbacks that call Commit recurse for ever (C112_refuted_loop)."
  },
  {
   "property": "C113",
   "status": "partial",
   "theorems": [
    "Bond.C113_partial",
    "Bond.C113_exact",
    "Bond.C113_refuted"
   ],
   "note": "C113_exact: for any two batches, whatever rows they changed, Apply and one commit is the same as the two commits one after the other. Proved for batches that have changed different rows. False if both changed the same row: the row of the inner batch is stored, and the index keeps entries for both (C113_refuted)."
  },
  {
   "property": "C114",
   "status": "partial",
   "theorems": [
    "Bond.C114_partial",
    "Bond.C114_refuted_update",
    "Bond.C114_refuted_delete",
    "Bond.C114_bounded",
    "Bond.C114_repair"
   ],
   "note": "False as stated: two Updates of one row of which one changes an index value can leave the row without its entry (an index scan misses it, and finds it under a value it does not have), and so can a Delete with an Update that changes nothing. Proved for any number of Inserts, Updates, Upserts (no key twice in a call) and UnsafeInserts under any schedule when rows with one key have the same index values. For all write calls, Deletes and changing index values included: every row and every index entry left behind is that of a record that was stored or given (C114_bounded), and a ReIndex afterwards restores agreement (C114_repair, ids other than 255)."
  },
  {
   "property": "C115",
   "status": "partial",
   "theorems": [
    "Bond.C115_partial",
    "Bond.C115_refuted_next",
    "Bond.C115_refuted_later",
    "Bond.C115_refuted_panic"
   ],
   "note": "Proved for the primary index with any callback, and for other indexes with callbacks that call Get at most once per call. False for callbacks that call Get again in one call on another index: it returns the record of another row (C115_refuted_next); the key list was sorted in place, so later calls get records of other rows as well, though they call Get once (C115_refuted_later); or it panics (C115_refuted_panic). No error is returned in the first two cases. A Lazy kept after the callback returned is not modelled."
  },
  {
   "property": "C116",
   "status": "partial",
   "theorems": [
    "Bond.C116_partial",
    "Bond.C116_refuted"
   ],
   "note": "Proved for all selectors and sequences of First, Last, Next, Prev, and with SeekGE and SeekLT for selectors with one point or range. False otherwise: the seeks of an iterator over several points or ranges panic (C116_refuted). The content does not change meanwhile (C79); what pebble's iterator does on one range is part of the model."
  },
  {
   "property": "C117",
   "status": "proved",
   "theorems": [
    "Bond.C117_batches",
    "Bond.C117_repair",
    "Bond.C114_bounded",
    "Bond.C114_repair"
   ],
   "note": "Batches in any overlap, any calls, failing or not, Apply, drop and commit (C117_batches), and calls without batch cut into the actions of any schedule (C114_bounded); ReIndex afterwards (C117_repair, C114_repair). An Upsert that names no key twice needs the condition on the conflict function only for records with the same key. Index number 255 is excluded in the statement, see C36_refuted."
  },
  {
   "property": "C118",
   "status": "partial",
   "theorems": [
    "Bond.C118_point_partial",
    "Bond.C118_range_partial",
    "Bond.C118_ranges_partial",
    "Bond.C118_points_partial",
    "Bond.C118_ordered_partial",
    "Bond.C118_refuted_order"
   ],
   "note": "Without Order, for point and range selectors, several points on a secondary index and several ranges, both given in order, read forwards, everything holds at any moments, whatever was written in between, also when the After row is deleted or changed. With an Order that tells rows apart it holds while the After row of each request is still selected. With Order and a deleted After row the query silently starts from its first row again (refuted: an unchanged row comes twice). Reversed queries and index values ending with 0xFF fail already without changes (C32)."
  },
  {
   "property": "C119",
   "status": "proved",
   "theorems": [
    "Bond.C119"
   ],
   "note": "All six write calls, with and without a batch, for every sequence of answers of the context."
  },
  {
   "property": "C120",
   "status": "partial",
   "theorems": [
    "Bond.C120_partial",
    "Bond.C120_live_partial",
    "Bond.C120_live_ordered_partial",
    "Bond.C120_rows",
    "Bond.C120_refuted_limit",
    "Bond.C120_refuted_deleted"
   ],
   "note": "Proved for queries with a Filter or an Order on contents that do not change, and (the Order telling rows apart) with any writes between the requests while the After row of each request is still selected. With neither, After makes Limit ignored: the second page is all the rest (C120_refuted_limit); C120_rows gives the pages exactly then, no row is lost or repeated. If the After row is deleted between two requests, the query silently starts again from its first row (C120_refuted_deleted)."
  }
 ]
}