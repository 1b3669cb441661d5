import Verif.Decimal
import Verif.Store
import Verif.Key
/-
Model of Dump and Restore in bond.go. The dump directory is a list of subdirectories with their files; an SST file is the list of its
entries in order. Failures of the file system are not modelled, except for names that exist already.
-/
namespace Bond

/-- an entry of the database (bond.go:540) -/
abbrev Entry := Bytes × Bytes

/-- strings.Contains (Go standard library) (used in bond.go:476, 486) -/
def strContains : Bytes → Bytes → Bool
  | [], pat => pat.isEmpty
  | c :: s, pat => pat.isPrefixOf (c :: s) || strContains s pat

/-- "table_" (bond.go:394) -/
def strTable : Bytes := [116, 97, 98, 108, 101, 95]
/-- "index" (bond.go:486) -/
def strIndex : Bytes := [105, 110, 100, 101, 120]
/-- "_index_" (bond.go:419) -/
def strIndexMid : Bytes := [95, 105, 110, 100, 101, 120, 95]
/-- ".sst" (bond.go:470, 529) -/
def strSst : Bytes := [46, 115, 115, 116]
/-- '/' (filepath.Join) (bond.go:394, 419, 529) -/
def slash : UInt8 := 47

/-- bond.go:394, 457, 476 `table_%d` -/
def tableDirName (t : UInt8) : Bytes := strTable ++ decimal t.toNat
/-- bond.go:419 `table_%d_index_%d` -/
def indexDirName (t i : UInt8) : Bytes := strTable ++ decimal t.toNat ++ strIndexMid ++ decimal i.toNat
/-- bond.go:529, 550 `%d.sst` -/
def sstName (n : Nat) : Bytes := decimal n ++ strSst

/-- bond.go:525-558 `iteratorToSST`: the contents of the files 1.sst, 2.sst, …; `cur` is what the current file has. `full` stands for
`writer.EstimatedSize() > exportFileSize`, any function of what was written to the file. -/
def splitSST (full : List Entry → Bool) : List Entry → List Entry → List (List Entry)
  | [], cur => [cur]
  | e :: es, cur =>
    let cur := cur ++ [e]
    if full cur then cur :: splitSST full es [] else splitSST full es cur

/-- pebble `SeekGE`: first key at or after `k` (used in bond.go:507) -/
def KV.seekGE (db : KV) (k : Bytes) : Option Bytes := (db.l.find? fun e => ble k e.1).map Prod.fst

/-- bond.go:501-522 `getIndexIDS`, the loop; `none` is a panic (a key with fewer than two bytes). There are at most 255 rounds. -/
def indexIDsLoop (db : KV) (t : UInt8) : Nat → UInt8 → Option (List UInt8)
  | 0, _ => some []
  | fuel + 1, from_ =>
    match db.seekGE [t, from_] with
    | none => some []
    | some (kt :: ki :: _) =>
      if kt ≠ t then some []
      else if ki = 255 then some [ki]
      else (indexIDsLoop db t fuel (ki + 1)).map (ki :: ·)
    | some _ => none

/-- bond.go:501-522 `getIndexIDS` -/
def getIndexIDs (db : KV) (t : UInt8) : Option (List UInt8) := indexIDsLoop db t 255 1

/-- one directory of a dump: what it is for (table, and 0 for data or the index id), its name, its files (bond.go:394-397, 419-422) -/
structure DumpDir where
  table : UInt8
  index : UInt8
  name : Bytes
  files : List (List Entry)
  deriving DecidableEq

/-- the dump directory: content of the file VERSION and the subdirectories (bond.go:379-386) -/
structure DumpTree where
  version : Bytes
  dirs : List DumpDir
  deriving DecidableEq

/-- errors of Dump and Restore (returned in bond.go:378-499) -/
inductive DErr | exist | panic | version | missing | overlap
  deriving DecidableEq

/-- bond.go:394-411 the data of one table, read from the snapshot -/
def dumpData (snap : KV) (full : List Entry → Bool) (t : UInt8) : DumpDir :=
  ⟨t, 0, tableDirName t, splitSST full (snap.scan [t, 0, 0, 0, 0, 0] [t, 1, 0, 0, 0, 0]) []⟩

/-- bond.go:418-435 one index of one table, read from the snapshot -/
def dumpIndex (snap : KV) (full : List Entry → Bool) (t i : UInt8) : DumpDir :=
  ⟨t, i, indexDirName t i, splitSST full (snap.scan [t, i, 0, 0, 0, 0] [t, i, 255, 255, 255, 255]) []⟩

/-- bond.go:392-437 the loop over the tables. os.Mkdir fails for a table that was already dumped. The index ids are looked up in the database
itself, not in the snapshot: `live n` is its content at the n-th lookup. -/
def dumpLoop (snap : KV) (live : Nat → KV) (full : List Entry → Bool) (withIndex : Bool) :
    List UInt8 → Nat → List UInt8 → Except DErr (List DumpDir)
  | [], _, _ => .ok []
  | t :: ts, n, seen =>
    if t ∈ seen then .error .exist
    else
      match (if withIndex then getIndexIDs (live n) t else some []) with
      | none => .error .panic
      | some ids =>
        match dumpLoop snap live full withIndex ts (n + 1) (t :: seen) with
        | .error e => .error e
        | .ok dirs => .ok (dumpData snap full t :: ids.map (dumpIndex snap full t) ++ dirs)

/-- bond.go:378-439 `Dump` into a directory that does not exist yet -/
def dump (snap : KV) (live : Nat → KV) (full : List Entry → Bool) (withIndex : Bool) (tables : List UInt8) : Except DErr DumpTree :=
  match dumpLoop snap live full withIndex tables 0 [] with
  | .error e => .error e
  | .ok dirs => .ok ⟨beBytes 4 1, dirs⟩

/-- Iterators opened and closed by Dump for tables with the given numbers of indexes: one for the data (bond.go:398) and one for each index
(bond.go:423), closed at the end of `iteratorToSST` (bond.go:526); and with `withIndex` the one of `getIndexIDS` (bond.go:505), which is not
closed. -/
def dumpIters (withIndex : Bool) (indexCounts : List Nat) : Nat × Nat :=
  indexCounts.foldl (fun s c => if withIndex then (s.1 + 2 + c, s.2 + 1 + c) else (s.1 + 1, s.2 + 1)) (0, 0)

/-- path of the n-th file of a directory in the walk of Restore; `base` is the path given to Restore (bond.go:466, 529) -/
def filePath (base : Bytes) (d : DumpDir) (n : Nat) : Bytes := base ++ slash :: (d.name ++ slash :: sstName n)

/-- bond.go:473-493 is the file at this path ingested? -/
def wanted (tables : List UInt8) (withIndex : Bool) (path : Bytes) : Bool :=
  tables.any (fun t => strContains path (tableDirName t)) && (!strContains path strIndex || withIndex)

/-- bond.go:464-494 the SST files to ingest. The walk visits paths in lexical order, which does not matter for `ingest`; files other than
those of the dump are not represented. -/
def restoreFiles (base : Bytes) (dirs : List DumpDir) (tables : List UInt8) (withIndex : Bool) : List (List Entry) :=
  dirs.flatMap fun d => (d.files.zipIdx 1).filterMap fun f => if wanted tables withIndex (filePath base d f.2) then some f.1 else none

/-- two SST files do not overlap (condition of pebble on bond.go:498) -/
def apart (a b : List Entry) : Bool :=
  match a.head?, a.getLast?, b.head?, b.getLast? with
  | some a1, some a2, some b1, some b2 => blt a2.1 b1.1 || blt b2.1 a1.1
  | _, _, _, _ => true

/-- are the files pairwise apart? (condition of pebble on bond.go:498) -/
def allApart : List (List Entry) → Bool
  | [] => true
  | a :: as => as.all (apart a) && allApart as

/-- pebble `Ingest` (external): files without entries are skipped; overlapping files are refused; otherwise all entries are added in one
atomic step and replace older ones with the same key (called in bond.go:498). -/
def ingest (db : KV) (files : List (List Entry)) : Option KV :=
  if allApart (files.filter fun f => !f.isEmpty) then some (files.flatten.foldl (fun d e => d.set e.1 e.2) db) else none

/-- bond.go:441-499 `Restore` -/
def restore (base : Bytes) (d : DumpTree) (tables : List UInt8) (withIndex : Bool) (db : KV) : Except DErr KV :=
  if d.version.length < 4 then .error .version
  else if beNat (d.version.take 4) ≠ 1 then .error .version
  else if !tables.all (fun t => d.dirs.any fun x => x.name == tableDirName t) then .error .missing
  else
    match ingest db (restoreFiles base d.dirs tables withIndex) with
    | none => .error .overlap
    | some db' => .ok db'

/-- bond.go:498 what a successful Restore leaves of the dump: pebble's Ingest (external) moves the files into the database ("On success, Ingest
removes the input paths"). A removed file is represented here by a file without entries, which Ingest skips as well. -/
def consumed (base : Bytes) (d : DumpTree) (tables : List UInt8) (withIndex : Bool) : DumpTree :=
  ⟨d.version, d.dirs.map (fun x => ⟨x.table, x.index, x.name,
    (x.files.zipIdx 1).map (fun f => if wanted tables withIndex (filePath base x f.2) then [] else f.1)⟩)⟩

/-- bond.go:441-499 `Restore` with its effect on the dump directory -/
def restoreMove (base : Bytes) (d : DumpTree) (tables : List UInt8) (withIndex : Bool) (db : KV) : (KV × DumpTree) × Option DErr :=
  match restore base d tables withIndex db with
  | .ok db' => ((db', consumed base d tables withIndex), none)
  | .error e => ((db, d), some e)

end Bond
