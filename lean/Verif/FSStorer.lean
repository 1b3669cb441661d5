import Verif.Bloom
/-
Model of filters/filter_fs_storer.go: filter data in files of one directory.
-/
namespace Bond

/-- filters/filter_fs_storer.go:20 the characters that `[^A-Za-z0-9_.]` does not match. The regular expression matches runes; every byte of a
non-ASCII rune, and every byte of invalid UTF-8, is at least 0x80, so matching bytes is the same. -/
def fsAllowed (c : UInt8) : Bool :=
  (65 ≤ c && c ≤ 90) || (97 ≤ c && c ≤ 122) || (48 ≤ c && c ≤ 57) || c == 95 || c == 46

/-- filters/filter_fs_storer.go:60 `ReplaceAllLiteralString(fileName, "")` -/
def fsSanitize (key : Bytes) : Bytes := key.filter fsAllowed

/-- filters/filter_fs_storer.go:57-62 `prepareFilePath` with the storer's directory: the name of a file in it. `none`: the joined path is a
directory (the names "", "." and ".." are resolved by path.Join), which cannot be read or written as a file. -/
def fsName (key : Bytes) : Option Bytes :=
  let n := fsSanitize key
  if n = [] ∨ n = [46] ∨ n = [46, 46] then none else some n

/-- The directory: `none` if it does not exist, otherwise its files by name. Subdirectories and files that cannot be accessed are not
represented; failing operations are parameters (filters/filter_fs_storer.go:14-17). -/
structure FSDir where
  dir : Option KV

/-- filters/filter_fs_storer.go:23-31 `Get`; `none` is an error -/
def FSDir.get (d : FSDir) (key : Bytes) : Option Bytes :=
  match d.dir, fsName key with
  | some files, some n => files.get n
  | _, _ => none

/-- filters/filter_fs_storer.go:33-41 `Set`; the second component tells whether it returned no error. os.WriteFile truncates the file and then
writes: `written` is how many bytes reach the file, all of them unless the process dies or the disk fails. `openOk`: the file could be
opened. -/
def FSDir.setTorn (openOk : Bool) (written : Nat) (d : FSDir) (key value : Bytes) : FSDir × Bool :=
  match d.dir, fsName key with
  | some files, some n =>
    if openOk then (⟨some (files.set n (value.take written))⟩, decide (value.length ≤ written)) else (d, false)
  | _, _ => (d, false)

/-- filters/filter_fs_storer.go:33-41 `Set` without failures -/
def FSDir.set (d : FSDir) (key value : Bytes) : FSDir × Bool := d.setTorn true value.length key value

/-- filters/filter_fs_storer.go:47-52 the walk over the files (fs.WalkDir visits them in lexical order): every file whose name is at least
`startFile` is removed; the first failing removal ends the walk. `rmOk n` tells whether the n-th os.Remove succeeds. -/
def fsRemoveLoop (rmOk : Nat → Bool) (startFile : Bytes) : List (Bytes × Bytes) → Nat → KV → KV × Bool
  | [], _, files => (files, true)
  | (name, _) :: rest, n, files =>
    if ble startFile name then
      if rmOk n then fsRemoveLoop rmOk startFile rest (n + 1) (files.del name) else (files, false)
    else fsRemoveLoop rmOk startFile rest n files

/-- filters/filter_fs_storer.go:43-55 `DeleteRange`; `hi` (the parameter `end`) is not used by the code. The walk starts with the directory
itself under the name ".": if "." is not below `startFile`, os.Remove is called on the directory, which fails unless it is empty; if it
is empty it is gone, and the walk ends with an error because it cannot be read. -/
def FSDir.deleteRange (rmOk : Nat → Bool) (d : FSDir) (lo _hi : Bytes) : FSDir × Bool :=
  let startFile := fsSanitize lo
  if ble startFile [46] then
    match d.dir with
    | none => (d, false)
    | some files => if files.l = [] ∧ rmOk 0 then (⟨none⟩, false) else (d, false)
  else
    match d.dir with
    | none => (d, true)
    | some files => let r := fsRemoveLoop rmOk startFile files.l 0 files; (⟨some r.1⟩, r.2)

/-- a call of the file based storer that changes files (filters/filter_fs_storer.go:33-55) -/
inductive FSCall
  | set (k v : Bytes) | del (lo hi : Bytes)

/-- filters/filter_fs_storer.go:33-55 a call, without failures of the file system; the second component: it returned no error -/
def FSDir.call (d : FSDir) : FSCall → FSDir × Bool
  | .set k v => d.set k v
  | .del lo hi => d.deleteRange (fun _ => true) lo hi

/-- what the filter sees of the directory through `Get` (filters/filter_fs_storer.go:23-31) -/
def FSDir.store (d : FSDir) : FStore := fun key => d.get key

end Bond
