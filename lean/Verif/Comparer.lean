import Verif.Key
import Verif.Store
/-
Model of the comparer that the library installs in pebble: keys.go:339-347, bond.go:192, options.go:48.
-/
namespace Bond

/-- keys.go:339-347 `DefaultKeyComparer`: `key[:Split(key)]`, the part of a key that pebble puts into its bloom filters and that
SeekPrefixGE (iter.go:22) compares; `none` is a panic. -/
def comparerPrefix (k : Bytes) : Option Bytes := (keyPrefixSplit k).bind (fun n => slice k 0 n)

/-- iter.go:22 `SeekPrefixGE` and the calls of `Next` after it (pebble, external): from the first entry that is not below the key, as long
as the prefix is that of the key; `none` is a panic on one of the keys looked at. -/
def prefixRun (p : Bytes) : List (Bytes × Bytes) → Option (List (Bytes × Bytes))
  | [] => some []
  | e :: l =>
    match comparerPrefix e.1 with
    | none => none
    | some q => if q = p then (prefixRun p l).map (e :: ·) else some []

/-- iter.go:22 (pebble, external) `SeekPrefixGE` on all entries -/
def KV.seekPrefixGE (s : KV) (k : Bytes) : Option (List (Bytes × Bytes)) :=
  (comparerPrefix k).bind (fun p => prefixRun p (s.l.dropWhile (fun e => blt e.1 k)))

end Bond
