import Verif.Scan
/-
Model of table_utils.go `TableAnyScanner`. Records are passed on unchanged, so the record type stays `T` (in Go it
becomes `any`). `NewIndex` of the adapted functions (table_utils.go:46-64) is an index with the same functions.
-/
namespace Bond
variable {T F σ : Type}

/-- table_utils.go:31-41, 66-75 the rows of a scan are appended only if it succeeds -/
def anyAppend (tr : List T) : Option (ScanOut (List T)) → Option (ScanOut (List T))
  | none => none
  | some ⟨_, some e⟩ => some ⟨tr, some e⟩
  | some ⟨ttr, none⟩ => some ⟨tr ++ ttr, none⟩

/-- table_utils.go:30-42 `scan` -/
def Table.anyScan (t : Table T F) (env : Env T) (filt : F) (db : KV) (ob : Option Batch) (reverse : Bool) (fuel : Nat)
    (tr : List T) : Option (ScanOut (List T)) :=
  anyAppend tr (t.scan env filt db ob reverse fuel [])

/-- table_utils.go:43-76 `scanIndex` -/
def Table.anyScanIndex (t : Table T F) (env : Env T) (filt : F) (db : KV) (ob : Option Batch) (idx : Index T)
    (sel : Selector T) (reverse : Bool) (fuel : Nat) (tr : List T) : Option (ScanOut (List T)) :=
  anyAppend tr (t.scanIndex env filt db ob idx sel reverse fuel [])

/-- A selector as the interface of the adapter takes it (selector.go:14-16: an interface with the method `Type` only):
made for the record type of the table, or made for `any`, as `NewSelectorPoint[any]` does. -/
inductive AnySelector (T : Type)
  | typed (sel : Selector T)
  | untyped (sel : Selector T)

/-- table_utils.go:66, 106 `s.(Selector[T])` succeeds for both, as both have the method `Type`; index.go:184, 203, 229, 250
`selector.(SelectorPoint[T])` and its like panic for a selector made for `any`, whose methods have other types -/
def Table.anyScanIndexSel (t : Table T F) (env : Env T) (filt : F) (db : KV) (ob : Option Batch) (idx : Index T)
    (sel : AnySelector T) (reverse : Bool) (fuel : Nat) (tr : List T) : Option (ScanOut (List T)) :=
  match sel with
  | .typed sel => t.anyScanIndex env filt db ob idx sel reverse fuel tr
  | .untyped _ => some ⟨tr, some .panic⟩

/-- table_utils.go:77-85 `scanForEach`: the batch is not passed on -/
def Table.anyScanForEach (t : Table T F) (env : Env T) (filt : F) (view : σ → KV × Option Batch)
    (f : σ → Bytes → Cb σ T) (reverse : Bool) (fuel : Nat) (s : σ) : Option (ScanOut σ) :=
  t.scanForEach env filt (fun s => ((view s).1, none)) f reverse fuel s

/-- table_utils.go:86-114 `scanIndexForEach`: the batch is not passed on -/
def Table.anyScanIndexForEach (t : Table T F) (env : Env T) (filt : F) (view : σ → KV × Option Batch) (idx : Index T)
    (sel : Selector T) (f : σ → Bytes → Cb σ T) (reverse : Bool) (fuel : Nat) (s : σ) : Option (ScanOut σ) :=
  t.scanIndexForEach env filt (fun s => ((view s).1, none)) idx sel f reverse fuel s

end Bond
