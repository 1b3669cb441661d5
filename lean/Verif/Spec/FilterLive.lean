import Verif.FilterLive
/-
Specification: what is asked of a filter and of what its initialisation is given (filter.go:14-47).
-/
namespace Bond
variable {T F : Type}

/-- a filter that does not forget (compare `Table.FilterSound`) -/
def FilterKeeps (fl : Filter F) : Prop := ∀ f k, fl.may (fl.add f k) k = true ∧ ∀ k', fl.may f k' = true → fl.may (fl.add f k) k' = true

/-- what the initialisation is given: `Load` only adds, if it succeeds it brings all rows there were at the start, and the table
is among those scanned -/
structure InitCfg.OK (t : Table T (Gate F)) (fl : Filter F) (cfg : InitCfg F) (db0 : KV) : Prop where
  grows : ∀ b f k, fl.may f k = true → fl.may (cfg.load b f) k = true
  loads : ∀ f pk, (db0.get (dataKey t.id pk)).isSome = true → fl.may (cfg.load true f) (dataKey t.id pk) = true
  scanned : none ∈ cfg.scans

end Bond
