import Verif.Spec.Declared
/-
Specification for C101, exact: rows sorted by their declared fields, where a descending field that holds the smallest integer of its width
sorts before every other value, since its negation is itself.
-/
namespace Bond
open Spec
variable {T F : Type}

/-- lexicographic order of tuples of fields, each ascending or, in the order of C05, descending -/
def Spec.orderLtX : List (OrderType × Field) → List (OrderType × Field) → Prop
  | (d, f) :: fs, (_, g) :: gs => (if d = DESC then f.descLt g else f.lt g) ∨ (f = g ∧ orderLtX fs gs)
  | _, _ => False

/-- the order fields decide, then the fields of the primary key -/
def Spec.RowLtX (ordF : T → List (OrderType × Field)) (pkF : T → List Field) (x y : T) : Prop :=
  orderLtX (ordF x) (ordF y) ∨ (ordF x = ordF y ∧ tupleLt (pkF x) (pkF y))

/-- the fields of the index value decide, then the order fields, then the primary key -/
def Spec.EntryLtX (keyF : T → List Field) (ordF : T → List (OrderType × Field)) (pkF : T → List Field) (x y : T) : Prop :=
  tupleLt (keyF x) (keyF y) ∨ (keyF x = keyF y ∧ RowLtX ordF pkF x y)

/-- `Declared` without the condition on smallest integers: the primary key, index key and index order functions, on the records `A`, are calls of
the builders with these fields, which do not panic (index.go:405-422, table.go:1224-1234). In the primary key only the last field may be a
string, in the index value one field, in the order none. -/
structure DeclaredAny (t : Table T F) (idx : Index T) (pkF keyF : T → List Field) (ordF : T → List (OrderType × Field)) (A : T → Prop) : Prop where
  pk : ∀ x, A x → ∃ b, (KeyBuilder.new []).addFields (pkF x) = some b ∧ b.bytes = t.pk x
  key : ∀ x, A x → ∃ b, (KeyBuilder.new []).addFields (keyF x) = some b ∧ b.bytes = idx.key x
  ord : ∀ x, A x → ∃ o, (IndexOrder.mk (KeyBuilder.new [])).orderFields (ordF x) = some o ∧ o.bytes = idx.ord x
  pkKind : ∀ x y, A x → A y → (pkF x).map Field.kind = (pkF y).map Field.kind
  keyKind : ∀ x y, A x → A y → (keyF x).map Field.kind = (keyF y).map Field.kind
  ordKind : ∀ x y, A x → A y → (ordF x).map (fun p => (p.1, p.2.kind)) = (ordF y).map (fun p => (p.1, p.2.kind))
  pkFixed : ∀ x, A x → ∀ f ∈ (pkF x).dropLast, f.kind.fixed = true
  keyOne : ∀ x, A x → ((keyF x).filter (fun f => !f.kind.fixed)).length ≤ 1
  ordFixed : ∀ x, A x → ∀ p ∈ ordF x, p.2.kind.fixed = true

end Bond
