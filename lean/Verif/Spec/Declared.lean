import Verif.Spec.Fields
import Verif.Spec.Scans
/-
Specification: rows sorted by the fields that a table and its index are declared with. Nothing here mentions an encoding.
-/
namespace Bond
open Spec
variable {T F : Type}

/-- lexicographic order of tuples of fields, each ascending or descending -/
def Spec.orderLt : List (OrderType × Field) → List (OrderType × Field) → Prop
  | (d, f) :: fs, (_, g) :: gs => (if d = DESC then g.lt f else f.lt g) ∨ (f = g ∧ orderLt fs gs)
  | _, _ => False

/-- the order fields decide, then the fields of the primary key -/
def Spec.RowLt (ordF : T → List (OrderType × Field)) (pkF : T → List Field) (x y : T) : Prop :=
  orderLt (ordF x) (ordF y) ∨ (ordF x = ordF y ∧ tupleLt (pkF x) (pkF y))

/-- the fields of the index value decide, then the order fields, then the primary key -/
def Spec.EntryLt (keyF : T → List Field) (ordF : T → List (OrderType × Field)) (pkF : T → List Field) (x y : T) : Prop :=
  tupleLt (keyF x) (keyF y) ∨ (keyF x = keyF y ∧ RowLt ordF pkF x y)

/-- An index order function calls one method of IndexOrder per field (index.go:29-110; `none` is a panic). -/
def IndexOrder.orderFields (o : IndexOrder) : List (OrderType × Field) → Option IndexOrder
  | [] => some o
  | (d, f) :: l => (o.orderField d f).bind (fun o' => o'.orderFields l)

/-- The primary key, index key and index order functions, on the records `A`, are the calls of the builders with these fields, which do not
panic (index.go:405-422, table.go:1224-1234); the types of the fields do not depend on the record. In the primary key only the last field may be a
string, in the index value one field, in the order none; and no descending field holds the smallest integer of its width (see C04, C05). -/
structure Declared (t : Table T F) (idx : Index T) (pkF keyF : T → List Field) (ordF : T → List (OrderType × Field)) (A : T → Prop) : Prop where
  pk : ∀ x, A x → ∃ b, (KeyBuilder.new []).addFields (pkF x) = some b ∧ b.bytes = t.pk x
  key : ∀ x, A x → ∃ b, (KeyBuilder.new []).addFields (keyF x) = some b ∧ b.bytes = idx.key x
  ord : ∀ x, A x → ∃ o, (IndexOrder.mk (KeyBuilder.new [])).orderFields (ordF x) = some o ∧ o.bytes = idx.ord x
  pkKind : ∀ x y, A x → A y → (pkF x).map Field.kind = (pkF y).map Field.kind
  keyKind : ∀ x y, A x → A y → (keyF x).map Field.kind = (keyF y).map Field.kind
  ordKind : ∀ x y, A x → A y → (ordF x).map (fun p => (p.1, p.2.kind)) = (ordF y).map (fun p => (p.1, p.2.kind))
  pkFixed : ∀ x, A x → ∀ f ∈ (pkF x).dropLast, f.kind.fixed = true
  keyOne : ∀ x, A x → ((keyF x).filter (fun f => !f.kind.fixed)).length ≤ 1
  ordFixed : ∀ x, A x → ∀ p ∈ ordF x, p.2.kind.fixed = true
  ordMin : ∀ x, A x → ∀ p ∈ ordF x, p.1 = DESC → p.2.minInt = false

end Bond
