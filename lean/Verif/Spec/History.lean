import Verif.Calls
/-
Specification: what a successful write call does to the abstract content of its table.
-/
namespace Bond
open Spec
variable {T : Type}

/-- Content after one successful write call on content `m`; `pk` gives the primary key of a record. -/
def Spec.effect (pk : T → Bytes) (m : Rows T) : WCall T → Rows T
  | .insert trs => m.putAll pk trs
  | .update trs => m.putAll pk trs
  | .upsert oc trs => m.upsertAll pk (fun o x => (oc o x).1) trs
  | .delete trs => m.eraseAll (trs.map pk)
  | .unsafeInsert trs => m.putAll pk trs
  | .unsafeUpdate trs _ => m.putAll pk trs

/-- Content after a list of successful calls, oldest first, starting without rows. -/
def Spec.content (pk : T → Bytes) (cs : List (WCall T)) : Rows T := cs.foldl (Spec.effect pk) (fun _ => none)

end Bond
