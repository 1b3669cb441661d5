import Verif.PointHistory
import Verif.Props.Reads
/-
C21: the point reads after histories with almost no condition on the calls.
-/
namespace Bond
open Spec
variable {T F : Type}

/-! ## C21 Get and Exist return the latest committed write -/

/-- C21. After any history of calls without batch in which
  * Update repeats no key, or the sort is stable;
  * Upsert repeats no key and its conflict function keeps the primary key;
  * UnsafeUpdate on a table with a filter is given stored rows,
and all other calls are arbitrary (Delete and UnsafeUpdate with outdated records, UnsafeInsert of stored keys, conflict functions
that modify their arguments, repetitions across the slices of an Insert), with failed calls and changes by others anywhere,
GetPoint returns the record the history specifies for the key, or ErrNotFound if there is none; Exist agrees. The indexes may be in
any state.
Missing for the full C21: the calls excluded above; each of them can break it, `C21_refuted`. -/
theorem C21_points_partial {t : Table T F} (wf : t.WF) (rt : t.RoundTrip) (fs : t.FilterSound) {cs : List (WCall T)} {db : KV} {f : F}
    (h : PointHistory t cs db f) (x : T) :
    t.getPoint f db none x = (match content t.pk cs (t.pk x) with | some y => .ok y | none => .error .notFound) ∧
    t.exist f db none x = (content t.pk cs (t.pk x)).isSome := by
  obtain ⟨hD, hC⟩ := pointHistory_holds wf rt fs h
  have hF := hD.covers hC
  exact ⟨getPoint_points (fun x b hb => rt x b hb _) rfl hD hF x, exist_points rfl hD hF x⟩

/-- a history with calls that leave the index entries wrong: Delete and UnsafeUpdate with outdated records, UnsafeInsert of a stored key -/
example : ∃ cs db f, PointHistory exTable cs db f ∧ cs.length = 4 ∧ exTable.getPoint f db none (1, 0) = .ok (1, 8) ∧
    exTable.getPoint f db none (2, 0) = .error .notFound ∧
    exTable.getPoint f db none (3, 0) = .ok (3, 4) ∧ (db.get (exTable.indexKey exIndex (2, 6))).isSome = true := by
  refine ⟨_, _, _, PointHistory.succeeded (PointHistory.succeeded (PointHistory.succeeded (PointHistory.failed (PointHistory.succeeded
    (PointHistory.start (db := KV.empty) () (fun _ => rfl))
    (stdEnv exTable) (stdEnv_ok _) (.insert [(2, 6), (1, 5), (3, 3)]) trivial (by decide))
    (stdEnv exTable) (stdEnv_ok _) (.insert [(3, 3), (1, 7)]) (by decide))
    (stdEnv exTable) (stdEnv_ok _) (.delete [(2, 9)]) trivial (by decide))
    (stdEnv exTable) (stdEnv_ok _) (.unsafeInsert [(3, 9), (3, 4)]) trivial (by decide))
    (stdEnv exTable) (stdEnv_ok _) (.unsafeUpdate [(1, 8)] [(1, 0)]) (by intro h; exact absurd h (by decide)) (by decide),
    rfl, by decide, by decide, by decide, by decide⟩

/-- C21 is false for the calls excluded from `PointCall`: after UnsafeUpdate of a row that is not stored, on a table with a filter,
GetPoint does not find the row; after an Upsert with a repeated key GetPoint returns the first of the two records although the
conflict function takes the new one; and a conflict function that changes the primary key stores its record under the key of the
old one, where GetPoint finds a record with another key. All calls succeed. -/
theorem C21_refuted :
    (let o := exFilterTable.run (stdEnv exFilterTable) KV.empty [] none (.unsafeUpdate [(1, 5)] [(1, 4)])
     o.err = none ∧ exFilterTable.getPoint o.filt o.db none (1, 0) = .error .notFound ∧
     content exFilterTable.pk [.unsafeUpdate [(1, 5)] [(1, 4)]] [1] = some (1, 5)) ∧
    (let o := exTable.run (stdEnv exTable) KV.empty () none (.upsert ocNew [(2, 1), (1, 2), (1, 3)])
     o.err = none ∧ exTable.getPoint o.filt o.db none (1, 0) = .ok (1, 2) ∧
     content exTable.pk [.upsert ocNew [(2, 1), (1, 2), (1, 3)]] [1] = some (1, 3)) ∧
    (let o := exTable.run (stdEnv exTable) exDB () none (.upsert (fun o n => ((n.1 + 7, n.2), o)) [(1, 9)])
     o.err = none ∧ exTable.getPoint o.filt o.db none (1, 0) = .ok (8, 9)) := by decide

end Bond
