import Verif.Spec.Machine
import Verif.FailLemmas
import Verif.Props.InsertExact
/-
Lemmas for C97: which errors undisturbed calls return.
-/
namespace Bond
open Spec
variable {T F : Type}

theorem forChunks_kind {σ α : Type} {f : List α → σ → σ × Option Err} {Q : List (List α) → σ → Prop} {E : Option Err → Prop} (h0 : E none)
    (hf : ∀ c cs s, Q (c :: cs) s → E (f c s).2 ∧ ((f c s).2 = none → Q cs (f c s).1)) :
    ∀ cs s, Q cs s → E (forChunks f cs s).2 := by
  intro cs
  induction cs with
  | nil => intro s _; exact h0
  | cons c cs ih =>
    intro s hQ
    obtain ⟨a, b⟩ := hf c cs s hQ
    rw [forChunks]
    split
    · rename_i s' h; rw [h] at b; exact ih s' (b rfl)
    · rename_i s' e h; rw [h] at a; exact a

theorem insertLoop_kind {t : Table T F} {env : Env T} {entries : List (Bytes × Bytes)} {trs : List T} {items : List (Bytes × Nat)}
    {rs : List T} (hd : Describes t trs items rs) (hdone : ∀ n, env.done n = false) (hser : ∀ x, (t.ser x).isSome) :
    ∀ {prev : Option Bytes} {s : WSt T F}, (t.insertLoop env entries trs prev items s).2 = none ∨
      (t.insertLoop env entries trs prev items s).2 = some .alreadyExist := by
  induction hd with
  | nil => intros; exact Or.inl rfl
  | @cons e r items rs hr hd ih =>
    intro prev s
    obtain ⟨k, j⟩ := e
    rw [Table.insertLoop, if_neg (by simp [hdone])]
    split
    · exact Or.inr rfl
    · simp only [hr.1]
      obtain ⟨data, hdata⟩ := Option.isSome_iff_exists.1 (hser r)
      simp only [hdata]
      exact ih

theorem updateLoop_kind {t : Table T F} {env : Env T} {entries : List (Bytes × Bytes)} {trs : List T} {items : List (Bytes × Nat)}
    {rs : List T} (hd : Describes t trs items rs) (hdone : ∀ n, env.done n = false) (hser : ∀ x, (t.ser x).isSome) :
    (∀ r ∈ rs, ∀ v, seekExact entries (t.key r) = some v → ∀ o, (t.deser o v).isSome) →
    ∀ {s : WSt T F}, (t.updateLoop env entries trs items s).2 = none ∨ (t.updateLoop env entries trs items s).2 = some .notFound := by
  induction hd with
  | nil => intros; exact Or.inl rfl
  | @cons e r items rs hr hd ih =>
    intro hv s
    obtain ⟨k, j⟩ := e
    rw [Table.updateLoop, if_neg (by simp [hdone])]
    split
    · exact ih (fun r hr => hv r (by simp [hr]))
    · have hk : k = t.key r := hr.2
      split
      · exact Or.inr rfl
      · rename_i v hs
        rw [hk] at hs
        obtain ⟨old, ho⟩ := Option.isSome_iff_exists.1 (hv r (by simp) v hs s.oldTr)
        obtain ⟨data, hdata⟩ := Option.isSome_iff_exists.1 (hser r)
        simp only [ho, hr.1, hdata]
        exact ih (fun r hr => hv r (by simp [hr]))

theorem deleteLoop_kind (t : Table T F) {env : Env T} (hdone : ∀ n, env.done n = false) (trs : List T) :
    ∀ s : WSt T F, (t.deleteLoop env trs s).2 = none := by
  induction trs with
  | nil => intro s; rfl
  | cons x trs ih => intro s; rw [Table.deleteLoop, if_neg (by simp [hdone])]; exact ih _

theorem unsafeInsertLoop_kind (t : Table T F) {env : Env T} (hdone : ∀ n, env.done n = false) (hser : ∀ x, (t.ser x).isSome) (trs : List T) :
    ∀ s : WSt T F, (t.unsafeInsertLoop env trs s).2 = none := by
  induction trs with
  | nil => intro s; rfl
  | cons x trs ih =>
    intro s
    obtain ⟨data, hdata⟩ := Option.isSome_iff_exists.1 (hser x)
    rw [Table.unsafeInsertLoop, if_neg (by simp [hdone])]
    simp only [hdata]
    exact ih _

theorem unsafeUpdateLoop_kind (t : Table T F) {env : Env T} (hdone : ∀ n, env.done n = false) (hser : ∀ x, (t.ser x).isSome)
    (l : List (T × T)) : ∀ s : WSt T F, (t.unsafeUpdateLoop env l s).2 = none := by
  induction l with
  | nil => intro s; rfl
  | cons x l ih =>
    intro s
    obtain ⟨x, o⟩ := x
    obtain ⟨data, hdata⟩ := Option.isSome_iff_exists.1 (hser x)
    rw [Table.unsafeUpdateLoop, if_neg (by simp [hdone])]
    simp only [hdata]
    exact ih _

theorem finish_kind {env : Env T} {db : KV} {ob : Option Batch} {r : WSt T F × Option Err} (hc : env.commitOk = true) :
    (finish env db ob r).err = r.2 := by
  unfold finish
  cases ob with
  | some b => rfl
  | none =>
    cases h : r.2 with
    | some e => rfl
    | none => simp only [hc, if_true]; split <;> rfl

/-- what an undisturbed call returns -/
theorem run_result {t : Table T F} (wf : t.WF) (rt : t.RoundTrip) (fs : t.FilterSound) {env : Env T} (ok : env.OK t)
    {db : KV} {f : F} {ob : Option Batch} {m : Rows T} {c : WCall T} (hb : Readable ob)
    (hH : Holds t (baseView db ob) m) (hF : FilterCovers t f m) (hg : GoodRun t env (baseView db ob) c)
    (hu : Undisturbed env) (hser : ∀ x, (t.ser x).isSome) : Result t m c (t.run env db f ob c).err := by
  obtain ⟨hdone, hc⟩ := hu
  obtain ⟨hgc, -⟩ := hg
  have hcr : ∀ {trs : List T}, (trs.map t.pk).Nodup ∨ trs.length ≤ 5000 → CallReads t db ob persistentBatchSize trs := fun h => callReads_of hb h
  cases c with
  | insert trs =>
    have hk : (t.run env db f ob (.insert trs)).err = none ∨ (t.run env db f ob (.insert trs)).err = some .alreadyExist := by
      rw [Table.run_eq, if_neg (by simp [WCall.mismatch]), finish_kind hc]
      exact forChunks_kind (Q := fun _ _ => True) (E := fun e => e = none ∨ e = some .alreadyExist) (Or.inl rfl)
        (fun c cs s _ => ⟨insertLoop_kind (describes_sort t env ok c).1 hdone hser, fun _ => trivial⟩) _ _ trivial
    have hiff : (t.run env db f ob (.insert trs)).err = none ↔ (∀ x ∈ trs, m (t.pk x) = none) ∧ (trs.map t.pk).Nodup := by
      constructor
      · intro he
        obtain ⟨_, _, _, a, b⟩ := insert_view wf ok fs (by decide : 0 < persistentBatchSize) hH hF (hcr hgc) he
        exact ⟨b, a⟩
      · rintro ⟨h1, h2⟩
        exact finish_complete (insertBody_complete wf ok fs (by decide) hH hF (hcr hgc) hdone (fun x _ => hser x) h2 h1) hc
    exact ⟨fun h => hiff.2 h, fun h => hk.resolve_left (fun h' => h (hiff.1 h'))⟩
  | update trs =>
    have hk : (t.run env db f ob (.update trs)).err = none ∨ (t.run env db f ob (.update trs)).err = some .notFound := by
      rw [Table.run_eq, if_neg (by simp [WCall.mismatch]), finish_kind hc]
      refine forChunks_kind (Q := fun cs s => ∃ m, ReadsOK t db (baseView db ob) ob s.ops cs ∧
        Holds t ((baseView db ob).apply s.ops) m ∧ FilterCovers t s.filt m) (E := fun e => e = none ∨ e = some .notFound) (Or.inl rfl) ?_ _ _
        ⟨m, readsOK_of (by decide) (hcr hgc), by simpa [Table.start, KV.apply_nil] using hH, hF⟩
      rintro c cs s ⟨m, h1, h2, h3⟩
      obtain ⟨hd, hp⟩ := describes_sort t env ok c
      refine ⟨updateLoop_kind hd hdone hser ?_, fun he => ?_⟩
      · intro r hr v hv o
        rw [seekExact_scan _ (sortedRows_lo t ok c r hr) (dataKey_lt_end t (t.pk r)), h1.head r (hp.mem_iff.1 hr)] at hv
        cases hm : m (t.pk r) with
        | none => rw [show t.key r = dataKey t.id (t.pk r) from rfl, h2.absent _ hm] at hv; cases hv
        | some old =>
          obtain ⟨b, hb, hg⟩ := h2.present _ _ hm
          rw [show t.key r = dataKey t.id (t.pk r) from rfl, hg] at hv
          cases hv
          rw [rt old _ hb o]; rfl
      · obtain ⟨a, _, c', _⟩ := updateChunk_ok wf ok rt h1.head h2 h3 (s' := (t.updateChunk env db ob c s).1) (Prod.ext rfl he)
        exact ⟨_, h1.tail h2 a (fun p hq => putAll_other _ _ _ _ (fun x hx => hq x (hp.mem_iff.1 hx))), a, c'⟩
    have hiff : (t.run env db f ob (.update trs)).err = none ↔ ∀ x ∈ trs, (m (t.pk x)).isSome :=
      ⟨fun he => (update_view wf ok rt (by decide) (bs := persistentBatchSize) hH hF (hcr hgc) he).2.2.2,
       fun h => update_complete wf ok rt (by decide) hH hF (hcr hgc) hdone hc (fun x _ => hser x) h⟩
    exact ⟨fun h => hiff.2 h, fun h => hk.resolve_left (fun h' => h (hiff.1 h'))⟩
  | upsert oc trs => exact upsert_complete wf ok rt fs (by decide) hgc.2 hgc.1 hH hF (hcr (Or.inl hgc.1)) hdone hc hser
  | delete trs =>
    show (t.run env db f ob (.delete trs)).err = none
    rw [Table.run_eq, if_neg (by simp [WCall.mismatch]), finish_kind hc]
    exact deleteLoop_kind t hdone trs _
  | unsafeInsert trs =>
    show (t.run env db f ob (.unsafeInsert trs)).err = none
    rw [Table.run_eq, if_neg (by simp [WCall.mismatch]), finish_kind hc]
    exact forChunks_complete (P := fun _ _ => True) (fun c cs s _ => ⟨unsafeInsertLoop_kind t hdone hser c s, trivial⟩) _ _ trivial
  | unsafeUpdate trs olds =>
    refine ⟨fun h => ?_, fun h => ?_⟩
    · rw [Table.run_eq, if_neg (by simp [WCall.mismatch, h]), finish_kind hc]
      exact unsafeUpdateLoop_kind t hdone hser _ _
    · rw [Table.run_eq, if_pos (by simp [WCall.mismatch, h])]

end Bond
