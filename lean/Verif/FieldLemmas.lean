import Verif.KeyBuilderLemmas
import Verif.Spec.Fields
/- Every field appends "field id, payload"; payload lemmas. -/
namespace Bond
open Spec

/-- payload of a field, without the field id -/
def payload : Field → Option Bytes
  | .i64 v => some (encSigned 8 v)
  | .i32 v => some (encSigned 4 v)
  | .i16 v => some (encSigned 2 v)
  | .u64 v => some (beBytes 8 v.toNat)
  | .u32 v => some (beBytes 4 v.toNat)
  | .u16 v => some (beBytes 2 v.toNat)
  | .byte v => some [v]
  | .str s => some s
  | .bytes s => some s
  | .big v bits =>
    if v.natAbs < 256 ^ (bits / 8) then
      some (if v < 0 then 0 :: (beBytes (bits / 8) v.natAbs).map (fun x => 0xFF - x)
        else if v = 0 then 1 :: beBytes (bits / 8) v.natAbs
        else 2 :: beBytes (bits / 8) v.natAbs)
    else none

theorem addBigInt_eq (b : KeyBuilder) (v bits) :
    b.addBigIntField v bits = (payload (.big v bits)).map
      (fun p => ⟨b.buff ++ [b.fid + 1] ++ p, b.fid + 1⟩) := by
  unfold KeyBuilder.addBigIntField KeyBuilder.putFieldID payload KeyBuilder.fillBytes
  rcases Int.lt_trichotomy v 0 with h | h | h
  · have : v.sign = -1 := Int.sign_eq_neg_one_of_neg h
    simp only [this]
    split <;> simp_all
  · subst h; simp
    by_cases hb : 0 < 256 ^ (bits / 8) <;> simp [hb]
  · have : v.sign = 1 := Int.sign_eq_one_of_pos h
    simp only [this]
    have h2 : ¬ v < 0 := by omega
    have h3 : ¬ v = 0 := by omega
    split <;> simp_all

theorem addField_eq (b : KeyBuilder) (f : Field) :
    b.addField f = (payload f).map (fun p => ⟨b.buff ++ [b.fid + 1] ++ p, b.fid + 1⟩) := by
  cases f <;> simp [KeyBuilder.addField, payload, addInt64Field_eq, addInt32Field_eq, addInt16Field_eq,
    KeyBuilder.addUint64Field, KeyBuilder.addUint32Field, KeyBuilder.addUint16Field, KeyBuilder.addByteField,
    KeyBuilder.addStringField, KeyBuilder.addBytesField, KeyBuilder.putFieldID]
  rw [addBigInt_eq]; simp [payload]

theorem payload_length {f g : Field} (hk : f.kind = g.kind) (hf : f.kind.fixed = true) {p q : Bytes}
    (hp : payload f = some p) (hq : payload g = some q) : p.length = q.length := by
  cases f <;> cases g <;> simp [Field.kind] at hk <;> simp [Field.kind, Kind.fixed] at hf <;>
    simp [payload] at hp hq
  case big =>
    subst hk
    obtain ⟨_, hp⟩ := hp; obtain ⟨_, hq⟩ := hq
    subst hp; subst hq
    split <;> split <;> try split
    all_goals try split
    all_goals simp
  all_goals subst hp; subst hq; simp

theorem map_compl_blt {a b : Bytes} (h : a.length = b.length) :
    blt (a.map (fun x => 0xFF - x)) (b.map (fun x => 0xFF - x)) = blt b a := by
  induction a generalizing b with
  | nil => cases b <;> simp_all [blt]
  | cons x xs ih =>
    cases b with
    | nil => simp at h
    | cons y ys =>
      simp only [List.length_cons, Nat.add_right_cancel_iff] at h
      have ih := ih h
      have e1 : ∀ u v : UInt8, (0xFF - u < 0xFF - v) ↔ v < u := by intro u v; grind
      simp only [List.map_cons, blt, ih, e1]

theorem payload_lt {f g : Field} (hk : f.kind = g.kind) {p q : Bytes}
    (hp : payload f = some p) (hq : payload g = some q) : blt p q = true ↔ f.lt g := by
  cases f <;> cases g <;> simp [Field.kind] at hk <;> simp only [payload] at hp hq
  case big v bits w bits' =>
    subst hk
    split at hp <;> simp at hp
    split at hq <;> simp at hq
    rename_i h1 h2
    subst hp; subst hq
    simp only [Field.lt]
    split <;> split <;> (try split) <;> (try split)
    all_goals try (simp [blt]; omega)
    all_goals try (subst_vars; simp [blt_irrefl]; done)
    all_goals try (subst_vars; simp [blt]; done)
    · rw [cons_blt_same, map_compl_blt (by simp), blt_beBytes h2 h1]; omega
    · rw [cons_blt_same, blt_beBytes h1 h2]; omega
  all_goals (simp at hp hq; subst hp; subst hq; simp only [Field.lt])
  · exact blt_encSigned (n := 8) _ _
  · exact blt_encSigned (n := 4) _ _
  · exact blt_encSigned (n := 2) _ _
  · exact blt_beBytes (n := 8) (toNat_lt256 (n := 8) _) (toNat_lt256 (n := 8) _)
  · exact blt_beBytes (n := 4) (toNat_lt256 (n := 4) _) (toNat_lt256 (n := 4) _)
  · exact blt_beBytes (n := 2) (toNat_lt256 (n := 2) _) (toNat_lt256 (n := 2) _)
  · rename_i v w; simp [blt]

theorem field_tri {f g : Field} (hk : f.kind = g.kind) : f.lt g ∨ f = g ∨ g.lt f := by
  cases f <;> cases g <;> simp [Field.kind] at hk <;> simp [Field.lt]
  case i64 v w => rw [← BitVec.toInt_inj]; omega
  case i32 v w => rw [← BitVec.toInt_inj]; omega
  case i16 v w => rw [← BitVec.toInt_inj]; omega
  case u64 v w => rw [← BitVec.toNat_inj]; omega
  case u32 v w => rw [← BitVec.toNat_inj]; omega
  case u16 v w => rw [← BitVec.toNat_inj]; omega
  case byte v w => grind
  case str v w => exact blt_tri v w
  case bytes v w => exact blt_tri v w
  case big v b w b' => omega

theorem payload_inj {f g : Field} (hk : f.kind = g.kind) {p : Bytes}
    (hp : payload f = some p) (hq : payload g = some p) : f = g := by
  rcases field_tri hk with h | h | h
  · have := (payload_lt hk hp hq).2 h; rw [blt_irrefl] at this; simp at this
  · exact h
  · have := (payload_lt hk.symm hq hp).2 h; rw [blt_irrefl] at this; simp at this

/-- encoding of a list of fields after the builder's current content -/
def encFields : UInt8 → List Field → Option Bytes
  | _, [] => some []
  | fid, f :: fs =>
    match payload f, encFields (fid + 1) fs with
    | some p, some r => some ((fid + 1) :: (p ++ r))
    | _, _ => none

theorem addFields_bytes (b : KeyBuilder) (fs : List Field) :
    (b.addFields fs).map KeyBuilder.bytes = (encFields b.fid fs).map (b.buff ++ ·) := by
  induction fs generalizing b with
  | nil => simp [KeyBuilder.addFields, encFields, KeyBuilder.bytes]
  | cons f fs ih =>
    simp only [KeyBuilder.addFields, addField_eq, encFields]
    cases payload f with
    | none => simp
    | some p =>
      simp only [Option.map_some, Option.bind_some, ih]
      cases encFields (b.fid + 1) fs <;> simp


theorem encFields_lt {fs gs : List Field} (hk : fs.map Field.kind = gs.map Field.kind)
    (hv : (fs.dropLast.all (fun f => f.kind.fixed)) = true) {fid : UInt8} {p q : Bytes}
    (hp : encFields fid fs = some p) (hq : encFields fid gs = some q) :
    blt p q = true ↔ tupleLt fs gs := by
  induction fs generalizing gs fid p q with
  | nil =>
    cases gs with
    | nil => simp [encFields] at hp hq; subst hp; subst hq; simp [blt, tupleLt]
    | cons g gs => simp at hk
  | cons f fs ih =>
    cases gs with
    | nil => simp at hk
    | cons g gs =>
      simp only [List.map_cons, List.cons.injEq] at hk
      simp only [encFields] at hp hq
      cases hpf : payload f with
      | none => simp [hpf] at hp
      | some pf =>
      cases hpg : payload g with
      | none => simp [hpg] at hq
      | some pg =>
      cases hef : encFields (fid + 1) fs with
      | none => simp [hpf, hef] at hp
      | some ef =>
      cases heg : encFields (fid + 1) gs with
      | none => simp [hpg, heg] at hq
      | some eg =>
      simp [hpf, hef] at hp
      simp [hpg, heg] at hq
      subst hp; subst hq
      rw [cons_blt_same]
      simp only [tupleLt]
      cases fs with
      | nil =>
        have hg : gs = [] := by simpa using hk.2
        subst hg
        simp [encFields] at hef heg; subst hef; subst heg
        simp [payload_lt hk.1 hpf hpg, tupleLt]
      | cons f2 fs2 =>
        simp only [List.dropLast_cons_cons, List.all_cons, Bool.and_eq_true] at hv
        have hlen := payload_length hk.1 hv.1 hpf hpg
        rw [blt_append_same_len hlen]
        rw [payload_lt hk.1 hpf hpg, ih hk.2 (by simpa using hv.2) hef heg]
        constructor
        · rintro (h | ⟨h, h'⟩)
          · exact Or.inl h
          · subst h; exact Or.inr ⟨payload_inj hk.1 hpf hpg, h'⟩
        · rintro (h | ⟨h, h'⟩)
          · exact Or.inl h
          · subst h; rw [hpf] at hpg; simp at hpg; exact Or.inr ⟨hpg, h'⟩

theorem encFields_cons {fid : UInt8} {f : Field} {fs : List Field} {p : Bytes}
    (h : encFields fid (f :: fs) = some p) :
    ∃ pf ef, payload f = some pf ∧ encFields (fid + 1) fs = some ef ∧ p = (fid + 1) :: (pf ++ ef) := by
  simp only [encFields] at h
  cases hpf : payload f with
  | none => simp [hpf] at h
  | some pf =>
    cases hef : encFields (fid + 1) fs with
    | none => simp [hpf, hef] at h
    | some ef => simp [hpf, hef] at h; exact ⟨pf, ef, rfl, rfl, h.symm⟩

theorem encFields_length_fixed {fs gs : List Field} (hk : fs.map Field.kind = gs.map Field.kind)
    (hv : ∀ f ∈ fs, f.kind.fixed = true) {fid : UInt8} {p q : Bytes}
    (hp : encFields fid fs = some p) (hq : encFields fid gs = some q) : p.length = q.length := by
  induction fs generalizing gs fid p q with
  | nil =>
    have : gs = [] := by simpa using hk.symm
    subst this; rw [hp] at hq; simp at hq; rw [hq]
  | cons f fs ih =>
    cases gs with
    | nil => simp at hk
    | cons g gs =>
      simp only [List.map_cons, List.cons.injEq] at hk
      obtain ⟨pf, ef, h1, h2, rfl⟩ := encFields_cons hp
      obtain ⟨pg, eg, k1, k2, rfl⟩ := encFields_cons hq
      have a := payload_length hk.1 (hv f (by simp)) h1 k1
      have b := ih hk.2 (fun x hx => hv x (by simp [hx])) h2 k2
      simp [a, b]

theorem encFields_inj {fs gs : List Field} (hk : fs.map Field.kind = gs.map Field.kind)
    (hv : (fs.filter (fun f => !f.kind.fixed)).length ≤ 1) {fid : UInt8} {p : Bytes}
    (hp : encFields fid fs = some p) (hq : encFields fid gs = some p) : fs = gs := by
  induction fs generalizing gs fid p with
  | nil => simpa using hk.symm
  | cons f fs ih =>
    cases gs with
    | nil => simp at hk
    | cons g gs =>
      simp only [List.map_cons, List.cons.injEq] at hk
      obtain ⟨pf, ef, h1, h2, rfl⟩ := encFields_cons hp
      obtain ⟨pg, eg, k1, k2, hpe⟩ := encFields_cons hq
      simp only [List.cons.injEq, true_and] at hpe
      have hlen : pf.length = pg.length := by
        by_cases hf : f.kind.fixed = true
        · exact payload_length hk.1 hf h1 k1
        · have hfx : ∀ x ∈ fs, x.kind.fixed = true := by
            simp only [Bool.not_eq_true] at hf
            simp [hf] at hv
            exact hv
          have := encFields_length_fixed hk.2 hfx h2 k2
          have h3 := congrArg List.length hpe
          simp at h3; omega
      obtain ⟨e1, e2⟩ := List.append_inj hpe hlen
      subst e1; subst e2
      have hf' : f = g := payload_inj hk.1 h1 k1
      have hv' : (fs.filter (fun f => !f.kind.fixed)).length ≤ 1 := by
        rw [List.filter_cons] at hv; split at hv
        · simp only [List.length_cons] at hv; omega
        · exact hv
      rw [hf', ih hk.2 hv' h2 k2]

end Bond
