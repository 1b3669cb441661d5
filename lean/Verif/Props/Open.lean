import Verif.Open
/-
C49, C58, C68: opening databases and migrating the format.
-/
namespace Bond

theorem parseUint_decimal {v : Nat} (h : v < 2 ^ 64) : parseUint (decimal v) = some v := by
  unfold parseUint
  rw [if_neg (decimal_ne_nil v), if_pos, decValue_decimal, if_pos h]
  rw [List.all_eq_true]
  intro c hc
  have := decimal_digits v c hc
  simp [this.1, this.2]

theorem dataVersion_init (c : KV) : dataVersion (c.set bondDataVersionKey (decimal 1)) = 1 := by
  have h : parseInt32 (decimal 1) = 1 := by decide
  simp [dataVersion, KV.get_set, h]

/-- what the directory has recorded: format version `v`, and a store with data version 1 -/
structure Recorded (v : Nat) (d : Disk) : Prop where
  file : d.fmtFile = some (decimal v)
  data : ∃ f c, d.pebble = some (f, c) ∧ dataVersion c = 1

/-! ## C49 Opening with a wrong version fails, with the right one succeeds -/

/-- C49, new directory: Open succeeds and records both versions. -/
theorem C49_fresh (ok : Nat → Option Nat → Bool) (v : Nat) (hok : ok v none = true) :
    (openDB ok v Disk.fresh).2 = none ∧ Recorded v (openDB ok v Disk.fresh).1 := by
  have hd : dataVersion KV.empty = 0 := rfl
  simp only [openDB, openCut, checkFormat, Disk.fresh, pebbleOpen, Option.map_none, hok, Bool.not_true, Bool.or_self,
    Bool.false_eq_true, if_false, checkData, hd, if_true]
  exact ⟨trivial, rfl, _, _, rfl, dataVersion_init _⟩

/-- C49, reopening with the recorded version: Open succeeds and changes nothing that is recorded, neither the versions nor the content. -/
theorem C49_reopen (ok : Nat → Option Nat → Bool) {v : Nat} (hv : v < 2 ^ 64) {d : Disk} (hr : Recorded v d) (hl : d.locked = false)
    (hok : ok v (d.pebble.map Prod.fst) = true) :
    (openDB ok v d).2 = none ∧ Recorded v (openDB ok v d).1 ∧
    (openDB ok v d).1.pebble.map Prod.snd = d.pebble.map Prod.snd ∧ (openDB ok v d).1.locked = true := by
  obtain ⟨hf, f, c, hp, hd⟩ := hr
  have h1 : checkFormat none v { d with bondDir := true } = ({ d with bondDir := true }, none) := by
    simp [checkFormat, hf, parseUint_decimal hv]
  have h2 : pebbleOpen ok v { d with bondDir := true } =
      some { d with bondDir := true, pebble := some (max f v, c), locked := true } := by
    rw [hp] at hok
    simp only [Option.map_some] at hok
    simp [pebbleOpen, hl, hp, hok]
  have h3 : openDB ok v d = ({ d with bondDir := true, pebble := some (max f v, c), locked := true }, none) := by
    simp only [openDB, openCut, h1, h2, checkData, hd]
    simp
  rw [h3]
  exact ⟨rfl, ⟨hf, _, _, rfl, hd⟩, by simp [hp], rfl⟩

/-- C49, another format version: Open is refused and nothing recorded is changed. -/
theorem C49_format (ok : Nat → Option Nat → Bool) {v w : Nat} (hv : v < 2 ^ 64) (hne : w ≠ v) {d : Disk} (hf : d.fmtFile = some (decimal v)) :
    (openDB ok w d).2 = some .format ∧ (openDB ok w d).1 = { d with bondDir := true } := by
  have h1 : checkFormat none w { d with bondDir := true } = ({ d with bondDir := true }, some .format) := by
    simp [checkFormat, hf, parseUint_decimal hv, Ne.symm hne]
  simp [openDB, openCut, h1]

/-- C49, another data version (a number other than 0 and 1): Open is refused and the recorded versions and the content are not changed. -/
theorem C49_data (ok : Nat → Option Nat → Bool) {v : Nat} (hv : v < 2 ^ 64) {d : Disk} (hf : d.fmtFile = some (decimal v)) {f : Nat} {c : KV}
    (hp : d.pebble = some (f, c)) (h0 : dataVersion c ≠ 0) (h1 : dataVersion c ≠ 1) :
    (openDB ok v d).2 ≠ none ∧ (openDB ok v d).1.fmtFile = d.fmtFile ∧ (openDB ok v d).1.pebble.map Prod.snd = some c := by
  have e1 : checkFormat none v { d with bondDir := true } = ({ d with bondDir := true }, none) := by
    simp [checkFormat, hf, parseUint_decimal hv]
  unfold openDB openCut
  rw [e1]
  simp only
  by_cases hb : (d.locked || !ok v (d.pebble.map Prod.fst)) = true
  · have e2 : pebbleOpen ok v { d with bondDir := true } = none := by simp only [pebbleOpen]; rw [if_pos hb]
    rw [e2]
    simp [hp]
  · have e2 : pebbleOpen ok v { d with bondDir := true } =
        some { d with bondDir := true, pebble := some (max f v, c), locked := true } := by
      simp only [pebbleOpen]; rw [if_neg hb]; simp [hp]
    rw [e2]
    simp [checkData, h0, h1]

/-- an integer in decimal notation -/
def intDecimal (n : Int) : Bytes := if n < 0 then 45 :: decimal n.natAbs else decimal n.natAbs

theorem decimal_digits_all (n : Nat) : (decimal n).all (fun c => 48 ≤ c.toNat && c.toNat ≤ 57) = true := by
  rw [List.all_eq_true]
  intro c hc
  have := decimal_digits n c hc
  simp [this]

theorem decimal_head (n : Nat) : ∃ c r, decimal n = c :: r ∧ c ≠ 43 ∧ c ≠ 45 := by
  cases h : decimal n with
  | nil => exact absurd h (decimal_ne_nil n)
  | cons c r =>
    have := decimal_digits n c (by rw [h]; simp)
    exact ⟨c, r, rfl, by rintro rfl; exact absurd this.1 (by decide), by rintro rfl; exact absurd this.1 (by decide)⟩

theorem parseInt32_int (n : Int) : parseInt32 (intDecimal n) = max (-2147483648) (min n 2147483647) := by
  unfold intDecimal parseInt32
  by_cases hn : n < 0
  · simp only [hn, if_true, List.head?_cons, beq_self_eq_true]
    have e : dropSign (45 :: decimal n.natAbs) = decimal n.natAbs := rfl
    rw [e, if_neg (decimal_ne_nil _), if_pos (decimal_digits_all _), decValue_decimal]
    omega
  · obtain ⟨c, r, h, h1, h2⟩ := decimal_head n.natAbs
    simp only [hn, if_false]
    have e : dropSign (decimal n.natAbs) = decimal n.natAbs := by
      rw [h]
      unfold dropSign
      split
      · rename_i heq; simp only [List.cons.injEq] at heq; exact absurd heq.1 h1
      · rename_i heq; simp only [List.cons.injEq] at heq; exact absurd heq.1 h2
      · rfl
    have e2 : ((decimal n.natAbs).head? == some 45) = false := by rw [h]; simp [h2]
    rw [e, e2, if_neg (decimal_ne_nil _), if_pos (decimal_digits_all _), decValue_decimal]
    simp only [Bool.false_eq_true, if_false]
    omega

/-- C49, another data version, in terms of what is stored: a database whose data version is the decimal notation of any integer other than 0
and 1 is refused, and its content is not changed. -/
theorem C49_number (ok : Nat → Option Nat → Bool) {v : Nat} (hv : v < 2 ^ 64) {d : Disk} (hf : d.fmtFile = some (decimal v)) {f : Nat} {c : KV}
    (hp : d.pebble = some (f, c)) {n : Int} (hn : c.get bondDataVersionKey = some (intDecimal n)) (h0 : n ≠ 0) (h1 : n ≠ 1) :
    (openDB ok v d).2 ≠ none ∧ (openDB ok v d).1.fmtFile = d.fmtFile ∧ (openDB ok v d).1.pebble.map Prod.snd = some c := by
  apply C49_data ok hv hf hp
  · simp only [dataVersion, hn, parseInt32_int]; omega
  · simp only [dataVersion, hn, parseInt32_int]; omega

/-- data version -1 -/
example : intDecimal (-1) = [45, 49] ∧ (KV.empty.set bondDataVersionKey [45, 49]).get bondDataVersionKey = some (intDecimal (-1)) := by decide

/-- calls on one directory: Open with a version, Close (or the end of the process), any change of the content by the open database -/
inductive OOp
  | open (v : Nat)
  | close
  | write (c : KV → KV)

/-- the effect of a call; content changes only while the store is open -/
def OOp.run (ok : Nat → Option Nat → Bool) (d : Disk) : OOp → Disk
  | .open v => (openDB ok v d).1
  | .close => d.close
  | .write g => if d.locked then { d with pebble := d.pebble.map fun p => (p.1, g p.2) } else d

/-- writers leave the version key alone (C22) -/
def OOp.Keeps : OOp → Prop
  | .write g => ∀ c, (g c).get bondDataVersionKey = c.get bondDataVersionKey
  | _ => True

/-- C49 over histories: after the first successful Open with version `v`, whatever Opens with whatever versions, Closes and writes follow, the
directory has the same versions recorded: Open with another version is refused, and with `v` it succeeds whenever the store is not open
already and pebble accepts it. -/
theorem C49_partial (ok : Nat → Option Nat → Bool) {v : Nat} (hv : v < 2 ^ 64) (hok : ∀ f, ok v f = true) (ops : List OOp)
    (hops : ∀ op ∈ ops, op.Keeps) :
    let d := ops.foldl (OOp.run ok) (openDB ok v Disk.fresh).1
    (d.locked = false → (openDB ok v d).2 = none) ∧ ∀ w, w ≠ v → (openDB ok w d).2 = some .format := by
  intro d
  have hr : Recorded v d := by
    have : ∀ (ops : List OOp), (∀ op ∈ ops, op.Keeps) → ∀ d0, Recorded v d0 → Recorded v (ops.foldl (OOp.run ok) d0) := by
      intro ops
      induction ops with
      | nil => intro _ d0 h; exact h
      | cons op ops ih =>
        intro hk d0 h
        refine ih (fun o ho => hk o (by simp [ho])) _ ?_
        cases op with
        | «open» w =>
          show Recorded v (openDB ok w d0).1
          by_cases hw : w = v
          · subst hw
            by_cases hl : d0.locked = false
            · exact (C49_reopen ok hv h hl (hok _)).2.1
            · have hl' : d0.locked = true := by simpa using hl
              have h1 : checkFormat none w { d0 with bondDir := true } = ({ d0 with bondDir := true }, none) := by
                simp [checkFormat, h.file, parseUint_decimal hv]
              have h2 : pebbleOpen ok w { d0 with bondDir := true } = none := by simp [pebbleOpen, hl']
              simp only [openDB, openCut, h1, h2]
              exact ⟨h.file, h.data⟩
          · rw [(C49_format ok hv hw h.file).2]
            exact ⟨h.file, h.data⟩
        | close => exact ⟨h.file, h.data⟩
        | write g =>
          show Recorded v (if d0.locked = true then _ else d0)
          split
          · refine ⟨h.file, ?_⟩
            obtain ⟨f, c, hp, hd⟩ := h.data
            refine ⟨f, g c, by simp [hp], ?_⟩
            have := hk (.write g) (by simp) c
            simp only [dataVersion] at hd ⊢
            rw [this]; exact hd
          · exact h
    exact this ops hops _ (C49_fresh ok v (hok none)).2
  exact ⟨fun hl => (C49_reopen ok hv hr hl (hok _)).1, fun w hw => (C49_format ok hv hw hr.file).1⟩

/-- pebble accepts versions 1 to 16 -/
def exPebble (v : Nat) (_ : Option Nat) : Bool := decide (1 ≤ v ∧ v ≤ 16)

/-- open, write a row, close, try another version, reopen -/
example : OOp.Keeps (.write fun c => c.set [1] [2]) ∧
    (let d := ([.write (fun c => c.set [1] [2]), .close, .open 3] : List OOp).foldl (OOp.run exPebble) (openDB exPebble 13 Disk.fresh).1
     (openDB exPebble 13 d).2 = none ∧ (openDB exPebble 3 d).2 = some .format ∧
     (openDB exPebble 13 d).1.pebble.map (fun p => p.2.get [1]) = some (some [2])) := by
  refine ⟨fun c => ?_, by decide, by decide, by decide⟩
  rw [KV.get_set, if_neg (by decide)]

/-- C49 is false for a data version that is not a number: Open succeeds and overwrites it. -/
theorem C49_refuted_data :
    let d : Disk := ⟨true, some (decimal 13), some (13, KV.empty.set bondDataVersionKey [118, 50]), false⟩
    (openDB exPebble 13 d).2 = none ∧ (openDB exPebble 13 d).1.pebble.map (fun p => p.2.get bondDataVersionKey) = some (some (decimal 1)) := by
  decide

/-- C49 is false for a first Open that pebble refuses: its version is recorded, and Open with a proper version is refused afterwards. -/
theorem C49_refuted_first :
    (openDB exPebble 99 Disk.fresh).2 = some .pebble ∧ (openDB exPebble 99 Disk.fresh).1.pebble.isNone = true ∧
    (openDB exPebble 13 (openDB exPebble 99 Disk.fresh).1).2 = some .format := by
  decide

/-! ## C68 A failed or interrupted Open can be repeated -/

/-- C68, except for the two faults below: if Open fails or the process dies in it, and the format file is not left incomplete and the data
version is not foreign, then Open with the recorded version succeeds in a new process. -/
theorem C68_partial (ok : Nat → Option Nat → Bool) {v w : Nat} (hv : v < 2 ^ 64) (cut : Option Nat) (d : Disk)
    (hfile : (openCut cut ok w d).1.fmtFile = some (decimal v))
    (hdata : ∀ f c, (openCut cut ok w d).1.pebble = some (f, c) → dataVersion c = 0 ∨ dataVersion c = 1) (hok : ∀ f, ok v f = true) :
    (openDB ok v (openCut cut ok w d).1.close).2 = none := by
  generalize (openCut cut ok w d).1 = d' at hfile hdata
  have h1 : checkFormat none v { d'.close with bondDir := true } = ({ d'.close with bondDir := true }, none) := by
    simp [checkFormat, Disk.close, hfile, parseUint_decimal hv]
  unfold openDB openCut
  rw [h1]
  simp only
  cases hp : d'.pebble with
  | none =>
    have h2 : pebbleOpen ok v { d'.close with bondDir := true } =
        some { d'.close with bondDir := true, pebble := some (v, KV.empty), locked := true } := by
      simp [pebbleOpen, Disk.close, hok, hp]
    rw [h2]
    have hd : dataVersion KV.empty = 0 := rfl
    simp [checkData, hd]
  | some p =>
    obtain ⟨f, c⟩ := p
    have h2 : pebbleOpen ok v { d'.close with bondDir := true } =
        some { d'.close with bondDir := true, pebble := some (max f v, c), locked := true } := by
      simp [pebbleOpen, Disk.close, hok, hp]
    rw [h2]
    rcases hdata f c hp with hd | hd
    · simp [checkData, hd]
    · simp [checkData, hd]

/-- an Open with the wrong version on a recorded directory -/
example : let d := (openDB exPebble 13 Disk.fresh).1.close
    (openCut none exPebble 12 d).2 = some .format ∧ (openCut none exPebble 12 d).1.fmtFile = some (decimal 13) ∧
    (openCut none exPebble 12 d).1.pebble.map (fun p => dataVersion p.2) = some 1 := by
  decide

/-- C68 is false: the process dies in the first Open after the format file was created and before it was written. No version at all can open
the directory any more, although there is no data in it. -/
theorem C68_refuted_torn (ok : Nat → Option Nat → Bool) (v w : Nat) :
    (openCut (some 0) ok v Disk.fresh).2 = some .torn ∧
    (openDB ok w (openCut (some 0) ok v Disk.fresh).1.close).2 = some .parse := by
  exact ⟨rfl, rfl⟩

/-- C68 is false: Open refuses a foreign data version but leaves the store open without returning a handle. In the same process every later
Open fails, even after the data version was put right. -/
theorem C68_refuted_lock :
    let d : Disk := ⟨true, some (decimal 13), some (13, KV.empty.set bondDataVersionKey (decimal 2)), false⟩
    let d' := (openDB exPebble 13 d).1
    (openDB exPebble 13 d).2 = some .data ∧ d'.locked = true ∧
    (openDB exPebble 13 { d' with pebble := some (13, KV.empty.set bondDataVersionKey (decimal 1)) }).2 = some .pebble := by
  decide

/-! ## C58 Format migration is crash-safe -/

/-- C58 for crashes before the format file is truncated, or none: the database can be opened with the old version, or with the new one, and its
content is the same. -/
theorem C58_partial (ok : Nat → Option Nat → Bool) {v u : Nat} (hv : v < 2 ^ 64) (hu : u < 2 ^ 64) {d : Disk} (hr : Recorded v d)
    (hb : d.bondDir = true) (hl : d.locked = false) (hok : ∀ w f, ok w f = true) (cut : Option MCut)
    (hcut : cut = none ∨ cut = some .start ∨ cut = some .upgraded) :
    ∃ w, (w = v ∨ w = u) ∧ (openDB ok w (migrate cut ok u d).1).2 = none ∧
      (openDB ok w (migrate cut ok u d).1).1.pebble.map Prod.snd = d.pebble.map Prod.snd := by
  obtain ⟨hf, f, c, hp, hd⟩ := hr
  have h2 : pebbleOpen ok u d = some { d with pebble := some (max f u, c), locked := true } := by
    simp [pebbleOpen, hl, hok, hp]
  rcases hcut with rfl | rfl | rfl
  · refine ⟨u, Or.inr rfl, ?_⟩
    have hm : (migrate none ok u d).1 = { d with fmtFile := some (decimal u), pebble := some (max f u, c) } := by
      unfold migrate
      rw [h2]
      simp only [Disk.close, hb, reduceCtorEq, if_false, Bool.not_true, Bool.false_eq_true]
      rw [hl]
    have hr' : Recorded u (migrate none ok u d).1 := by rw [hm]; exact ⟨rfl, _, _, rfl, hd⟩
    obtain ⟨e1, _, e3, _⟩ := C49_reopen ok hu hr' (by rw [hm]; exact hl) (hok _ _)
    exact ⟨e1, by rw [e3, hm, hp]; rfl⟩
  · refine ⟨v, Or.inl rfl, ?_⟩
    have hm : (migrate (some .start) ok u d).1 = d := by simp [migrate]
    rw [hm]
    obtain ⟨e1, _, e3, _⟩ := C49_reopen ok hv ⟨hf, f, c, hp, hd⟩ hl (hok _ _)
    exact ⟨e1, e3⟩
  · refine ⟨v, Or.inl rfl, ?_⟩
    have hm : (migrate (some .upgraded) ok u d).1 = { d with pebble := some (max f u, c) } := by
      unfold migrate
      rw [h2]
      simp only [Disk.close, reduceCtorEq, if_false, if_true, Option.some.injEq]
      rw [hl]
    have hr' : Recorded v (migrate (some .upgraded) ok u d).1 := by rw [hm]; exact ⟨hf, _, _, rfl, hd⟩
    obtain ⟨e1, _, e3, _⟩ := C49_reopen ok hv hr' (by rw [hm]; exact hl) (hok _ _)
    exact ⟨e1, by rw [e3, hm, hp]; rfl⟩

example : let d := (openDB exPebble 13 Disk.fresh).1.close
    Recorded 13 d ∧ d.bondDir = true ∧ d.locked = false ∧ (migrate none exPebble 14 d).2 = none ∧
    (openDB exPebble 14 (migrate none exPebble 14 d).1).2 = none ∧ (openDB exPebble 13 (migrate (some .upgraded) exPebble 14 d).1).2 = none :=
  ⟨⟨by decide, _, _, rfl, by decide⟩, by decide, by decide, by decide, by decide, by decide⟩

/-- C58 is false: the process dies after the format file was truncated. No version can open the database. -/
theorem C58_refuted (ok : Nat → Option Nat → Bool) {v u w : Nat} {d : Disk} (hr : Recorded v d) (hb : d.bondDir = true) (hl : d.locked = false)
    (hok : ∀ w f, ok w f = true) : (openDB ok w (migrate (some (.written 0)) ok u d).1).2 = some .parse := by
  obtain ⟨hf, f, c, hp, hd⟩ := hr
  have h2 : pebbleOpen ok u d = some { d with pebble := some (max f u, c), locked := true } := by
    simp [pebbleOpen, hl, hok, hp]
  have hm : (migrate (some (.written 0)) ok u d).1.fmtFile = some [] := by
    unfold migrate
    rw [h2]
    simp [Disk.close, hb]
  generalize (migrate (some (.written 0)) ok u d).1 = d' at hm
  have h1 : checkFormat none w { d' with bondDir := true } = ({ d' with bondDir := true }, some .parse) := by
    simp [checkFormat, hm, parseUint]
  simp [openDB, openCut, h1]

end Bond
