import Verif.Query
/-
Model of scans that run while others write. Time is counted in callback calls: `h n` is the content of the database when
the n-th call of the callback (counted from 1) asks for its row; between two moments others may have committed anything.
-/
namespace Bond
variable {T F σ : Type}

/-- a callback that runs as the (n+1)-st; its `Get` reads the database of that moment (callbacks of table.go:1019-1194) -/
def Cb.tick (n : Nat) : Cb σ T → Cb (σ × Nat) T
  | .ret s cont err => .ret (s, n + 1) cont err
  | .get s k => .get (s, n + 1) (fun r => (k r).tick n)

/-- the callback with the clock (callbacks of table.go:1019-1194) -/
def tickCb (f : σ → Bytes → Cb σ T) (s : σ × Nat) (key : Bytes) : Cb (σ × Nat) T := (f s.1 key).tick s.2

/-- index.go:176-278 and iter.go:79-148: the child iterators of a scan. Each is a pebble iterator and shows the content at
the moment `opened i` when it was made: with one child before the first row, with several when the scan gets to it. -/
def Table.liveParts (t : Table T F) (h : Nat → KV) (opened : Nat → Nat) (idx : Index T) (sel : Selector T) :
    Option (List (List (Bytes × Bytes))) :=
  (t.iterBounds idx sel).map (fun bs => bs.zipIdx.map (fun p => iterEntries (h (opened p.2)) none p.1.1 p.1.2))

/-- table.go:1019-1194 `ScanIndexForEach` while others write; `h` and `opened` as above. As in
`Table.scanIndexForEach`, `none` means: still running after `fuel` rounds. -/
def Table.scanLive (t : Table T F) (env : Env T) (filt : F) (h : Nat → KV) (opened : Nat → Nat) (idx : Index T)
    (sel : Selector T) (f : σ → Bytes → Cb σ T) (reverse : Bool) (fuel : Nat) (s : σ) : Option (ScanOut (σ × Nat)) :=
  match t.liveParts h opened idx sel with
  | none => some ⟨(s, 0), some .panic⟩
  | some parts =>
    if idx.id = primaryIndexID then some (t.scanPrimaryLoop env.done (tickCb f) (walk parts reverse) 0 (s, 0))
    else t.outerLoop env filt (fun s => (h s.2, none)) (tickCb f) fuel fuel 0
      { rest := walk parts reverse, keys := [], indexKeys := [], values := [], vidx := 0 } (s, 0)

/-- query.go:155-280 `executeQuery` while others write -/
def Query.executeQueryLive (t : Table T F) (env : Env T) (srt : (T → T → Bool) → List T → List T) (filt : F) (h : Nat → KV)
    (opened : Nat → Nat) (q : Query T) (fuel : Nat) : Option (Except Err (List T)) :=
  match q.selected t with
  | none => some (.error .panic)
  | some selector =>
    match t.scanLive env filt h opened q.index selector (q.callback t) q.reverse fuel {} with
    | none => none
    | some ⟨_, some e⟩ => some (.error e)
    | some ⟨s, none⟩ => some (q.finish t srt s.1)

end Bond
