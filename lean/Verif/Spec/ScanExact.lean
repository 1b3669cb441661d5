import Verif.Bytes
/-
Which index values a point selects besides its own: C26.
-/
namespace Bond

/-- `n` bytes 0xFF -/
def Spec.ffs (n : Nat) : Bytes := List.replicate n 0xFF

/-- the length whose four bytes follow those of `n` when the last byte that is not 0xFF is incremented -/
def Spec.nextLength (n : Nat) : Nat :=
  if n % 256 ≠ 255 then n + 1 else if n / 256 % 256 ≠ 255 then n + 256 else if n / 65536 % 256 ≠ 255 then n + 65536 else n + 16777216

/-- The index values other than `k` that a point with index value `k` also selects. If `k` has a byte other than 0xFF, and the last
of these is `b`, followed by `j` bytes 0xFF: the values of the same length that have `b + 1` in its place and then anything but
`j` bytes 0xFF. If `k` consists of 0xFF: longer values, usually those that are one byte longer and do not start with `k`. -/
def Spec.AlsoSelected (k v : Bytes) : Prop :=
  (∃ a b j w, k = a ++ b :: ffs j ∧ b ≠ 0xFF ∧ v = a ++ (b + 1) :: w ∧ w.length = j ∧ w ≠ ffs j) ∨
  (k = ffs k.length ∧ ((k.length < v.length ∧ v.length < nextLength k.length) ∨
    (v.length = nextLength k.length ∧ v.take k.length ≠ k)))

end Bond
