import Verif.Inspect
/-
Specification: the ranges of the integer types, and the decoding of base64.
-/
namespace Bond

/-- the numbers a Go integer type has (Go specification; int and uint have 64 bits on the platforms considered) -/
def Spec.intRange : IntSize → Bool → Int × Int
  | .w8, true => (-128, 127) | .w8, false => (0, 255)
  | .w16, true => (-32768, 32767) | .w16, false => (0, 65535)
  | .w32, true => (-2147483648, 2147483647) | .w32, false => (0, 4294967295)
  | .w64, true | .word, true => (-9223372036854775808, 9223372036854775807)
  | .w64, false | .word, false => (0, 18446744073709551615)

/-- the alphabet of base64 (RFC 4648): A to Z, a to z, 0 to 9, + and / -/
def Spec.b64Alphabet : List UInt8 :=
  (List.range 26).map (fun i => UInt8.ofNat (65 + i)) ++ (List.range 26).map (fun i => UInt8.ofNat (97 + i)) ++
    (List.range 10).map (fun i => UInt8.ofNat (48 + i)) ++ [43, 47]

/-- decoding of base64 (RFC 4648): four characters are 24 bits; the last four may end with one or two = -/
def Spec.unBase64 : Bytes → Option Bytes
  | [] => some []
  | [w, x, 61, 61] => do
    let w ← Spec.b64Alphabet.idxOf? w; let x ← Spec.b64Alphabet.idxOf? x
    some [UInt8.ofNat (w * 4 + x / 16)]
  | [w, x, y, 61] => do
    let w ← Spec.b64Alphabet.idxOf? w; let x ← Spec.b64Alphabet.idxOf? x; let y ← Spec.b64Alphabet.idxOf? y
    some [UInt8.ofNat (w * 4 + x / 16), UInt8.ofNat (x % 16 * 16 + y / 4)]
  | w :: x :: y :: z :: rest => do
    let w ← Spec.b64Alphabet.idxOf? w; let x ← Spec.b64Alphabet.idxOf? x; let y ← Spec.b64Alphabet.idxOf? y; let z ← Spec.b64Alphabet.idxOf? z
    let r ← Spec.unBase64 rest
    some (UInt8.ofNat (w * 4 + x / 16) :: UInt8.ofNat (x % 16 * 16 + y / 4) :: UInt8.ofNat (y % 4 * 64 + z) :: r)
  | _ => none

end Bond
