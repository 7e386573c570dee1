import Verif.Py.Str

/-! # The base 64 encoding, RFC 4648 section 4 -/

namespace Spec
open Py

/-- Table 1: the base 64 alphabet. -/
def rfcChar (n : Nat) : Char :=
  if n < 26 then Char.ofNat ('A'.toNat + n)
  else if n < 52 then Char.ofNat ('a'.toNat + (n - 26))
  else if n < 62 then Char.ofNat ('0'.toNat + (n - 52))
  else if n = 62 then '+' else '/'

/-- The bits of an octet, the most significant one first. -/
def octetBits (b : Nat) : List Bool := [b.testBit 7, b.testBit 6, b.testBit 5, b.testBit 4, b.testBit 3, b.testBit 2, b.testBit 1, b.testBit 0]

/-- The number with the bits, the most significant one first. -/
def bitsNat (bs : List Bool) : Nat := bs.foldl (fun n b => 2 * n + b.toNat) 0

/-- The 6-bit groups; zero bits are added on the right of the last one. -/
def sextets : List Bool → List Nat
  | a :: b :: c :: d :: e :: f :: rest => bitsNat [a, b, c, d, e, f] :: sextets rest
  | [] => []
  | bs => [bitsNat (bs ++ List.replicate (6 - bs.length) false)]

/-- The text for some octets: the characters of the 6-bit groups, padded with `=` to a
multiple of four. -/
def rfc4648 (bs : List Nat) : Str :=
  let t := (sextets (bs.flatMap octetBits)).map rfcChar
  t ++ List.replicate ((4 - t.length % 4) % 4) '='

end Spec
