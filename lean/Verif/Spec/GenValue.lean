import Verif.Spec.DecRange

/-! # The numbers of a YANG module (RFC 7950, section 9.2.1) -/

namespace Spec
open Py Pyb

inductive NumSign where
  | none
  | plus
  | minus

def NumSign.text : NumSign → Str
  | .none => []
  | .plus => ['+']
  | .minus => ['-']

def NumSign.apply : NumSign → Nat → Int
  | .minus, n => -(n : Int)
  | _, n => n

/-- The value of a hexadecimal digit. -/
def hexOf (c : Char) : Nat := if c.toNat ≤ 57 then c.toNat - 48 else if c.toNat ≤ 70 then c.toNat - 55 else c.toNat - 87

def isHexDigit (c : Char) : Bool := isDigit c || (65 ≤ c.toNat && c.toNat ≤ 70) || (97 ≤ c.toNat && c.toNat ≤ 102)

/-- Decimal and hexadecimal numbers. -/
inductive NumBody : Str → Nat → Prop
  | dec (ds : Str) (some_digit : ds ≠ []) (digits : ∀ c ∈ ds, isDigit c = true) (lead : ds.head? = some '0' → ds = ['0']) :
      NumBody ds (number ds)
  | hex (ds : Str) (some_digit : ds ≠ []) (digits : ∀ c ∈ ds, isHexDigit c = true) :
      NumBody (py!"0x" ++ ds) (ds.foldl (fun a c => a * 16 + hexOf c) 0)

/-- Octal numbers: a zero and then octal digits, here not only zeros. -/
def IsOctal (s : Str) : Prop := ∃ ds, s = '0' :: ds ∧ (∀ c ∈ ds, 48 ≤ c.toNat ∧ c.toNat ≤ 55) ∧ ∃ c ∈ ds, c ≠ '0'

end Spec
