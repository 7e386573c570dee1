import Verif.Py.Dec

/-! # The integer part of a number -/

namespace Spec
open Py

/-- A decimal is this over a power of ten. -/
def numerator (x : Dec) : Int := x.coef * 10 ^ x.exp.toNat

/-- The power of ten. -/
def denominator (x : Dec) : Int := 10 ^ (-x.exp).toNat

/-- `n` is the decimal without its fraction: the nearest integer toward zero. -/
def IntegerPart (x : Dec) (n : Int) : Prop :=
  (0 ≤ numerator x → n * denominator x ≤ numerator x ∧ numerator x < (n + 1) * denominator x) ∧
  (numerator x ≤ 0 → (n - 1) * denominator x < numerator x ∧ numerator x ≤ n * denominator x)

end Spec
