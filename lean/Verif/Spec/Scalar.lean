import Verif.Py.Val

/-! # Meaning of YANG enumerations, bits and decimal64 -/

namespace Spec
open Py

/-- RFC 6020, 9.6.4.2: an enum without `value` gets one more than the highest value
so far, and the first gets 0. -/
def rfcEnumValues : Option Int → List (Str × Option Int) → List (Str × Int)
  | _, [] => []
  | high, (k, v) :: es =>
    let x := v.getD (match high with | none => 0 | some h => h + 1)
    let high' := match high with | none => x | some h => max h x
    (k, x) :: rfcEnumValues (some high') es

/-- `k` units of `10^-fd` are the value `coef * 10^exp`, compared after scaling both
to integers by `10 ^ s`. -/
def ScaledEq (k : Int) (fd : Nat) (coef exp : Int) : Prop :=
  ∃ s : Nat, fd ≤ s ∧ 0 ≤ exp + s ∧ k * 10 ^ (s - fd) = coef * 10 ^ (exp + s).toNat

/-- `k` units of `10^-fd` are a nearest multiple to `coef * 10^exp`; on a tie `k` is
even. -/
def NearestEven (k : Int) (fd : Nat) (coef exp : Int) : Prop :=
  ∃ s : Nat, fd ≤ s ∧ 0 ≤ exp + s ∧
    let unit : Int := 10 ^ (s - fd)
    let diff := coef * 10 ^ (exp + s).toNat - k * unit
    2 * (diff.natAbs : Int) ≤ unit ∧ (2 * (diff.natAbs : Int) = unit → k % 2 = 0)

/-- The decimal `coef * 10 ^ exp` is the integer `n`. -/
def DecIs (x : Dec) (n : Int) : Prop := x.coef * 10 ^ x.exp.toNat = n * 10 ^ (-x.exp).toNat

/-- A number (not a truth value) equal to the integer `n`. -/
def IsInt : PyVal → Int → Prop
  | .int m, n => m = n
  | .obj (.dec x), n => DecIs x n
  | .obj (.float f _), n => DecIs (decOfFloat f) n
  | _, _ => False

/-- Names listed in increasing order of position. -/
def ByPosition (pos : Str → Nat) : List Str → Prop
  | [] => True
  | [_] => True
  | a :: b :: rest => pos a < pos b ∧ ByPosition pos (b :: rest)

end Spec
