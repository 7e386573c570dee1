import Verif.Model.DecText
import Verif.Model.Range

/-! # decimal64 types with a range

`RestrictedClassType` over `Decimal` (pyangbind/plugin/pybind.py:1251-1270) or, for a
range given to a typedef of a `decimal64`, over `RestrictedPrecisionDecimalType`;
pyangbind/lib/yangtypes.py:134-168 and 171-397.  One layer of ranges is modelled. -/

namespace Pyb
open Py

/-- What may be assigned: `None`, an integer, a decimal (a float is the decimal it is
equal to) or a text. -/
inductive DArg where
  | none
  | int (n : Int)
  | dec (x : Dec)
  | text (s : Str)
  deriving DecidableEq, Repr

/-- `Decimal(v)`. -/
def DArg.decimal : DArg → Except Err Dec
  | .none => .error .typeError
  | .int n => .ok ⟨n, 0⟩
  | .dec x => .ok x
  | .text s => decOfStr s

/-- `base_type(v)`: without digits plain `Decimal`, with digits
`RestrictedPrecisionDecimal`, pyangbind/lib/yangtypes.py:150-165. -/
def decBase : Option Nat → DArg → Except Err Dec
  | Option.none, v => v.decimal
  | some fd, v => do quantize (← v.decimal) fd

/-- `base_type()`: `Decimal(0)`. -/
def decZero : Dec := ⟨0, 0⟩

/-- `bool(v)`. -/
def DArg.truthy : DArg → Bool
  | .none => false
  | .int n => n ≠ 0
  | .dec x => x.coef ≠ 0
  | .text s => s ≠ []

/-- `x < y` of decimals: exact. -/
def decLt (x y : Dec) : Bool :=
  let m := min x.exp y.exp
  decide (x.coef * 10 ^ (x.exp - m).toNat < y.coef * 10 ^ (y.exp - m).toNat)

/-- `x == f`: exact. -/
def decEqFloat (x : Dec) (f : Int × Int) : Bool :=
  decide (x.coef * 10 ^ x.exp.toNat * 2 ^ (-f.2).toNat = f.1 * 2 ^ f.2.toNat * 10 ^ (-x.exp).toNat)

/-- A `low_high_tuples` item. -/
inductive DChk where
  | pair (lo hi : Option Dec)
  | single (v : Dec)
  deriving DecidableEq, Repr

/-- `base_type(s) if not s == word else None`. -/
def decBound (fd : Option Nat) (word s : Str) : Except Err (Option Dec) :=
  if s = word then .ok none else (decBase fd (.text s)).map some

/-- `build_length_range_tuples`, pyangbind/lib/yangtypes.py:255-273. -/
def buildDChk (fd : Option Nat) (spec : Str) : Except Err DChk :=
  match matchRange spec with
  | some _ =>
    match splitOn ',' (subRange spec.length spec) with
    | [low, high] => do
      let hi ← decBound fd py!"max" high
      let lo ← decBound fd py!"min" low
      pure (.pair lo hi)
    | _ => .error .valueError
  | none =>
    match matchNumber spec with
    | some _ => (decBase fd (.text spec)).map .single
    | none => .error .valueError

/-- One tuple of `range_check` on a decimal, pyangbind/lib/yangtypes.py:281-291. -/
def DChk.run (value : Dec) : DChk → Bool
  | .pair lo hi =>
    !(lo.any fun l => decLt value l) && !(hi.any fun h => decLt h value)
  | .single v => decEqFloat value (floatOfDec v)

/-- `in_range_check(...)(value)`, pyangbind/lib/yangtypes.py:275-295. -/
def decRangeCheck (ts : List DChk) (value : Dec) : Bool := ts.any (DChk.run value)

/-- The same on `None` and on a text: comparing it with a bound raises `TypeError`, and
it differs from any number. -/
def otherRangeCheck (ts : List DChk) : Except Err Bool :=
  ts.foldlM (init := false) fun acc t =>
    match t with
    | .pair none none => .ok true
    | .pair _ _ => .error .typeError
    | .single _ => .ok acc

/-- The test of `__new__` on the value, pyangbind/lib/yangtypes.py:317-325, 360-367: a
value that is not false is converted first, and if it cannot be, `TypeError`. -/
def newCheck (fd : Option Nat) (ts : List DChk) (v : DArg) : Except Err Bool :=
  if v.truthy then
    match decBase fd v with
    | .ok x => .ok (decRangeCheck ts x)
    | .error _ => .error .typeError
  else match v with
    | .int n => .ok (decRangeCheck ts ⟨n, 0⟩)
    | .dec x => .ok (decRangeCheck ts x)
    | _ => otherRangeCheck ts

/-- `RestrictedClass.__new__` with one argument, pyangbind/lib/yangtypes.py:218-373. -/
def decNew (fd : Option Nat) (ts : List DChk) (v : DArg) : Except Err Dec := do
  if ← newCheck fd ts v then
    match decBase fd v with
    | .error .typeError => .ok decZero
    | r => r
  else .error .valueError

/-- `__init__` with its `__check`, pyangbind/lib/yangtypes.py:202-216, 375-384. -/
def decInit (fd : Option Nat) (ts : List DChk) (v : DArg) : Except Err Unit := do
  let x ← decBase fd v
  if decRangeCheck ts x then pure () else .error .valueError

/-- Assigning to a leaf of such a type: `YANGBaseClass.__new__` and `__init__` catch
`TypeError` and go on without the argument (pyangbind/lib/yangtypes.py:1034-1109); the
generated setter turns what is left of `TypeError` into `ValueError`
(pyangbind/plugin/pybind.py:1117-1172).  `specs` is the list the generator makes of the
range argument. -/
def setDecRange (fd : Option Nat) (specs : List Str) (v : DArg) : Except Err Dec := do
  let ts ← specs.mapM (buildDChk fd)
  let o ← match decNew fd ts v with
    | .error .typeError => pure decZero
    | r => r
  match decInit fd ts v with
  | .ok () => pure o
  | .error .typeError => pure o
  | .error e => .error e

end Pyb
