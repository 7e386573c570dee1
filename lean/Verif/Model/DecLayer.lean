import Verif.Model.DecRange

/-! # A range on a type of decimals that has a range itself

`type t { range "1..5"; }` with a typedef `t` of decimal64 with a range: the generator makes
`RestrictedClassType(base_type=RestrictedClassType(base_type=Decimal, ...), ...)`
(pyangbind/plugin/pybind.py:1226-1290). -/

namespace Pyb
open Py

/-- Calling the class of the inner range: `__new__` and `__init__`,
pyangbind/lib/yangtypes.py:202-216, 218-384. -/
def decCall (fd : Option Nat) (ts : List DChk) (v : DArg) : Except Err Dec := do
  let o ← decNew fd ts v
  decInit fd ts v
  pure o

/-- `base_type(s) if not s == word else None`, with the class of the inner range. -/
def decBoundBy (base : DArg → Except Err Dec) (word s : Str) : Except Err (Option Dec) :=
  if s = word then .ok none else (base (.text s)).map some

/-- `build_length_range_tuples`, pyangbind/lib/yangtypes.py:255-273: the bounds are values of the
class that is restricted. -/
def buildDChkBy (base : DArg → Except Err Dec) (spec : Str) : Except Err DChk :=
  match matchRange spec with
  | some _ =>
    match splitOn ',' (subRange spec.length spec) with
    | [low, high] => do
      let hi ← decBoundBy base py!"max" high
      let lo ← decBoundBy base py!"min" low
      pure (.pair lo hi)
    | _ => .error .valueError
  | none =>
    match matchNumber spec with
    | some _ => (base (.text spec)).map .single
    | none => .error .valueError

/-- The test of the outer `__new__` on the value, pyangbind/lib/yangtypes.py:317-325, 360-367. -/
def layerCheck (fd : Option Nat) (ts1 ts2 : List DChk) (v : DArg) : Except Err Bool :=
  if v.truthy then
    match decCall fd ts1 v with
    | .ok x => .ok (decRangeCheck ts2 x)
    | .error _ => .error .typeError
  else match v with
    | .int n => .ok (decRangeCheck ts2 ⟨n, 0⟩)
    | .dec x => .ok (decRangeCheck ts2 x)
    | _ => otherRangeCheck ts2

/-- The outer `__new__`, pyangbind/lib/yangtypes.py:218-373: the inner one is called for the
object, and again without argument after a `TypeError`. -/
def layerNew (fd : Option Nat) (ts1 ts2 : List DChk) (v : DArg) : Except Err Dec := do
  if ← layerCheck fd ts1 ts2 v then
    match decNew fd ts1 v with
    | .error .typeError => .ok decZero
    | r => r
  else .error .valueError

/-- The outer `__init__` with its `__check`, pyangbind/lib/yangtypes.py:202-216, 375-384: the tests
are those of the inner class, whose `__new__` was the last to set them on the class of the object. -/
def layerInit (fd : Option Nat) (ts1 : List DChk) (v : DArg) : Except Err Unit := do
  let x ← decCall fd ts1 v
  if decRangeCheck ts1 x then pure () else .error .valueError

/-- Assigning to a leaf of such a type, as `setDecRange`.  (Where tests cannot be built the
exception is that of the assignment; it comes when the module is loaded, as every class is
called once when it is made.) -/
def setDecLayer (fd : Option Nat) (specs1 specs2 : List Str) (v : DArg) : Except Err Dec := do
  let ts1 ← specs1.mapM (buildDChk fd)
  let ts2 ← specs2.mapM (buildDChkBy (decCall fd ts1))
  let o ← match layerNew fd ts1 ts2 v with
    | .error .typeError => pure decZero
    | r => r
  match layerInit fd ts1 v with
  | .ok () => pure o
  | .error .typeError => pure o
  | .error e => .error e

end Pyb
