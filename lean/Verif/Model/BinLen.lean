import Verif.Model.Scalar

/-! # Binary types with a length -/

namespace Pyb
open Py

/-- `len(v)`; numbers, `None` and the like have none. -/
def BinArg.len : BinArg → Option Nat
  | .text s => some s.length
  | .bytes b => some b.length
  | .other => none

/-- Assigning to a leaf of a binary type with a `length`: `RestrictedClassType` over
`YANGBinary`, pyangbind/plugin/pybind.py:1237-1260 and pyangbind/lib/yangtypes.py:190-395.
The check of `__new__` is made on the value as it is given (360-367), that of `__init__` on
`base_type(v)` (375-384).  An argument without a length is refused by `YANGBinary` itself
after the `TypeError` has been caught (1034-1109).  `specs` is the list the generator makes
of the length argument. -/
def setBinaryLength (specs : List Str) (v : BinArg) : Except Err (List Nat) := do
  let ts ← specs.mapM (buildChk fun v => v.toInt.map .int)
  match v.len with
  | none => .error .valueError
  | some n =>
    if ← rangeCheck ts (.int n) then
      let b ← yangBinary v
      if ← rangeCheck ts (.int b.length) then .ok b else .error .valueError
    else .error .valueError

end Pyb
