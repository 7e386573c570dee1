import Verif.Model.Scalar

/-! # The text of decimal values

`yangt_decimal` in IETF mode is `str(obj)` (pyangbind/lib/serialise.py:246-247); reading
calls `Decimal(text)` (pyangbind/lib/yangtypes.py:134-168).  Both are functions of
Python's `decimal` module, modelled here after its documentation (`_pydecimal.py`,
`Decimal.__str__` and `Decimal.__new__`) in `Verif.Py.Dec`. -/

namespace Pyb
open Py

/-- Loading the text into a `decimal64` leaf. -/
def loadDecimal (fd : Nat) (s : Str) : Except Err Dec :=
  match decOfStr s with
  | .ok x => setDecimal fd none x
  | .error e => .error e

example : decStr ⟨-1234, -2⟩ = py!"-12.34" := by decide
example : decStr ⟨5, -3⟩ = py!"0.005" := by decide
example : decStr ⟨1, -7⟩ = py!"1E-7" := by decide
example : decStr ⟨12, -9⟩ = py!"1.2E-8" := by decide
example : decStr ⟨12, 3⟩ = py!"1.2E+4" := by decide

end Pyb
