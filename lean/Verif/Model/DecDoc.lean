import Verif.Model.DecRange

/-! # decimal64 values in documents

Native JSON has `float(obj)`, IETF JSON and XML have `str(obj)`
(pyangbind/lib/serialise.py:131-132, 217-218, 246-247 and, for the name of the class,
182-184); reading is an assignment of what the document has
(pyangbind/lib/serialise.py:555-695, 699-876, 469-552). -/

namespace Pyb
open Py

/-- What a document has for a decimal: a float or a text.  (That `json` and `lxml` read back
the float or text they wrote is trusted.) -/
inductive DecDoc where
  | float (f : Int × Int)
  | text (s : Str)

/-- `yangt_decimal`, pyangbind/lib/serialise.py:217-218 and 246-247; `native` is
`YangDataSerialiser`. -/
def dumpDecimal (native : Bool) (x : Dec) : DecDoc :=
  if native then .float (floatOfDec x) else .text (decStr x)

/-- The value assigned. -/
def DecDoc.arg : DecDoc → DArg
  | .float f => .dec (decOfFloat f)
  | .text s => .text s

/-- Reading a `decimal64` leaf without a range: assigning what the document has,
pyangbind/lib/yangtypes.py:150-165. -/
def readDecimal (fd : Nat) (doc : DecDoc) : Except Err Dec := decBase (some fd) doc.arg

/-- The same with a range; the generator drops the number of fraction digits
(pyangbind/plugin/pybind.py:1237-1270). -/
def readDecRange (specs : List Str) (doc : DecDoc) : Except Err Dec := setDecRange none specs doc.arg

end Pyb
