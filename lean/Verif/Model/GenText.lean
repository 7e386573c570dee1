import Verif.Py.Literal
import Verif.Py.Dec

/-! # Texts of the YANG module in the generated program -/

namespace Pyb
open Py

/-- `'"%s"' % s`: the default of a type with `quote_arg`, `yang_name` and `key`,
pyangbind/plugin/pybind.py:884, 909-910, 983 (`q` is `"`); `"'%s'" % s`: `_yang_name`,
`_yang_namespace`, `namespace`, `defining_module`, `yang_type`, `yang_keys`, the path of a
leafref, pyangbind/plugin/pybind.py:862, 869, 913, 941, 952, 1000-1002 (`q` is `'`). -/
def quoted (q : Char) (s : Str) : Str := q :: (s ++ [q])

/-- The doc string of a getter, pyangbind/plugin/pybind.py:1103-1115.  (Setters and classes
have the same description in another text: pyangbind/plugin/pybind.py:1117-1128, 822-837.) -/
def getterDoc (name path type : Str) (descr : Option Str) : Str :=
  py!"\"\"\"\n    Getter method for " ++ name ++ py!", mapped from YANG variable " ++ path ++ py!" (" ++ type ++ py!")" ++
    (match descr with | none => [] | some d => py!"\n\n    YANG Description: " ++ d) ++ py!"\n    \"\"\""

/-- What the arguments of a generated class are made of: program text, literals written by
`repr` (restrictions, enumerations, extensions, choices), and texts in quotes. -/
inductive Piece where
  | code (t : Str)
  | repr (s : Str)
  | quoted (q : Char) (s : Str)

def Piece.text (printable : Char → Bool) : Piece → Str
  | .code t => t
  | .repr s => pyRepr printable s
  | .quoted q s => Pyb.quoted q s

def argText (printable : Char → Bool) (ps : List Piece) : Str := ps.flatMap (Piece.text printable)

/-- The entry `generated-type` of the error a setter raises,
pyangbind/plugin/pybind.py:1152-1170: the arguments of the class in triple quotes. -/
def typeMsg (printable : Char → Bool) (cls : Str) (ps : List Piece) : Str := py!"\"\"\"" ++ cls ++ py!"(" ++ argText printable ps ++ py!")\"\"\""

end Pyb
