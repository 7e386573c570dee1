import Verif.Py.Str

/-! # Names: `safe_name`, class names, key attribute names, extension paths -/

namespace Pyb
open Py

/-- `reserved_name`, pyangbind/lib/yangtypes.py:37-89. -/
def reservedName : List Str :=
  [py!"list", py!"str", py!"int", py!"global", py!"decimal", py!"float", py!"as", py!"if",
   py!"else", py!"elif", py!"map", py!"set", py!"class", py!"from", py!"import", py!"pass",
   py!"return", py!"is", py!"exec", py!"pop", py!"insert", py!"remove", py!"add", py!"delete",
   py!"local", py!"get", py!"default", py!"yang_name", py!"def", py!"print", py!"del",
   py!"break", py!"continue", py!"raise", py!"in", py!"assert", py!"while", py!"for", py!"try",
   py!"finally", py!"with", py!"except", py!"lambda", py!"or", py!"and", py!"not", py!"yield",
   py!"property", py!"min", py!"max", py!"async"]

/-- `safe_name`, pyangbind/lib/yangtypes.py:121-131. -/
def safeName (arg : Str) : Str :=
  let arg := replaceChar '-' '_' arg
  let arg := replaceChar '.' '_' arg
  if arg ∈ reservedName then arg ++ py!"_" else arg

/-- `remove_path_attributes`, pyangbind/lib/yangtypes.py:111-118. -/
def removePathAttributes (p : List Str) : List Str :=
  p.map fun i => if '[' ∈ i then (splitOn '[' i).headD [] else i

/-- The absolute path the generator builds for a node: each level appends
`"/" + ch.arg` (pyangbind/plugin/pybind.py:691). -/
def nodePath : List Str → Str
  | [] => []
  | x :: xs => '/' :: x ++ nodePath xs

/-- Class name of a container or list in the single-file output,
pyangbind/plugin/pybind.py:799-806 (definition) and 1532-1536 (reference).
`node` is the list of names from the module root; its last element is the node. -/
def className (modName : Str) (node : List Str) : Str :=
  py!"yc_" ++ safeName (node.getLastD []) ++ py!"_" ++ safeName modName ++ py!"_"
    ++ safeName (replaceChar '/' '_' (nodePath node))

/-- The `key` value the generator gives a list element: `safe_name` of the whole
YANG key argument, pyangbind/plugin/pybind.py:1541-1543.  The YANG argument is the
key names separated by one space (other separators are not modelled). -/
def keyAttrString (keys : List Str) : Str := safeName (join py!" " keys)

/-- The attribute names under which the list code accesses the key leaves of an
entry: `self._keyval.split(" ")`, pyangbind/lib/yangtypes.py:635-690. -/
def keyAttrs (keys : List Str) : List Str := splitOn ' ' (keyAttrString keys)

end Pyb
