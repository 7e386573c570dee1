import Verif.Model.LeafRef
import Verif.Model.JsonLeaf
import Verif.Model.Xml

/-! # Leafrefs in documents

What `ReferencePathType` (pyangbind/lib/yangtypes.py:1233-1347) holds after an assignment,
and what the serialisers write for it (pyangbind/lib/serialise.py:119-120, 178-179). -/

namespace Pyb
open Py

/-- `_referenced_object` (pyangbind/lib/yangtypes.py:1300, 1309, 1319, 1322): the value that
was assigned, as it is; or an object of the tree: a leaf (with its module, class and value),
an element of a leaf-list, a leaf-list, or another leafref. -/
inductive RefVal where
  | given (v : PyVal)
  | leaf (mod : Str) (L : LeafCls) (v : PyVal)
  | elem (mod : Str) (L : LLCls) (v : PyVal)
  | leafList (mod : Str) (L : LLCls) (vs : List PyVal)
  | ref (x : RefVal)

/-- `str(...)` of it; of a leafref, pyangbind/lib/yangtypes.py:1344-1347. -/
def RefVal.text : RefVal → Str
  | .given v => v.toStr
  | .leaf _ _ v => v.toStr
  | .elem _ _ v => v.toStr
  | .leafList _ L vs => L.show vs
  | .ref x => x.text

/-- `is_yang_list`, pyangbind/lib/yangtypes.py:92-99. -/
def RefVal.isList : RefVal → Bool
  | .leafList _ _ _ => true
  | _ => false

/-- An object the path helper finds: `_is_keyval`, and the object.  (Lists are not
registered.) -/
structure Target where
  isKey : Bool
  val : RefVal

/-- What a leafref holds: `_ptr` or `_referenced_object`. -/
inductive RefHeld where
  | value (x : RefVal)
  | pointer

/-- The search, pyangbind/lib/yangtypes.py:1296-1310: the first of the elements of a single
leaf-list, else the last of the objects. -/
def refPick (objs : List Target) (s : Str) : Option RefVal :=
  match objs with
  | [⟨_, .leafList mod L vs⟩] => (vs.find? fun v => v.toStr = s).map (.elem mod L)
  | os => ((os.map Target.val).reverse).find? fun x => x.text = s

/-- One object, no key leaf and no list: the leafref is a pointer,
pyangbind/lib/yangtypes.py:1268. -/
def isPointer : List Target → Bool
  | [o] => !o.isKey && !o.val.isList
  | _ => false

/-- `__init__` with a value, pyangbind/lib/yangtypes.py:1257-1323; `objs` is what the path
helper finds, if there is one, `setTarget` if the leaf pointed to takes the value. -/
def refHold (setTarget : PyVal → Except Err Unit) (require : Bool) (objs : Option (List Target)) (value : PyVal) : Except Err RefHeld :=
  match objs with
  | none => .ok (.value (.given value))
  | some os =>
    if isPointer os then (setTarget value).map fun _ => .pointer
    else if require then
      match refPick os value.toStr with
      | some x => .ok (.value x)
      | none => .error .valueError
    else .ok (.value (.given value))

/-- `_get()`, pyangbind/lib/yangtypes.py:1327-1332, 1339-1342; `now` is what the path helper
finds now. -/
def refGet (now : List Target) : RefHeld → Except Err RefVal
  | .value x => .ok x
  | .pointer =>
    match now with
    | [o] => .ok o.val
    | _ => .error .valueError

/-- `default(obj._get())`, pyangbind/lib/serialise.py:119-120, 178-179: the object is
serialised by what it is; the value that was assigned has no class of the binding.
A list assigned, or given by a document, is not followed. -/
def refSer (ietf : Bool) : RefVal → Except Err J
  | .given v => serVal ietf [] [] {} v
  | .leaf mod L v => serLeaf ietf mod L v
  | .elem mod L v => serElem ietf mod L v
  | .leafList mod L vs => (vs.mapM (serElem ietf mod L)).map .arr
  | .ref x => refSer ietf x

/-- The serialised value for XML: `empty` is written without text
(pyangbind/lib/serialise.py:263-264). -/
def refXmlVal : RefVal → Except Err J
  | .leaf mod L v => xmlVal mod L v
  | .ref x => refXmlVal x
  | x => refSer true x

/-- The element of a leafref leaf, see `xmlLeaf`: its own `_yang_type` is not
`identityref`, so no prefix is declared. -/
def refXml (m : Meta) (x : RefVal) : Except Err Xml := do
  let j ← refXmlVal x
  let t ← scalarText j
  pure (.elem m.ns m.name [] t [])

/-- A leafref in a binding made without `--use-xpathhelper`: a string,
pyangbind/plugin/pybind.py:1338-1339. -/
def plainRefTy : YTy := .str py!"leafref" (.base .str)

end Pyb
