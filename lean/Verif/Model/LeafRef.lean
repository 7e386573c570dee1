import Verif.Model.XPath

/-! # Leafrefs

`ReferenceType`, pyangbind/lib/yangtypes.py:1220-1349. -/

namespace Pyb
open Py

/-- What a leafref asks of an object the path helper gives it: `_is_keyval`, and what it is: a
leaf, a leaf-list (with the texts of its elements), a list. -/
inductive RefKind where
  | leaf
  | leafList (elems : List Str)
  | list

structure RefObj where
  isKey : Bool
  kind : RefKind
  text : Str

/-- `is_yang_list`, pyangbind/lib/yangtypes.py:92-99. -/
def RefObj.isList (o : RefObj) : Bool :=
  match o.kind with
  | .leaf => false
  | _ => true

/-- What becomes of the value: it is kept, or the leaf is a pointer. -/
inductive RefState where
  | value (v : Str)
  | pointer
  deriving DecidableEq

/-- The search, pyangbind/lib/yangtypes.py:1296-1310. -/
def refFound (objs : List RefObj) (value : Str) : Bool :=
  match objs with
  | [o] =>
    match o.kind with
    | .leafList es => es.any (· = value)
    | _ => o.text = value
  | os => os.any (·.text = value)

/-- `ReferencePathType.__init__` with a value, pyangbind/lib/yangtypes.py:1251-1323.  `helper` is the
path helper, if any, with `info` what its objects are; `setTarget` says if the leaf at the
path takes the value.  The second part of the result is the value written to that leaf, if
any.  Values are given by their texts: everything but the pointer's target only looks at
`str(value)`. -/
def refInit (helper : Option Helper) (info : XObj → RefObj) (setTarget : Str → Except Err Unit) (require : Bool) (path : Str)
    (caller : Option (List Str)) (value : Str) : Except Err (RefState × Option Str) :=
  match helper with
  | none => .ok (.value value, none)
  | some h =>
    match h.getStr path caller with
    | .error e => .error e
    | .ok xs =>
      let objs := xs.map info
      match objs with
      | [o] =>
        if !o.isKey && !o.isList then
          match setTarget value with
          | .error e => .error e
          | .ok () => .ok (.pointer, some value)
        else if require && !refFound objs value then .error .valueError
        else .ok (.value value, none)
      | _ =>
        if require && !refFound objs value then .error .valueError
        else .ok (.value value, none)

end Pyb
