import Verif.Py.Dict
import Verif.Model.Scalar

/-! # Defaults of leaves whose type is a union

`find_absolute_default_type`, pyangbind/plugin/pybind.py:1404-1419; the part of
`get_element` that picks a default and its type, 1571-1666; unions in typedefs, 611-645. -/

namespace Pyb
open Py

/-- The classes of the built-in types in `class_map`, pyangbind/plugin/pybind.py:91-180:
`pytype`, and `native_type` as text. -/
inductive Ctor where
  | int (t : IntTy) | string | boolean | binary | bits | decimal
  deriving DecidableEq

/-- The name of the type in `class_map`.  `empty` is like `boolean`. -/
def Ctor.name : Ctor → Str
  | .int t => t.name
  | .string => py!"string"
  | .boolean => py!"boolean"
  | .binary => py!"binary"
  | .bits => py!"bits"
  | .decimal => py!"decimal64"

/-- `pytype(default_value)`: the value, or the exception.  Octets, bits and decimals are
not followed further: their value is left as the text. -/
def Ctor.call (rx : Str → Str → Bool) (s : Str) : Ctor → Except Err PyVal
  | .int t => (t.rty.cls rx).call (some (.str s))
  | .string => .ok (.str s)
  | .boolean => (yangBool (.str s)).map .bool
  | .binary => (b64decode s).map fun _ => .str s
  | .bits => (bitAddAll [] [] (words s)).map fun _ => .str s
  | .decimal => (decOfStr s).map fun _ => .str s

/-- `parent_type`: absent, a name, or a list of names. -/
inductive Parents where
  | none | one (p : Str) | many (ps : List Str)

def Parents.list : Parents → List Str
  | .none => []
  | .one p => [p]
  | .many ps => ps

/-- A dictionary with `base_type`, `parent_type`, `default` and `pytype`: an entry of
`class_map`, or what `build_elemtype` returns for a type that is no union. -/
structure CEnt where
  base : Option Bool
  parents : Parents
  default : Option Str
  pytype : Option Ctor

/-- The entry of a built-in type, pyangbind/plugin/pybind.py:91-180. -/
def Ctor.entry (c : Ctor) : CEnt := ⟨some true, .none, none, some c⟩

/-- The entry of `enumeration` in `tmp_class_map`, pyangbind/plugin/pybind.py:1594. -/
def enumEnt : CEnt := ⟨none, .one py!"string", none, none⟩

/-- The loop over a union's members in `find_absolute_default_type`,
pyangbind/plugin/pybind.py:1408-1418.  `none`: no member took the value, and the function
calls itself again with the same list, until Python stops it. -/
def firstTaker (rx : Str → Str → Bool) (cm : Dict CEnt) (v : Str) : List CEnt → Except Err (Option CEnt)
  | [] => .ok none
  | m :: ms =>
    let test : Except Err CEnt :=
      match m.base with
      | none => .error .keyError
      | some true => .ok m
      | some false =>
        match m.parents with
        | .none => .error .keyError
        | .many _ => .error .typeError
        | .one p =>
          match cm.get? p with
          | none => .error .keyError
          | some e => .ok e
    match test with
    | .error e => .error e
    | .ok t =>
      match t.pytype with
      | none => .error .keyError
      | some c =>
        match c.call rx v with
        | .ok _ => .ok (some t)
        | .error .valueError => firstTaker rx cm v ms
        | .error .typeError => firstTaker rx cm v ms
        | .error e => .error e

/-- `find_absolute_default_type`; `runtimeError` is Python's `RecursionError`. -/
def absoluteType (rx : Str → Str → Bool) (cm : Dict CEnt) (v : Str) (ms : List CEnt) : Except Err CEnt :=
  match firstTaker rx cm v ms with
  | .error e => .error e
  | .ok none => .error .runtimeError
  | .ok (some t) => .ok t

/-- The search through the parent types, pyangbind/plugin/pybind.py:1611-1620 and
1648-1657.  The number bounds the turns. -/
def visitAll (cm : Dict CEnt) : Nat → List Str → List Str → Except Err (List Str)
  | _, [], checked => .ok checked
  | 0, _ :: _, checked => .ok checked
  | f + 1, c :: rest, checked =>
    if c ∈ checked then visitAll cm f rest checked
    else
      match cm.get? c with
      | none => .error .keyError
      | some e => visitAll cm f (rest ++ e.parents.list) (checked ++ [c])

/-- `tmp_class_map`, pyangbind/plugin/pybind.py:1593-1594. -/
def tmpMap (cm : Dict CEnt) : Dict CEnt := cm.set py!"enumeration" enumEnt

/-- From the type of the default down to a base type, pyangbind/plugin/pybind.py:1641-1660:
the last type of the search.  Without `parent_type` nothing is searched and `pop` fails. -/
def downToBase (cm : Dict CEnt) (fuel : Nat) (t : CEnt) : Except Err CEnt :=
  match t.base with
  | none => .error .keyError
  | some true => .ok t
  | some false =>
    match visitAll (tmpMap cm) fuel t.parents.list [] with
    | .error e => .error e
    | .ok checked =>
      match checked.getLast? with
      | none => .error .indexError
      | some l =>
        match (tmpMap cm).get? l with
        | none => .error .keyError
        | some b =>
          match b.base with
          | none => .error .keyError
          | some false => .error .typeError
          | some true => .ok b

/-- The default of a member, if it has one, takes the place of what was found before,
pyangbind/plugin/pybind.py:1579-1585; `own` is the leaf's, with the union as its type. -/
def memberDefault (own : Option (Str × Option CEnt)) (ms : List CEnt) : Option (Str × Option CEnt) :=
  ms.foldl (fun acc m =>
    match m.default with
    | some d => some (d, some m)
    | none => acc) own

/-- The default of a leaf whose `type` statement is a union with the members `ms`, and the
class it is made with, pyangbind/plugin/pybind.py:1571-1666. -/
def inlineDefault (rx : Str → Str → Bool) (cm : Dict CEnt) (fuel : Nat) (ms : List CEnt) (own : Option Str) :
    Except Err (Option (Str × CEnt)) :=
  match memberDefault (own.map fun v => (v, none)) ms with
  | none => .ok none
  | some (v, some t) => (downToBase cm fuel t).map fun b => some (v, b)
  | some (v, none) =>
    match absoluteType rx cm v ms with
    | .error e => .error e
    | .ok t => (downToBase cm fuel t).map fun b => some (v, b)

/-! ## Typedefs -/

/-- A member of a union as a typedef sees it: what `build_elemtype` made of it, and its
`yang_type`. -/
structure UMem where
  elem : CEnt
  yang : Str

/-- The parent type noted for a member, pyangbind/plugin/pybind.py:622-629. -/
def memberParent (known : List Str) (m : UMem) : Except Err (List Str) :=
  if m.yang ∈ known then .ok [m.yang]
  else if m.yang = py!"identityref" then .ok m.elem.parents.list
  else .error .typeError

/-- The default of a typedef of a union, pyangbind/plugin/pybind.py:616, 631-635 and 638-642:
its own, unless that is an empty text, or else the first of the members (a pair with the
text in it, which always counts). -/
def typedefDefault (own : Option Str) (ms : List UMem) : Option Str :=
  ms.foldl (fun acc m =>
    match m.elem.default with
    | some x => if acc = none then some x else acc
    | none => acc) (if own = some [] then none else own)

/-- The entry of a typedef of a union, pyangbind/plugin/pybind.py:611-643. -/
def unionEntry (known : List Str) (own : Option Str) (ms : List UMem) : Except Err CEnt :=
  match ms.mapM (memberParent known) with
  | .error e => .error e
  | .ok ps => .ok ⟨some false, .many ps.flatten, typedefDefault own ms, none⟩

/-- The first default among the types found, pyangbind/plugin/pybind.py:1623-1628. -/
def firstDef (cm : Dict CEnt) : List Str → Option (Str × CEnt)
  | [] => none
  | c :: cs =>
    match cm.get? c with
    | some e =>
      match e.default with
      | some v => some (v, e)
      | none => firstDef cm cs
    | none => firstDef cm cs

/-- The default of a leaf whose type is the entry `e` of `class_map`, and the class it is
made with, pyangbind/plugin/pybind.py:1571-1666. -/
def namedDefault (cm : Dict CEnt) (fuel : Nat) (e : CEnt) (own : Option Str) : Except Err (Option (Str × CEnt)) :=
  match e.default, own with
  | some v, _ => (downToBase cm fuel e).map fun b => some (v, b)
  | none, some v => (downToBase cm fuel e).map fun b => some (v, b)
  | none, none =>
    match visitAll (tmpMap cm) fuel e.parents.list [] with
    | .error x => .error x
    | .ok checked =>
      match firstDef (tmpMap cm) checked with
      | none => .ok none
      | some (v, t) => (downToBase cm fuel t).map fun b => some (v, b)

end Pyb
