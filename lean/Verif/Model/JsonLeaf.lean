import Verif.Model.Ietf
import Verif.Model.LeafCls
import Verif.Model.Scalar

/-! # The classes generated for leaves, with the attributes JSON depends on

`_yang_type` is the argument of the leaf's own `type` statement, so the name of a typedef
if there is one (`origtype`, pyangbind/plugin/pybind.py:1716, 1002); the rest comes from
the class of the value (`RestrictedClassType`, pyangbind/lib/yangtypes.py:171-397,
`class_map`, pyangbind/plugin/pybind.py:66-147). -/

namespace Pyb
open Py

/-- `int_size` in `class_map`, pyangbind/plugin/pybind.py:66-147. -/
def IntTy.bits : IntTy → Nat
  | .int8 | .uint8 => 8
  | .int16 | .uint16 => 16
  | .int32 | .uint32 => 32
  | .int64 | .uint64 => 64

/-- The types of leaves considered.  `name` is the argument of the `type` statement: the
name of the built-in type or of a typedef.

* `int`: with the arguments of the `range` statements, outermost first
* `str`: any restricted string, or an enumeration
* `ident`: an identityref, with the module of each identity
* `ext`: a decimal64 without a range, a binary without a length or a bits -/
inductive YTy where
  | int (name : Str) (t : IntTy) (ranges : List Str)
  | str (name : Str) (T : RTy)
  | ident (name : Str) (ids : List (Str × Str))
  | bool (name : Str)
  | empty (name : Str)
  | ext (name : Str) (x : ExtTy)

/-- The argument of the `type` statement. -/
def YTy.name : YTy → Str
  | .int n _ _ => n
  | .str n _ => n
  | .ident n _ => n
  | .bool n => n
  | .empty n => n
  | .ext n _ => n

/-- The class of the values: see `genRTy`, `enumTy`. -/
def YTy.ty : YTy → LeafTy
  | .int _ t rs => .restr (rs.foldr (fun a T => genRTy T [] none (some a)) t.rty)
  | .str _ T => .restr T
  | .ident _ ids => .restr (enumTy (ids.map Prod.fst))
  | .bool _ => .bool
  | .empty _ => .bool
  | .ext _ x => .ext x

/-- The attributes of the values.  `int_size` is only given for the built-in class: a
class restricting it further has `None` (pyangbind/lib/yangtypes.py:183, 196). -/
def YTy.ser : YTy → SerCls
  | .int _ t rs =>
    { gen := some py!"RestrictedClassType", base0 := py!"int", intSize := if rs = [] then some t.bits else none }
  | .str _ (.base _) => { baseCls := some py!"str" }
  | .str _ _ => { gen := some py!"RestrictedClassType", base0 := py!"str" }
  | .ident _ ids => { gen := some py!"RestrictedClassType", base0 := py!"str", idents := ids }
  | .bool _ => { baseCls := some py!"pyangbind.lib.yangtypes.YANGBool" }
  | .empty _ => { baseCls := some py!"pyangbind.lib.yangtypes.YANGBool" }
  | .ext _ (.dec _) => { gen := some py!"RestrictedPrecisionDecimal" }
  | .ext _ .bin => { baseCls := some py!"pyangbind.lib.yangtypes.YANGBinary" }
  | .ext _ (.bits _) => { gen := some py!"YANGBits" }

/-- The class of a leaf. -/
def YTy.cls (rx : Str → Str → Bool) (t : YTy) (default : Option PyVal := none) : LeafCls :=
  { (LeafT.one t.ty).cls rx default with yangType := t.name, ser := fun _ => t.ser }

/-- Strings without restriction have the class `str`. -/
def YTy.isStr : YTy → Bool
  | .str _ (.base .str) => true
  | _ => false

/-- The class of a leaf-list: pyangbind/lib/yangtypes.py:400-514.  `text` is `str` of the
list, which only matters for assignments of one leaf-list to another. -/
def YTy.llCls (rx : Str → Str → Bool) (t : YTy) (uniq : Bool := true) (text : List PyVal → Str := fun _ => []) : LLCls where
  conv := elemConv rx [t.ty]
  uniq := uniq
  «show» := text
  yangType := t.name
  ser := fun _ => t.ser
  plainStr := t.isStr

/-! ## Unions -/

/-- A leaf of a union: the argument of its `type` statement (`union`, or the name of a
typedef) and the members, those of unions among the members in their place
(pyangbind/plugin/pybind.py:1655-1713). -/
structure UTy where
  name : Str
  members : List YTy

/-- The member a value of the leaf is of: the first that makes this value of it. -/
def UTy.member (rx : Str → Str → Bool) (u : UTy) (v : PyVal) : Option YTy :=
  u.members.find? fun t =>
    match t.ty.call rx v with
    | .ok w => w == v
    | .error _ => false

/-- The class of a leaf of a union.  Simplified: the attributes of the value are those of
the member that was chosen for what the leaf was set to
(pyangbind/lib/yangtypes.py:958-971); the model finds the member from the value, see
`UTy.member`.  (It does not find `bits` members.) -/
def UTy.cls (rx : Str → Str → Bool) (u : UTy) (default : Option PyVal := none) : LeafCls :=
  { (LeafT.union (u.members.map YTy.ty)).cls rx default with yangType := u.name, ser := fun v => ((u.member rx v).map YTy.ser).getD {} }

/-- The member an element of a leaf-list of the union is of: the first that makes this
element of it. -/
def UTy.elemMember (rx : Str → Str → Bool) (u : UTy) (v : PyVal) : Option YTy :=
  u.members.find? fun t =>
    match elemCheck rx t.ty v with
    | some w => w == v
    | none => false

/-- The class of a leaf-list of a union: all members are allowed types
(pyangbind/plugin/pybind.py:1683-1702), the first one that takes a value converts it
(`elemConv`).  As for leaves, the model finds the member from the element. -/
def UTy.llCls (rx : Str → Str → Bool) (u : UTy) (uniq : Bool := true) (text : List PyVal → Str := fun _ => []) : LLCls where
  conv := elemConv rx (u.members.map YTy.ty)
  uniq := uniq
  «show» := text
  yangType := u.name
  ser := fun v => ((u.elemMember rx v).map YTy.ser).getD {}
  plainStr := u.members.any YTy.isStr

end Pyb
