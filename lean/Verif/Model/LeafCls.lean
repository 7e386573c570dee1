import Verif.Model.Tree

/-! # The classes of leaves, as used in the tree

`dynLeaf` (in `Verif.Model.Restricted`) says what assigning a value comes to; here the
same steps are split at the call of `_set`, which happens in `YANGBaseClass.__init__`
(pyangbind/lib/yangtypes.py:1067-1068) after `__new__` (1014-1021) and before the base
class's `__init__` (1087-1092). -/

namespace Pyb
open Py

/-- `int()` or `str()` of the class at the bottom. -/
def RTy.zero : RTy → PyVal
  | .base b => b.zero
  | .restr inner _ => inner.zero

/-- The generated setter turns `TypeError` into `ValueError`,
pyangbind/plugin/pybind.py:1160-1172. -/
def setterErr : Err → Err
  | .typeError => .valueError
  | e => e

/-- Building a leaf of a restricted type; see `dynLeaf` and `setLeaf`. -/
def RTy.build (rx : Str → Str → Bool) (T : RTy) (v : PyVal) : LeafRes :=
  match (match (T.cls rx).new (some v) with
    | .error .typeError => (T.cls rx).new none
    | r => r) with
  | .error e => .refused (setterErr e)
  | .ok (o, t) =>
    match T.init rx t (some v) with
    | .ok () => .ok o
    | .error .typeError => .ok o
    | .error e => .marked e

/-- Building a leaf of a `decimal64`, `binary` or `bits` type; see `ExtTy.dyn`.  The first
two check in `__new__`; the check of `bits` is in `__init__`, after `_set`
(pyangbind/lib/yangtypes.py:1404-1411, 1067-1092). -/
def ExtTy.build (x : ExtTy) (v : PyVal) : LeafRes :=
  match x, x.dyn v with
  | _, .ok w => .ok w
  | .bits _, .error e => .marked e
  | _, .error e => .refused (setterErr e)

/-- Building a leaf of a single type.  `YANGBool` checks in `__new__`
(pyangbind/lib/yangtypes.py:884-893) and has no `__init__`. -/
def LeafTy.build (rx : Str → Str → Bool) : LeafTy → PyVal → LeafRes
  | .restr T, v => T.build rx v
  | .bool, v =>
    match yangBool v with
    | .ok b => .ok (.bool b)
    | .error e => .refused (setterErr e)
  | .ext x, v => x.build v

/-- Building a leaf of a union type, pyangbind/lib/yangtypes.py:953-971. -/
def unionBuild (rx : Str → Str → Bool) (ts : List LeafTy) (v : PyVal) : LeafRes :=
  match ts.find? (fun t => (t.call rx v).toBool) with
  | none => .refused .valueError
  | some t => t.build rx v

/-- The type of a leaf: a single type, or the members of a union. -/
inductive LeafT where
  | one (t : LeafTy)
  | union (ts : List LeafTy)

def LeafTy.zero : LeafTy → PyVal
  | .restr T => T.zero
  | .bool => .bool false
  | .ext x => x.zero

/-- A leaf without value uses the first member of a union
(pyangbind/lib/yangtypes.py:954-957). -/
def LeafT.zero : LeafT → PyVal
  | .one t => t.zero
  | .union (t :: _) => t.zero
  | .union [] => .none

def LeafT.build (rx : Str → Str → Bool) : LeafT → PyVal → LeafRes
  | .one t, v => t.build rx v
  | .union ts, v => unionBuild rx ts v

/-- The class of a leaf of the given type. -/
def LeafT.cls (rx : Str → Str → Bool) (t : LeafT) (default : Option PyVal := none) : LeafCls where
  zero := t.zero
  set := t.build rx
  default := default

/-- The outcome seen by the caller. -/
def LeafRes.toExcept : LeafRes → Except Err PyVal
  | .refused e => .error e
  | .marked e => .error e
  | .ok w => .ok w

end Pyb
