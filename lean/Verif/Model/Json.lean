import Verif.Model.Tree
import Verif.Model.Get
import Verif.Model.Names
import Verif.Model.Scalar

/-! # JSON documents, and the serialisation of values

`YangDataSerialiser` and `IETFYangDataSerialiser`, pyangbind/lib/serialise.py:69-250.

A document is the value `json.loads` returns (with `OrderedDict`s for objects) or
`json.dumps` is given; the text form, which the standard library makes and reads, is in
`Model/JsonText.lean`. -/

namespace Pyb
open Py

inductive J where
  | null
  | bool (b : Bool)
  | num (n : Int)
  | float (f : Int × Int)
  | str (s : Str)
  | arr (xs : List J)
  | obj (ms : List (Str × J))
  deriving Repr

/-- `yangt_int`, pyangbind/lib/serialise.py:205-207. -/
def serInt (v : PyVal) : Except Err J := v.toInt.map .num

/-- `yangt_long`, pyangbind/lib/serialise.py:209-211 and 232-233: a string in IETF mode. -/
def serLong (ietf : Bool) (v : PyVal) : Except Err J :=
  if ietf then .ok (.str v.toStr) else serInt v

/-- `yangt_identityref` of the IETF serialiser, pyangbind/lib/serialise.py:235-244.
`mod` is the `_defining_module` of the leaf. -/
def serIdentity (mod : Str) (idents : List (Str × Str)) (v : PyVal) : J :=
  match idents.lookup v.toStr with
  | none => .str v.toStr
  | some emod =>
    if emod ≠ mod then
      if !startsWith v.toStr emod then .str (emod ++ py!":" ++ v.toStr) else .str v.toStr
    else .str v.toStr

/-- `yangt_empty`, pyangbind/lib/serialise.py:220-221 and 249-250. -/
def serEmpty (ietf : Bool) (v : PyVal) : J :=
  if ietf then (if v.truthy then .arr [.null] else .bool false) else .bool v.truthy

/-- `yangt_decimal`, pyangbind/lib/serialise.py:217-218 and 246-247: a string in IETF mode.
(Only decimals get there.) -/
def serDecimal (ietf : Bool) (v : PyVal) : Except Err J :=
  if ietf then .ok (.str v.toStr)
  else match v with
    | .obj (.dec x) => .ok (.float (floatOfDec x))
    | _ => .error .typeError

/-- `str(base64.b64encode(obj), "ascii")`, pyangbind/lib/serialise.py:129-130, 185-186. -/
def serBinary : PyVal → Except Err J
  | .obj (.bytes b) => .ok (.str (b64encode b))
  | _ => .error .typeError

/-- The last steps of `default`, pyangbind/lib/serialise.py:150-172, for the kinds of
value modelled.  `bool` stands for a `YANGBool`, which is an `int`. -/
def serNative (ietf : Bool) : PyVal → Except Err J
  | .str s => .ok (.str s)
  | .int n => .ok (.num n)
  | .bool b => .ok (.num (if b then 1 else 0))
  | .obj (.dec x) => serDecimal ietf (.obj (.dec x))
  | _ => .error .attributeError

/-- The class name `default` looks at: pyangbind/lib/serialise.py:111-116 and 144. -/
def SerCls.pyc (A : SerCls) : Option Str :=
  match A.gen with
  | some g => if g = py!"RestrictedClassType" then some A.base0 else some g
  | none => A.baseCls

/-- `map_pyangbind_type`, pyangbind/lib/serialise.py:174-203, for the classes modelled;
then what `default` does if it returns `None`. -/
def serMapped (ietf : Bool) (yt : Str) (A : SerCls) (v : PyVal) : Except Err J :=
  match A.pyc with
  | none => serNative ietf v
  | some c =>
    if c = py!"pyangbind.lib.yangtypes.YANGBool" then
      .ok (if yt = py!"empty" then serEmpty ietf v else .bool v.truthy)
    else if c = py!"int" ∨ c = py!"long" then
      (if A.intSize = some 64 then serLong ietf v else serInt v)
    else if c ∈ [py!"pyangbind.lib.yangtypes.RestrictedPrecisionDecimal", py!"RestrictedPrecisionDecimal", py!"decimal.Decimal"] then
      serDecimal ietf v
    else if c = py!"pyangbind.lib.yangtypes.YANGBinary" ∨ c = py!"YANGBinary" then serBinary v
    else if c = py!"YANGBits" ∨ c = py!"unicode" then .ok (.str v.toStr)
    else serNative ietf v

/-- `default` on a leaf value, pyangbind/lib/serialise.py:99-172.  `yt` is `_yang_type`
(empty if the object has none).  Leafrefs of bindings generated with the path helper are not
modelled here. -/
def serVal (ietf : Bool) (mod : Str) (yt : Str) (A : SerCls) (v : PyVal) : Except Err J :=
  if yt = py!"leafref" then .ok (.str v.toStr)
  else if yt ∈ [py!"int64", py!"uint64"] then serLong ietf v
  else if yt = py!"identityref" ∧ ietf = true then .ok (serIdentity mod A.idents v)
  else if yt ∈ [py!"int8", py!"int16", py!"int32", py!"uint8", py!"uint16", py!"uint32"] then serInt v
  else if yt ∈ [py!"string", py!"enumeration"] then .ok (.str v.toStr)
  else if yt = py!"binary" then serBinary v
  else if yt = py!"decimal64" then serDecimal ietf v
  else if yt = py!"empty" then .ok (serEmpty ietf v)
  else serMapped ietf yt A v

/-- A leaf: it was made by `YANGDynClass`. -/
def serLeaf (ietf : Bool) (mod : Str) (L : LeafCls) (v : PyVal) : Except Err J :=
  serVal ietf mod L.yangType (L.ser v) v

/-- The attributes of an object that was not made by `YANGDynClass`. -/
def SerCls.bare (A : SerCls) : SerCls := { A with baseCls := none }

/-- An element of a leaf-list, pyangbind/lib/serialise.py:115-116, 223-224: the elements
have no `_yang_type`. -/
def serElem (ietf : Bool) (mod : Str) (L : LLCls) (v : PyVal) : Except Err J :=
  serVal ietf mod [] (L.ser v).bare v

/-- The members of a JSON object: `d[k]`. -/
def jget (ms : List (Str × J)) (k : Str) : Option J := ms.lookup k

/-- The Python value of a document.  A list or dict assigned to a leaf is only turned
into text (`repr`). -/
def jPy (repr : J → Str) : J → PyVal
  | .null => .none
  | .bool b => .bool b
  | .num n => .int n
  | .float f => .obj (.float f (repr (.float f)))
  | .str s => .str s
  | .arr xs => .seq (repr (.arr xs)) xs.length
  | .obj ms => .seq (repr (.obj ms)) ms.length

/-- What a leaf-list is assigned. -/
def jArg (repr : J → Str) : J → LLArg
  | .arr xs => .seq (xs.map (jPy repr))
  | j => .one (jPy repr j)

end Pyb
