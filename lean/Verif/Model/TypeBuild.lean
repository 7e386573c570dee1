import Verif.Model.Typedef
import Verif.Model.LeafCls

/-! # From `type` statements to classes

`build_elemtype`, pyangbind/plugin/pybind.py:1221-1402, and what `build_typedefs`
(pyangbind/plugin/pybind.py:482-645) and `get_element` (pyangbind/plugin/pybind.py:1558,
1704-1707) make of it: the `native_type` that ends up in the generated code.  The text of
a Python expression is modelled by the type it evaluates to (`LeafT`). -/

namespace Pyb
open Py

/-- A `type` statement with its arguments: a type by name with its `pattern`s, `length`
and `range`; an enumeration; a decimal64; bits with their positions; a union; an
identityref; a leafref. -/
inductive TypeT where
  | plain (arg : Str) (patterns : List Str) (length range : Option Str)
  | enumeration (names : List Str)
  | decimal (fd : Nat)
  | bits (allowed : List (Str × Str))
  | union (members : List TypeT)
  | identityref (base : Str)
  | leafref

mutual
/-- What the ordering of typedefs sees of a type statement (`search_one("type")`, its
argument and that of its members, pyangbind/plugin/pybind.py:501-512). -/
def TypeT.erase : TypeT → TypeS
  | .plain a ps l r => .plain a (!ps.isEmpty || l.isSome || r.isSome)
  | .enumeration _ => .plain py!"enumeration" false
  | .decimal _ => .plain py!"decimal64" false
  | .bits _ => .plain py!"bits" false
  | .union ms => .union (TypeT.eraseAll ms)
  | .identityref b => .identityref b
  | .leafref => .plain py!"leafref" false

def TypeT.eraseAll : List TypeT → List TypeS
  | [] => []
  | t :: ts => t.erase :: TypeT.eraseAll ts
end

/-- A `typedef` statement, or any other place with a `type` statement: `pfx` and `name`
only matter for typedefs. -/
structure TDef where
  pfx : Str
  name : Str
  local_ : Str
  real : Str
  imports : List (Str × Str)
  type : TypeT

def TDef.erase (d : TDef) : TypeDef :=
  { pfx := d.pfx, name := d.name, local_ := d.local_, real := d.real, imports := d.imports, type := d.type.erase, default := none }

/-- The key of the typedef in `defnd` (pyangbind/helpers/misc.py:34-50). -/
def TDef.key (d : TDef) : Str := d.pfx ++ ':' :: d.name

/-- `class_map` as written in the file, pyangbind/plugin/pybind.py:52-180.  (The entry for
`decimal64` is `Decimal`; it is never used since `fraction-digits` is mandatory.) -/
def classMap₀ : Dict LeafT :=
  [(py!"boolean", .one .bool), (py!"binary", .one (.ext .bin)), (py!"uint8", .one (.restr IntTy.uint8.rty)),
   (py!"bits", .one (.ext (.bits []))), (py!"uint16", .one (.restr IntTy.uint16.rty)), (py!"uint32", .one (.restr IntTy.uint32.rty)),
   (py!"uint64", .one (.restr IntTy.uint64.rty)), (py!"string", .one (.restr (.base .str))), (py!"decimal64", .one (.ext (.dec 18))),
   (py!"empty", .one .bool), (py!"int8", .one (.restr IntTy.int8.rty)), (py!"int16", .one (.restr IntTy.int16.rty)),
   (py!"int32", .one (.restr IntTy.int32.rty)), (py!"int64", .one (.restr IntTy.int64.rty))]

/-- After `build_identities`, pyangbind/plugin/pybind.py:466-479: one entry per name of an
identity with the names of its values (see `Model/Identity.lean` for which).  Identities
named like a type replace its entry. -/
def classMap (ids : List (Str × List Str)) : Dict LeafT :=
  ids.foldl (fun cm i => cm.set i.1 (.one (.restr (enumTy i.2)))) classMap₀

mutual
/-- `build_elemtype`, pyangbind/plugin/pybind.py:1221-1402, without `--use-xpathhelper`.  A
name that is not found ends the program (`sys.exit`), here `runtimeError`.  Restrictions of
something that is not a string or an integer (decimal64, binary, union) are not modelled
here: `runtimeError`. -/
def buildNative (cm : Dict LeafT) : TypeT → Except Err LeafT
  | .plain a ps l r =>
    if !ps.isEmpty || l.isSome || r.isSome then
      match cm.get? a with
      | none => .error .keyError
      | some (.one (.restr T)) => .ok (.one (.restr (genRTy T ps l r)))
      | some _ => .error .runtimeError
    else
      match cm.get? a with
      | none => .error .runtimeError
      | some t => .ok t
  | .enumeration names => .ok (.one (.restr (enumTy names)))
  | .decimal fd => .ok (.one (.ext (.dec fd)))
  | .bits allowed => .ok (.one (.ext (.bits allowed)))
  | .union ms =>
    match buildMembers cm ms with
    | .error e => .error e
    | .ok ts => .ok (.union ts)
  | .identityref b =>
    match cm.get? b with
    | none => .error .runtimeError
    | some t => .ok t
  | .leafref => .ok (.one (.restr (.base .str)))

/-- The members of a union, pyangbind/plugin/pybind.py:1310-1316, and the types they come
to, 617-622 (typedefs), 926-931 (leaves): a member that is a union typedef gives its
members.  A union written inside a union is a list, not a dictionary: `TypeError`. -/
def buildMembers (cm : Dict LeafT) : List TypeT → Except Err (List LeafTy)
  | [] => .ok []
  | .union ms :: _ =>
    match buildMembers cm ms with
    | .error e => .error e
    | .ok _ => .error .typeError
  | m :: ms =>
    match buildNative cm m with
    | .error e => .error e
    | .ok (.one t) =>
      match buildMembers cm ms with
      | .error e => .error e
      | .ok ts => .ok (t :: ts)
    | .ok (.union us) =>
      match buildMembers cm ms with
      | .error e => .error e
      | .ok ts => .ok (us ++ ts)
end

/-- The names known besides the keys of `class_map`, pyangbind/plugin/pybind.py:492-494. -/
def extraTypes : List Str := [py!"enumeration", py!"leafref", py!"bits"]

/-- One turn of the second loop of `build_typedefs`, pyangbind/plugin/pybind.py:566-645.
The checks of `parent_type` cannot fail for types that were built, with identityrefs whose
base is an identity. -/
def addNative (cm : Dict LeafT) (d : TDef) : Except Err (Dict LeafT) :=
  match buildNative cm d.type with
  | .error e => .error e
  | .ok t =>
    if cm.has d.key || extraTypes.contains d.key then .error .typeError
    else .ok ((cm.set d.key t).set ((splitOn ':' d.key).getD 1 []) t)

/-- `build_typedefs`, pyangbind/plugin/pybind.py:482-645: the order first, then the classes
of the statements under those keys (`defnd[t]`).  `fuel` bounds the turns of the first
loop; `none` is that it goes on. -/
def buildTypes (fuel : Nat) (cm : Dict LeafT) (defs : List TDef) : Option (Except Err (Dict LeafT)) :=
  match typedefOrder (cm.map (·.1) ++ extraTypes) fuel (defs.map TDef.erase) with
  | none => none
  | some (.error e) => some (.error e)
  | some (.ok order) => some ((order.filterMap fun o => defs.find? fun d => d.key == o.key).foldlM addNative cm)

/-- Assigning to a leaf of the type: the generated setter turns `TypeError` into
`ValueError` (pyangbind/plugin/pybind.py:1117-1172). -/
def LeafT.assign (rx : Str → Str → Bool) : LeafT → PyVal → Except Err PyVal
  | .one t, v =>
    match t.dyn rx v with
    | .error .typeError => .error .valueError
    | r => r
  | .union ts, v => setUnion rx ts v

/-- Declaring a leaf with the type statement and assigning to it
(pyangbind/plugin/pybind.py:1558, 1704-1707, 918-962). -/
def leafAssign (rx : Str → Str → Bool) (cm : Dict LeafT) (t : TypeT) (v : PyVal) : Except Err PyVal :=
  match buildNative cm t with
  | .error e => .error e
  | .ok T => T.assign rx v

end Pyb
