import Verif.Py.Dict

/-! # Typedefs

`build_typedefs`, pyangbind/plugin/pybind.py:482-645, and the search for a leaf's default
in `get_element`, pyangbind/plugin/pybind.py:1570-1666. -/

namespace Pyb
open Py

/-- A `type` statement: a type by name, with or without `range`, `length` or `pattern`;
a union; or an identityref with its base. -/
inductive TypeS where
  | plain (arg : Str) (restricted : Bool)
  | union (members : List TypeS)
  | identityref (base : Str)

/-- A `typedef` statement as found under the key `pfx:name` of `defnd`
(pyangbind/helpers/misc.py:34-50).  `local_` is the prefix its module has for itself,
`real` the prefix of the main module, `imports` the import table: prefix to the real
prefix of that module. -/
structure TypeDef where
  pfx : Str
  name : Str
  local_ : Str
  real : Str
  imports : List (Str × Str)
  type : TypeS
  default : Option Str

def TypeDef.key (d : TypeDef) : Str := d.pfx ++ ':' :: d.name

/-- The argument looked at for one member type, pyangbind/plugin/pybind.py:504-510. -/
def TypeS.memberArg : TypeS → Str
  | .plain a _ => a
  | .identityref b => b
  | .union _ => py!"union"

/-- `subtypes`, pyangbind/plugin/pybind.py:502-512. -/
def TypeS.subtypes : TypeS → List Str
  | .plain a _ => [a]
  | .identityref b => [b]
  | .union ms => ms.map TypeS.memberArg

/-- The prefix of the module a prefix means, pyangbind/plugin/pybind.py:519-532 with
pyang's `prefix_to_module`. -/
def realPrefix (d : TypeDef) (p : Str) : Option Str :=
  if p = [] then some d.real
  else if p = d.local_ then some d.real
  else d.imports.lookup p

/-- `tn`, pyangbind/plugin/pybind.py:519-541; an unknown prefix gives `None.search_one`. -/
def typeName (base : List Str) (d : TypeDef) (arg : Str) : Except Err Str :=
  if ':' ∈ arg then
    match realPrefix d ((splitOn ':' arg).headD []) with
    | none => .error .attributeError
    | some r => .ok (r ++ ':' :: (splitOn ':' arg).getD 1 [])
  else if arg ∉ base then .ok (d.real ++ ':' :: arg)
  else .ok arg

/-- `any_unknown`, pyangbind/plugin/pybind.py:514-544. -/
def anyUnknown (base known : List Str) (d : TypeDef) : List Str → Except Err Bool
  | [] => .ok false
  | a :: as =>
    match typeName base d a with
    | .error e => .error e
    | .ok tn =>
      match anyUnknown base known d as with
      | .error e => .error e
      | .ok u => .ok (u || !known.contains tn)

/-- The `while` loop, pyangbind/plugin/pybind.py:499-563, with a bound on its turns.  The
counter `unresolved_tc[t]` travels with the definition (a key is in the queue once). -/
def tdLoop (base : List Str) : Nat → List (TypeDef × Nat) → List Str → List TypeDef → List Str → Option (Except Err (List TypeDef))
  | _, [], _, order, errs => some (if errs.isEmpty then .ok order else .error .typeError)
  | 0, _ :: _, _, _, _ => none
  | f + 1, q :: qs, known, order, errs =>
    match anyUnknown base known q.1 q.1.type.subtypes with
    | .error e => some (.error e)
    | .ok false => tdLoop base f qs (known ++ [q.1.key]) (order ++ [q.1]) errs
    | .ok true =>
      if q.2 + 1 > 1000 then tdLoop base f qs known order (errs ++ [q.1.key])
      else tdLoop base f (qs ++ [(q.1, q.2 + 1)]) known order errs

/-- The order in which `build_typedefs` works, pyangbind/plugin/pybind.py:482-563.  `base`
is `base_types`: the keys of `class_map`, `enumeration`, `leafref` and `bits`. -/
def typedefOrder (base : List Str) (fuel : Nat) (defs : List TypeDef) : Option (Except Err (List TypeDef)) :=
  tdLoop base fuel (defs.map fun d => (d, 0)) base [] []

/-! ## The classes of typedefs and defaults -/

/-- An entry of `class_map`: `base_type`, `parent_type` and `default`; the others do not
matter for defaults.  Lists of parent types (unions) are not modelled. -/
structure TEntry where
  base : Bool
  parent : Option Str
  default : Option Str
  deriving DecidableEq

/-- `build_elemtype`, pyangbind/plugin/pybind.py:1225-1402, for a type that is not a
union or identityref.  `enumeration`, `leafref`, `bits` and `decimal64` are taken to be
entries of the map.  A name that is not found ends the program (`sys.exit`), here
`runtimeError`. -/
def buildElem (cm : Dict TEntry) : TypeS → Except Err TEntry
  | .plain a true => if cm.has a then .ok ⟨false, some a, none⟩ else .error .keyError
  | .plain a false =>
    match cm.get? a with
    | some e => .ok e
    | none => .error .runtimeError
  | _ => .error .runtimeError

/-- The name of a type, `item.search_one("type").arg`. -/
def TypeS.arg : TypeS → Str
  | .plain a _ => a
  | .union _ => py!"union"
  | .identityref _ => py!"identityref"

/-- One turn of the second loop, pyangbind/plugin/pybind.py:566-607, 645. -/
def addTypedef (cm : Dict TEntry) (d : TypeDef) : Except Err (Dict TEntry) := do
  let elem ← buildElem cm d.type
  if cm.has d.key then .error .typeError else
  match elem.parent with
  | some p =>
    let e := ⟨false, some p, d.default⟩
    .ok ((cm.set d.key e).set ((splitOn ':' d.key).getD 1 []) e)
  | none =>
    if cm.has d.type.arg then
      let e := ⟨false, some d.type.arg, d.default⟩
      .ok ((cm.set d.key e).set ((splitOn ':' d.key).getD 1 []) e)
    else .error .typeError

/-- The second loop. -/
def addTypedefs (cm : Dict TEntry) (order : List TypeDef) : Except Err (Dict TEntry) := order.foldlM addTypedef cm

/-- The search through the parent types, pyangbind/plugin/pybind.py:1611-1620 and
1647-1656, one parent at a time.  The number bounds the turns. -/
def walkParents (cm : Dict TEntry) : Nat → List Str → Option Str → Except Err (List Str)
  | _, checked, none => .ok checked
  | 0, checked, some _ => .ok checked
  | f + 1, checked, some c =>
    if c ∈ checked then .ok checked
    else
      match cm.get? c with
      | none => .error .keyError
      | some e => walkParents cm f (checked ++ [c]) e.parent

/-- The first default among the types found, pyangbind/plugin/pybind.py:1623-1628. -/
def firstDefault (cm : Dict TEntry) : List Str → Option (Str × TEntry)
  | [] => none
  | c :: cs =>
    match cm.get? c with
    | some e =>
      match e.default with
      | some v => some (v, e)
      | none => firstDefault cm cs
    | none => firstDefault cm cs

/-- The check that the type of the default comes down to a base type,
pyangbind/plugin/pybind.py:1640-1660. -/
def checkBase (cm : Dict TEntry) (e : TEntry) : Except Err Unit :=
  if e.base then .ok () else
  match walkParents cm cm.length [] e.parent with
  | .error x => .error x
  | .ok checked =>
    match checked.getLast? with
    | none => .error .indexError
    | some l =>
      match cm.get? l with
      | none => .error .keyError
      | some b => if b.base then .ok () else .error .typeError

/-- The default of a leaf with its own default `own`, pyangbind/plugin/pybind.py:1570-1660. -/
def leafDefault (cm : Dict TEntry) (t : TypeS) (own : Option Str) : Except Err (Option Str) := do
  let elem ← buildElem cm t
  let picked : Except Err (Option (Str × TEntry)) :=
    match elem.default, own with
    | some v, _ => .ok (some (v, elem))
    | none, some v => .ok (some (v, elem))
    | none, none =>
      match walkParents cm cm.length [] elem.parent with
      | .error x => .error x
      | .ok checked => .ok (firstDefault cm checked)
  match picked with
  | .error x => .error x
  | .ok none => .ok none
  | .ok (some p) => (checkBase cm p.2).map fun _ => some p.1

end Pyb
