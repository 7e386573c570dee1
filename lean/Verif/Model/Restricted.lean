import Verif.Model.Range

/-! # `RestrictedClassType` and the leaf part of `YANGDynClass`

pyangbind/lib/yangtypes.py:171-397 and 902-1109. -/

namespace Pyb
open Py

/-- The Python classes at the bottom of a restricted type (`int`, `long` being an
alias, and `str`).  `Decimal` and `YANGBinary` bases are not modelled here. -/
inductive BaseTy where
  | int | str
  deriving DecidableEq, Repr

/-- `int(v)` / `str(v)`. -/
def BaseTy.conv : BaseTy → PyVal → Except Err PyVal
  | .int, v => v.toInt.map .int
  | .str, v => .ok (.str v.toStr)

/-- `int()` / `str()`. -/
def BaseTy.zero : BaseTy → PyVal
  | .int => .int 0
  | .str => .str []

/-- One entry of a `restriction_dict`. -/
inductive Restr where
  | pattern (p : Str)
  | range (specs : List Str)
  | length (specs : List Str)
  | dictKey (keys : List Str)
  deriving DecidableEq, Repr

/-- A restricted type: a base class, or a `RestrictedClassType` over another type. -/
inductive RTy where
  | base (b : BaseTy)
  | restr (inner : RTy) (rs : List Restr)

/-- An element of `_restriction_tests`. -/
inductive Test where
  | pattern (p : Str)
  | range (ts : List Chk)
  | length (ts : List Chk)
  | dictKey (keys : List Str)
  deriving DecidableEq, Repr

/-- `convert_regexp`, pyangbind/lib/yangtypes.py:233-253 (`IndexError` on the empty
pattern). -/
def convertRegexp (pattern : Str) : Except Err Str :=
  match pattern.getLast? with
  | none => .error .indexError
  | some last =>
    let trimmed : Bool := last = '$'
    let tmp := if trimmed then pattern.dropLast else pattern
    let pattern := replaceBy '$' py!"\\$" tmp
    let pattern := if trimmed then pattern ++ py!"$" else pattern
    let pattern := if pattern.head? = some '^' then pattern else '^' :: pattern
    let pattern := if pattern.getLast? = some '$' then pattern else pattern ++ py!"$"
    .ok pattern

/-- Calling a test.  `rx p s` is `regex.match(p, s) is not None`. -/
def Test.run (rx : Str → Str → Bool) : Test → PyVal → Except Err Bool
  | .pattern p, v => do
    let p ← convertRegexp p
    pure (rx p v.toStr)
  | .range ts, v => rangeCheck ts v
  | .length ts, v => do
    let n ← v.len
    rangeCheck ts (.int n)
  | .dictKey keys, v => pure (keys.contains v.toStr)

/-- The loop building `_restriction_tests`, pyangbind/lib/yangtypes.py:311-358;
also converts `val` for a `range`.  `mkInner` is calling `base_type` with one
argument.  For `dict_key`, keys starting with `@` are dropped (the enumeration
values are modelled in `Verif.Model.Enum`). -/
def buildTests (mkInner : PyVal → Except Err PyVal) :
    List Restr → PyVal → Except Err (List Test × PyVal)
  | [], val => .ok ([], val)
  | r :: rs, val => do
    let (t, val) ← match r with
      | .pattern p => pure (Test.pattern p, val)
      | .range specs => do
        let cs ← specs.mapM (buildChk mkInner)
        let val ← if val.truthy then
            match mkInner val with
            | .ok v => pure v
            | .error _ => .error .typeError
          else pure val
        pure (Test.range cs, val)
      | .length specs => do
        let cs ← specs.mapM (buildChk fun v => v.toInt.map .int)
        pure (Test.length cs, val)
      | .dictKey keys => pure (Test.dictKey (keys.filter fun k => !startsWith k py!"@"), val)
    let (ts, val) ← buildTests mkInner rs val
    pure (t :: ts, val)

/-- The any-of loop of `__new__`, pyangbind/lib/yangtypes.py:360-367 (stops at the
first test that passes).  `passed` stays unbound for an empty list of tests. -/
def anyOf (rx : Str → Str → Bool) : List Test → PyVal → Except Err Bool
  | [], _ => .error .runtimeError
  | [t], v => t.run rx v
  | t :: t' :: ts, v => do
    if ← t.run rx v then pure true else anyOf rx (t' :: ts) v

/-- The all-of loop of `__check`, pyangbind/lib/yangtypes.py:375-384. -/
def allOf (rx : Str → Str → Bool) : List Test → PyVal → Except Err Unit
  | [], _ => .ok ()
  | t :: ts, v => do
    if ← t.run rx v then allOf rx ts v else .error .valueError

/-- What a (restricted) class can do.  `new` is `__new__`: it returns the object's
value and, if the class is restricted, the value that the class attribute
`_restriction_tests` ends up with.  `call` is calling the class: `__new__` then
`__init__`.  The argument is optional. -/
structure Cls where
  new : Option PyVal → Except Err (PyVal × Option (List Test))
  call : Option PyVal → Except Err PyVal

/-- `RestrictedClass.__init__` with its `__check`, given the tests in force.
pyangbind/lib/yangtypes.py:202-216, 375-384.  `callInner` is calling `base_type`.
The `super().__init__` chain re-runs the same check through the same
name-mangled method and ends in `object.__init__`, whose `TypeError` is caught. -/
def initCheck (rx : Str → Str → Bool) (callInner : Option PyVal → Except Err PyVal)
    (tests : List Test) : Option PyVal → Except Err Unit
  | none => .ok ()
  | some v => do
    let v' ← callInner (some v)
    allOf rx tests v'

/-- The class of a restricted type.  `__new__` (pyangbind/lib/yangtypes.py:218-373)
first installs its own tests and checks them any-of, then calls
`base_type.__new__(self, ...)`; when the base is itself restricted, that call
overwrites `_restriction_tests` (same class object) with the inner tests. -/
def RTy.cls (rx : Str → Str → Bool) : RTy → Cls
  | .base b =>
    let mk : Option PyVal → Except Err PyVal := fun
      | none => .ok b.zero
      | some v => b.conv v
    { new := fun a => (mk a).map fun v => (v, none), call := mk }
  | .restr inner rs =>
    let ic := inner.cls rx
    let new : Option PyVal → Except Err (PyVal × Option (List Test)) := fun a => do
      let (tests, val) ← buildTests (fun v => ic.call (some v)) rs (a.getD (.bool false))
      if val ≠ .bool false then
        if ← anyOf rx tests val then pure () else .error .valueError
      let (o, t) ← match ic.new a with
        | .error .typeError => ic.new none
        | r => r
      pure (o, some (t.getD tests))
    { new := new
      call := fun a => do
        let (o, t) ← new a
        initCheck rx ic.call (t.getD []) a
        pure o }

/-- `__init__` of the outermost restricted layer, as called by `YANGBaseClass`. -/
def RTy.init (rx : Str → Str → Bool) (tests : Option (List Test)) :
    RTy → Option PyVal → Except Err Unit
  | .base _, _ => .ok ()
  | .restr inner _, a => initCheck rx (inner.cls rx).call (tests.getD []) a

/-- Building a leaf value with `YANGDynClass(v, base=T, ...)`:
`YANGBaseClass.__new__` (pyangbind/lib/yangtypes.py:1034-1066) catches `TypeError`
and retries without arguments; `YANGBaseClass.__init__` (1068-1109) likewise. -/
def dynLeaf (rx : Str → Str → Bool) (T : RTy) (v : PyVal) : Except Err PyVal := do
  let (o, t) ← match (T.cls rx).new (some v) with
    | .error .typeError => (T.cls rx).new none
    | r => r
  match T.init rx t (some v) with
  | .ok () => pure o
  | .error .typeError => pure o
  | .error e => .error e

/-- Assigning to a leaf: the generated setter (pyangbind/plugin/pybind.py:1117-1172)
turns `TypeError` and `ValueError` into `ValueError`; others escape. -/
def setLeaf (rx : Str → Str → Bool) (T : RTy) (v : PyVal) : Except Err PyVal :=
  match dynLeaf rx T v with
  | .error .typeError => .error .valueError
  | r => r

/-- The eight built-in integer types: `class_map`, pyangbind/plugin/pybind.py:66-147. -/
inductive IntTy where
  | int8 | int16 | int32 | int64 | uint8 | uint16 | uint32 | uint64
  deriving DecidableEq, Repr

/-- The range text in `class_map`. -/
def IntTy.spec : IntTy → Str
  | .int8 => py!"-128..127"
  | .int16 => py!"-32768..32767"
  | .int32 => py!"-2147483648..2147483647"
  | .int64 => py!"-9223372036854775808..9223372036854775807"
  | .uint8 => py!"0..255"
  | .uint16 => py!"0..65535"
  | .uint32 => py!"0..4294967295"
  | .uint64 => py!"0..18446744073709551615"

/-- The key in `class_map`: the YANG name of the type. -/
def IntTy.name : IntTy → Str
  | .int8 => py!"int8"
  | .int16 => py!"int16"
  | .int32 => py!"int32"
  | .int64 => py!"int64"
  | .uint8 => py!"uint8"
  | .uint16 => py!"uint16"
  | .uint32 => py!"uint32"
  | .uint64 => py!"uint64"

/-- The restrictions the generator collects from a `type` statement, in order:
pyangbind/plugin/pybind.py:1226-1249.  `search_one` returns the first substatement
of a name, so of several `pattern`s only the first is kept. -/
def genRestrs (patterns : List Str) (length range : Option Str) : List Restr :=
  (patterns.head?.map Restr.pattern).toList ++
  (length.map fun a => Restr.length (genSpecs a)).toList ++
  (range.map fun a => Restr.range (genSpecs a)).toList

/-- The class generated for a `type` statement with restrictions over the type
`inner` (a built-in or a typedef), pyangbind/plugin/pybind.py:1251-1290.  Without
restrictions the inner type itself is used. -/
def genRTy (inner : RTy) (patterns : List Str) (length range : Option Str) : RTy :=
  match genRestrs patterns length range with
  | [] => inner
  | rs => .restr inner rs

/-- The native type of a built-in integer type. -/
def IntTy.rty (t : IntTy) : RTy := .restr (.base .int) [.range [t.spec]]

end Pyb
