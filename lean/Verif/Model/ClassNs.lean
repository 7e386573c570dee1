import Verif.Model.Names

/-! # The names of a generated class

What Python makes of the class written for a container, list or module with children
(pyangbind/plugin/pybind.py:798-1210), and what an attribute of an object of it is.  A child is
given by its YANG name, and if it is config (`i["config"]` and `parent_cfg`). -/

namespace Pyb
open Py

/-- What a name of a class stands for. -/
inductive Member where
  | own (n : Str)
  | getter (n : Str)
  | setter (n : Str)
  | unsetter (n : Str)
  | prop (get set : Member)
  | readOnly (get : Member)
  | slot
  | lib (n : Str)
  deriving DecidableEq

/-- Names of a class, the latest first. -/
abbrev ClassNs := List (Str × Member)

/-- Python's private names: `__x` in the body of a class, and in `__slots__`, is `_Class__x`; but
not if it ends with two underscores, or the name of the class has nothing but underscores. -/
def mangle (cls n : Str) : Str :=
  if ['_', '_'] <+: n ∧ ¬ ['_', '_'] <:+ n ∧ cls.dropWhile (· == '_') ≠ [] then '_' :: cls.dropWhile (· == '_') ++ n else n

/-- The variables and methods that come first: pyangbind/plugin/pybind.py:851-873, 1011-1015,
1089-1095. -/
def ownNames : List Str := [py!"__slots__", py!"_yang_name", py!"_yang_namespace", py!"_pybind_generated_by", py!"__init__", py!"_path"]

/-- `_get_x`, `_set_x` and `_unset_x` for every child, pyangbind/plugin/pybind.py:1099-1183. -/
def accessorNs (kids : List (Str × Bool)) : ClassNs :=
  (kids.flatMap fun k => [(py!"_get_" ++ safeName k.1, Member.getter (safeName k.1)), (py!"_set_" ++ safeName k.1, .setter (safeName k.1)),
    (py!"_unset_" ++ safeName k.1, .unsetter (safeName k.1))]).reverse

/-- `x = __builtin__.property(_get_x, _set_x)`, pyangbind/plugin/pybind.py:1189-1199: the names on
the right are looked up in the class as it is then. -/
def propStep (cls : Str) (ns : ClassNs) (k : Str × Bool) : Except Err ClassNs :=
  if (ns.lookup py!"__builtin__").isSome then .error .attributeError
  else .ok ((mangle cls (safeName k.1),
    if k.2 then .prop ((ns.lookup (py!"_get_" ++ safeName k.1)).getD .slot) ((ns.lookup (py!"_set_" ++ safeName k.1)).getD .slot)
    else .readOnly ((ns.lookup (py!"_get_" ++ safeName k.1)).getD .slot)) :: ns)

/-- `__slots__`, pyangbind/plugin/pybind.py:851-855. -/
def slotNames (cls : Str) (kids : List (Str × Bool)) : List Str :=
  py!"_path_helper" :: py!"_extmethods" :: kids.map fun k => mangle cls (py!"__" ++ safeName k.1)

/-- The class, or the exception that loading the module ends with: `OrderedDict(...)` is called in
the body (pyangbind/plugin/pybind.py:850, 1206), and no variable may have the name of a slot. -/
def generatedClass (cls : Str) (choices : Bool) (kids : List (Str × Bool)) : Except Err ClassNs :=
  match kids.foldlM (propStep cls) (accessorNs kids ++ ownNames.map fun n => (n, Member.own n)) with
  | .error e => .error e
  | .ok ns =>
    let ns := if choices then (py!"__choices__", Member.own py!"__choices__") :: ns else ns
    if (ns.lookup py!"OrderedDict").isSome then .error .typeError
    else
      let ns := (py!"_pyangbind_elements", Member.own py!"_pyangbind_elements") :: ns
      if (slotNames cls kids).any fun s => (ns.lookup s).isSome then .error .valueError
      else .ok (((slotNames cls kids).map fun s => (s, Member.slot)) ++ ns)

/-- The names of `YANGBaseClass` for containers and entries of lists,
pyangbind/lib/yangtypes.py:974-996, 1010-1215. -/
def wrapperNames : List Str :=
  [py!"__slots__", py!"_pybind_base_class", py!"__new__", py!"__init__", py!"_changed", py!"_extensions", py!"_path", py!"_yang_path", py!"__str__",
   py!"__repr__", py!"_set", py!"_add_metadata", py!"yang_name", py!"default", py!"__setitem__", py!"append", py!"pop", py!"remove", py!"extend",
   py!"insert", py!"_register_path", py!"_YANGBaseClass__generate_extmethod", py!"_set_present", py!"_present",
   py!"_default", py!"_mchanged", py!"_yang_name", py!"_choice", py!"_parent", py!"_supplied_register_path", py!"_path_helper", py!"_base_type",
   py!"_is_leaf", py!"_is_container", py!"_extensionsd", py!"_extmethods", py!"_is_keyval", py!"_register_paths", py!"_namespace", py!"_yang_type",
   py!"_defining_module", py!"_metadata", py!"_is_config", py!"_cpresent", py!"_presence"]

/-- The names of `PybindBase`, pyangbind/lib/base.py:22-113. -/
def pybindNames : List Str := [py!"__slots__", py!"elements", py!"__str__", py!"get", py!"__getitem__", py!"__iter__"]

/-- What an attribute of an object is: `YANGBaseClass` comes first (not for the object of a
module, which is `wrapped = false`), then the class, then `PybindBase`.  Names of `object` are not
considered. -/
def attrOf (wrapped : Bool) (ns : ClassNs) (n : Str) : Option Member :=
  if wrapped = true ∧ n ∈ wrapperNames then some (.lib n)
  else
    match ns.lookup n with
    | some m => some m
    | none => if n ∈ pybindNames then some (.lib n) else none

end Pyb
