import Verif.Model.Names

/-! # Extension methods

`YANGDynClass`, pyangbind/lib/yangtypes.py:973-1026, 1028-1063, 1191-1197. -/

namespace Pyb
open Py

/-- The arguments of a call. -/
structure Call (V : Type) where
  args : List V
  kwargs : List (Str × V)

/-- What an object users register may have as attribute: something that can be called, or
another value. -/
inductive ExtAttr (V R : Type) where
  | call (f : Call V → R)
  | value (v : V)

/-- The names of the attributes `__init__` sets before it looks for methods: `clsslots`,
pyangbind/lib/yangtypes.py:973-995, 1029-1051. -/
def ownAttrs : List Str :=
  [py!"_default", py!"_mchanged", py!"_yang_name", py!"_choice", py!"_parent", py!"_supplied_register_path", py!"_path_helper", py!"_base_type",
   py!"_is_leaf", py!"_is_container", py!"_extensionsd", py!"_extmethods", py!"_is_keyval", py!"_register_paths", py!"_namespace", py!"_yang_type",
   py!"_defining_module", py!"_metadata", py!"_is_config", py!"_cpresent", py!"_presence"]

/-- The names with one underscore in front in the body of `YANGBaseClass`,
pyangbind/lib/yangtypes.py:1010-1216. -/
def classAttrs : List Str :=
  [py!"_pybind_base_class", py!"_changed", py!"_extensions", py!"_path", py!"_yang_path", py!"_set", py!"_add_metadata", py!"_register_path",
   py!"_YANGBaseClass__generate_extmethod", py!"_set_present", py!"_present"]

/-- `chk_path`, pyangbind/lib/yangtypes.py:1005, 1054. -/
def chkPath (p : List Str) : Str := '/' :: join py!"/" (removePathAttributes p)

/-- `[i for i in dir(x) if not i.startswith("_")]`: the attributes, in the order of `dir`. -/
def publicAttrs {V R : Type} (ms : List (Str × ExtAttr V R)) : List (Str × ExtAttr V R) := ms.filter fun m => m.1.head? != some '_'

/-- A dict after `d[k] = v`. -/
def kwSet {V : Type} (k : Str) (v : V) : List (Str × V) → List (Str × V)
  | [] => [(k, v)]
  | x :: xs => if x.1 = k then (k, v) :: xs else x :: kwSet k v xs

/-- `__generate_extmethod`, pyangbind/lib/yangtypes.py:1191-1197; `caller` and `helper` are
the path of the object and its path helper. -/
def extFn {V R : Type} (caller helper : V) (f : Call V → R) : Call V → R := fun c =>
  f { c with kwargs := kwSet py!"path_helper" helper (kwSet py!"caller" caller c.kwargs) }

/-- `hasattr(self, n)` while methods are added.  `inherited` are the attributes of the class
of the value, `slots` the names of the slots made for methods: a slot hides what is
inherited, and is no attribute as long as nothing is in it. -/
def hasAttr (inherited slots bound : List Str) (n : Str) : Bool :=
  ownAttrs.contains n || bound.contains n || (!slots.contains n && (classAttrs.contains n || inherited.contains n))

/-- The loop over the methods, pyangbind/lib/yangtypes.py:1056-1063. -/
def bindLoop {V R : Type} (caller helper : V) (inherited slots : List Str) :
    List (Str × (Call V → R)) → List (Str × ExtAttr V R) → List (Str × (Call V → R))
  | bound, [] => bound
  | bound, m :: ms =>
    let has := hasAttr inherited slots (bound.map Prod.fst)
    if has ('_' :: m.1) then bindLoop caller helper inherited slots bound ms
    else match m.2 with
      | .call f =>
        if has py!"_method" then bindLoop caller helper inherited slots bound ms
        else bindLoop caller helper inherited slots (bound ++ [('_' :: m.1, extFn caller helper f)]) ms
      | .value _ => bindLoop caller helper inherited slots bound ms

/-- The slots made for methods, pyangbind/lib/yangtypes.py:1006-1008, 1018-1019. -/
def extSlots {V R : Type} (holder : Bool) (ms : List (Str × ExtAttr V R)) : List Str :=
  if holder then (publicAttrs ms).map fun m => '_' :: m.1 else []

/-- The methods an object gets, pyangbind/lib/yangtypes.py:997-1008, 1018-1019, 1053-1063.
`ext` is the table of extension methods; `holder` tells whether it is a container, a list or
an entry, for which the names become slots: a name both in `__slots__` and in the body of
the class raises `ValueError`.  (For these the table is looked up with the path of the
parent and the name, which is the path of the object.) -/
def bindExt {V R : Type} (ext : List (Str × List (Str × ExtAttr V R))) (holder : Bool) (inherited : List Str) (path : List Str)
    (caller helper : V) : Except Err (List (Str × (Call V → R))) :=
  match ext.lookup (chkPath path) with
  | none => .ok []
  | some ms =>
    if (extSlots holder ms).any classAttrs.contains then .error .valueError
    else .ok (bindLoop caller helper inherited (extSlots holder ms) [] (publicAttrs ms))

/-- `hasattr(obj, n)` for an object with these methods. -/
def extHas {V R : Type} (ext : List (Str × List (Str × ExtAttr V R))) (holder : Bool) (inherited : List Str) (path : List Str)
    (bound : List (Str × (Call V → R))) (n : Str) : Bool :=
  hasAttr inherited (((ext.lookup (chkPath path)).map (extSlots holder)).getD []) (bound.map Prod.fst) n

end Pyb
