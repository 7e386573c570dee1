import Verif.Model.ClassNs

/-! # Assigning to attributes of an object

`obj.name = v` for the objects of containers, lists, list entries, modules, rpcs (with their
`input` and `output`) and notifications, as Python's `object.__setattr__` does it; none of the
classes has a `__setattr__` of its own. -/

namespace Pyb
open Py

/-- How an object was made. -/
inductive ObjKind where
  /-- By calling the generated class: the object of a module, or a class that was imported. -/
  | plain
  /-- `YANGDynClass(base=..., yang_type=..., is_container=...)`, pyangbind/plugin/pybind.py:968-1003
  (children: `is_container` is given for containers and lists only) and
  pyangbind/lib/yangtypes.py:601-611, 657-696 (entries of lists: `is_container="container"`, and no `yang_type`). -/
  | wrapped (yangType : Option Str) (isContainer : Option Str)

/-- A child that is a container, an rpc, its input or output, or a notification. -/
def childKind (keyword : Str) : ObjKind := .wrapped (some keyword) (if keyword = py!"container" then some py!"container" else none)

/-- An entry of a list with a key. -/
def entryKind : ObjKind := .wrapped none (some py!"container")

/-- An entry of a list without key, pyangbind/lib/yangtypes.py:725-733: `is_container` is that of the
list. -/
def keylessKind : ObjKind := .wrapped none (some py!"list")

/-- If the class has `__slots__`: the generated one if it has children
(pyangbind/plugin/pybind.py:841-859), `YANGBaseClass` if it is for a container or list
(pyangbind/lib/yangtypes.py:1017-1018). -/
def slotted (kids : List (Str × Bool)) (kind : ObjKind) : Bool :=
  !kids.isEmpty && match kind with
    | .plain => true
    | .wrapped t c => t == some py!"container" || t == some py!"list" || c == some py!"container"

/-- An object has a `__dict__` if one of its classes has no `__slots__`. -/
def hasDict (kids : List (Str × Bool)) (kind : ObjKind) : Bool := !slotted kids kind

/-- The class body without children: only `_pyangbind_elements` (and, in Python's class, nothing
else of interest), pyangbind/plugin/pybind.py:841-842. -/
def anyClass (cls : Str) (choices : Bool) (kids : List (Str × Bool)) : Except Err ClassNs :=
  if kids = [] then .ok [(py!"_pyangbind_elements", .own py!"_pyangbind_elements")] else generatedClass cls choices kids

def ObjKind.isWrapped : ObjKind → Bool
  | .plain => false
  | .wrapped _ _ => true

/-- The names of `YANGBaseClass` that are slots, pyangbind/lib/yangtypes.py:974-996. -/
def wrapperSlots : List Str :=
  [py!"_default", py!"_mchanged", py!"_yang_name", py!"_choice", py!"_parent", py!"_supplied_register_path", py!"_path_helper", py!"_base_type",
   py!"_is_leaf", py!"_is_container", py!"_extensionsd", py!"_extmethods", py!"_is_keyval", py!"_register_paths", py!"_namespace", py!"_yang_type",
   py!"_defining_module", py!"_metadata", py!"_is_config", py!"_cpresent", py!"_presence"]

/-- What an assignment does, if it does not raise: it calls a setter, or stores the value in the
object. -/
inductive Assigned where
  | calls (setter : Member)
  | stored
  deriving DecidableEq

/-- `object.__setattr__`: data descriptors of the class (properties and slots) first, then the
`__dict__`.  Everything else in the class is a function or a plain value, which does not help. -/
def setAttr (cls : Str) (choices : Bool) (kids : List (Str × Bool)) (kind : ObjKind) (n : Str) : Except Err Assigned :=
  match anyClass cls choices kids with
  | .error e => .error e
  | .ok ns =>
    match attrOf kind.isWrapped ns n with
    | some (.prop _ s) => .ok (.calls s)
    | some (.readOnly _) => .error .attributeError
    | some .slot => .ok .stored
    | some (.lib m) => if kind.isWrapped ∧ m ∈ wrapperSlots then .ok .stored else if hasDict kids kind then .ok .stored else .error .attributeError
    | _ => if hasDict kids kind then .ok .stored else .error .attributeError

end Pyb
