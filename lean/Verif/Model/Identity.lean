import Verif.Py.Dict

/-! # Identities

pyangbind/helpers/identity.py, pyangbind/helpers/misc.py:23-31 and `build_identities`,
pyangbind/plugin/pybind.py:440-479. -/

namespace Pyb
open Py

/-- An `identity` statement as pyang hands it over: the main module it is in (with its
namespace and prefix), its name, the arguments of its `base` statements, and the
module's import table (prefix, module).  That the main module always exists is assumed
(pyangbind/helpers/identity.py:82-87). -/
structure IdDef where
  mod : Str
  name : Str
  ns : Str
  prefix_ : Str
  bases : List Str
  imports : List (Str × Str)

/-- An `Identity` object is the only one in the store with its module and name
(`add_identity`), so the pair stands for the object. -/
abbrev IdRef := Str × Str

def IdDef.ref (d : IdDef) : IdRef := (d.mod, d.name)

/-- `Identity`, pyangbind/helpers/identity.py:23-48. -/
structure Ident where
  mod : Str
  name : Str
  ns : Str
  prefixes : List Str
  children : List IdRef

def Ident.ref (i : Ident) : IdRef := (i.mod, i.name)

/-- `Identity.add_prefix`, pyangbind/helpers/identity.py:32-36. -/
def Ident.addPrefix (i : Ident) (p : Str) : Ident :=
  let ps := if i.mod ∈ i.prefixes then i.prefixes else i.prefixes ++ [i.mod]
  let ps := if p ∈ ps then ps else ps ++ [p]
  { i with prefixes := ps }

abbrev IdStore := List Ident

/-- `find_identity_by_source_name`, pyangbind/helpers/identity.py:54-57. -/
def findId (s : IdStore) (r : IdRef) : Option Ident := s.find? fun i => i.mod == r.1 && i.name == r.2

/-- `add_identity`, pyangbind/helpers/identity.py:59-64. -/
def addIdentity (s : IdStore) (i : Ident) : IdStore := if (findId s i.ref).isSome then s else s ++ [i]

/-- `base_id.add_child(tid)`, pyangbind/helpers/identity.py:38-41. -/
def addChild (s : IdStore) (b c : IdRef) : IdStore :=
  s.map fun i => if i.ref = b then { i with children := i.children ++ [c] } else i

/-- `module_import_prefixes`, pyangbind/helpers/misc.py:23-31: for each module the
prefixes it is imported under.  A module is given as its imports (module, prefix). -/
def importPrefixes (mods : List (List (Str × Str))) : Dict (List Str) :=
  mods.foldl (fun d m => m.foldl (fun d i =>
    let d := if d.has i.1 then d else d.set i.1 []
    d.set i.1 (((d.get? i.1).getD []) ++ [i.2])) d) []

/-- `util.prefix_to_module` of pyang: the empty and the own prefix mean the module
itself, others are looked up among the imports; `None` if unknown. -/
def prefixToModule (d : IdDef) (p : Str) : Option Str :=
  if p = [] then some d.mod
  else if p = d.prefix_ then some d.mod
  else d.imports.lookup p

/-- Which identity a `base` argument means, pyangbind/helpers/identity.py:100-111.
Two colons: `ValueError` from unpacking; unknown prefix: `None.arg`. -/
def baseRef (d : IdDef) (b : Str) : Except Err IdRef :=
  let pn : Except Err (Str × Str) :=
    if ':' ∈ b then
      match splitOn ':' b with
      | [p, n] => .ok (p, n)
      | _ => .error .valueError
    else .ok (d.prefix_, b)
  match pn with
  | .error e => .error e
  | .ok (p, n) =>
    match prefixToModule d p with
    | none => .error .attributeError
    | some m => .ok (m, n)

/-- The loop over the bases, pyangbind/helpers/identity.py:97-126; `none` is the `break`
at a base that is not in the store yet. -/
def basesIn (s : IdStore) (d : IdDef) : List Str → Except Err (Option (List IdRef))
  | [] => .ok (some [])
  | b :: bs =>
    match baseRef d b with
    | .error e => .error e
    | .ok r =>
      match findId s r with
      | none => .ok none
      | some _ =>
        match basesIn s d bs with
        | .error e => .error e
        | .ok none => .ok none
        | .ok (some rs) => .ok (some (r :: rs))

/-- The new `Identity`, pyangbind/helpers/identity.py:131-141. -/
def newIdent (mrp : Dict (List Str)) (d : IdDef) : Ident :=
  ((mrp.get? d.mod).getD []).foldl Ident.addPrefix
    (Ident.addPrefix { mod := d.mod, name := d.name, ns := d.ns, prefixes := [], children := [] } d.prefix_)

/-- One turn of the `while` loop, pyangbind/helpers/identity.py:77-146, for the popped
definition.  The state is the queue and the store.  (The prefixes from the import table
are added after the identity went into the store; it is the same object.  The counters
of line 73 are never read.) -/
def idStep (mrp : Dict (List Str)) (d : IdDef) (q : List IdDef) (s : IdStore) : Except Err (List IdDef × IdStore) :=
  if (findId s d.ref).isSome then .ok (q, s)
  else
    match basesIn s d d.bases with
    | .error e => .error e
    | .ok none => .ok (q ++ [d], s)
    | .ok (some rs) => .ok (q, rs.foldl (fun s b => addChild s b d.ref) (addIdentity s (newIdent mrp d)))

/-- The `while` loop; `none` when the given number of turns was not enough. -/
def idLoop (mrp : Dict (List Str)) : Nat → List IdDef → IdStore → Option (Except Err IdStore)
  | _, [], s => some (.ok s)
  | 0, _ :: _, _ => none
  | f + 1, d :: q, s =>
    match idStep mrp d q s with
    | .error e => some (.error e)
    | .ok (q, s) => idLoop mrp f q s

/-- `_recurse_children`, pyangbind/helpers/identity.py:150-154.  The number bounds the
depth of the recursion (`none`: not enough); Python's own recursion limit is not
modelled. -/
def recurseChildren : Nat → IdStore → IdRef → Option (List IdRef)
  | 0, _, _ => none
  | f + 1, s, r =>
    match findId s r with
    | none => none
    | some i => (i.children.mapM fun c => (recurseChildren f s c).map (c :: ·)).map List.flatten

/-- `i.children = ch`. -/
def setChildren (s : IdStore) (r : IdRef) (ch : List IdRef) : IdStore :=
  s.map fun i => if i.ref = r then { i with children := ch } else i

/-- `_build_inheritance`, pyangbind/helpers/identity.py:156-160. -/
def buildInheritance (s : IdStore) : Option IdStore :=
  s.foldlM (fun t i => (recurseChildren s.length t i.ref).map (setChildren t i.ref)) s

/-- `build_store_from_definitions`, pyangbind/helpers/identity.py:71-148, with a bound
on the number of turns of its loop.  `mods` are the imports of the modules known to
pyang.  The list of definitions is `defnd`'s values in order; one statement can occur
under several keys. -/
def buildStore (fuel : Nat) (mods : List (List (Str × Str))) (defs : List IdDef) : Option (Except Err IdStore) :=
  match idLoop (importPrefixes mods) fuel defs [] with
  | none => none
  | some (.error e) => some (.error e)
  | some (.ok s) => (buildInheritance s).map .ok

/-! ## build_identities -/

/-- The entry of a derived identity: its module and namespace. -/
abbrev IdInfo := Str × Str

/-- `"%s:%s" % (p, n)`. -/
def qual (p n : Str) : Str := p ++ ':' :: n

/-- `d[k][j] = v` for a dict of dicts, where `d[k]` exists. -/
def setIn (D : Dict (Dict IdInfo)) (k j : Str) (v : IdInfo) : Dict (Dict IdInfo) := D.set k (((D.get? k).getD []).set j v)

/-- The text before the name, pyangbind/plugin/pybind.py:455-458. -/
def spfx : Option Str → Str
  | some p => p ++ [':']
  | none => []

/-- The assignments for one prefix (or none) of one derived identity,
pyangbind/plugin/pybind.py:454-462. -/
def spellOne (ident name : Str) (ch : Ident) (D : Dict (Dict IdInfo)) (p : Option Str) : Dict (Dict IdInfo) :=
  let sp := spfx p
  let d : IdInfo := (ch.mod, ch.ns)
  let D := setIn D ident ch.name d
  let D := setIn D name ch.name d
  let D := setIn D ident (sp ++ ch.name) d
  setIn D name (sp ++ ch.name) d

/-- pyangbind/plugin/pybind.py:452-462 for one derived identity. -/
def spellChild (ident name : Str) (D : Dict (Dict IdInfo)) (ch : Ident) : Dict (Dict IdInfo) :=
  (ch.prefixes.map some ++ [none]).foldl (spellOne ident name ch) D

/-- pyangbind/plugin/pybind.py:449-462 for one prefix of an identity. -/
def spellPrefix (s : IdStore) (i : Ident) (D : Dict (Dict IdInfo)) (p : Str) : Dict (Dict IdInfo) :=
  let ident := qual p i.name
  (i.children.filterMap (findId s)).foldl (spellChild ident i.name) ((D.set ident []).set i.name [])

/-- pyangbind/plugin/pybind.py:447-465 for one identity. -/
def spellIdent (s : IdStore) (D : Dict (Dict IdInfo)) (i : Ident) : Dict (Dict IdInfo) :=
  let D := i.prefixes.foldl (spellPrefix s i) D
  if D.has i.name then D else D.set i.name []

/-- `identity_dict` of `build_identities`, pyangbind/plugin/pybind.py:446-465. -/
def identityDict (s : IdStore) : Dict (Dict IdInfo) := s.foldl (spellIdent s) []

/-- An entry of `class_map`: what was there before (`old`), or the `dict_key`
restriction of an identity.  The other fields of the entry are not modelled. -/
inductive ClassEntry (α : Type) where
  | old (a : α)
  | ident (d : Dict IdInfo)

/-- The last loop of `build_identities`, pyangbind/plugin/pybind.py:467-479. -/
def addClasses (cm : Dict (ClassEntry α)) (D : Dict (Dict IdInfo)) : Dict (ClassEntry α) :=
  D.foldl (fun cm q => cm.set q.1 (.ident q.2)) cm

end Pyb
