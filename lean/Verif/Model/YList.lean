import Verif.Model.LeafList

/-! # YANG lists: `YANGListType`

pyangbind/lib/yangtypes.py:517-871.  The path helper is not modelled here
(`path_helper` is off); the effect of an operation on the surrounding tree is
modelled in `Verif.Model.Tree`. -/

namespace Pyb
open Py

/-- What the list needs to know of its contained class.  Key leaves are numbered in
the order of the `key` statement.

* `fresh`: `YANGDynClass(base=self._contained_class, ...)` without a value
* `copy`: `YANGDynClass(v, base=self._contained_class, load=True, ...)`
* `setKey`: `_set_<key>(v, load=True)`
* `getKey`: `_get_<key>()` -/
structure EntryCls (E : Type) where
  fresh : E
  copy : E → Except Err E
  setKey : E → Nat → PyVal → Except Err E
  getKey : E → Nat → PyVal

/-- `_members`: an `OrderedDict` from key to entry. -/
abbrev Members (E : Type) := List (PyVal × E)

/-- `k in self._members`. -/
def mem (ms : Members E) (k : PyVal) : Bool := ms.any fun p => pyEq p.1 k

/-- `self._members[k]`. -/
def lookup (ms : Members E) (k : PyVal) : Except Err E :=
  match ms.find? fun p => pyEq p.1 k with
  | some p => .ok p.2
  | none => .error .keyError

/-- `self._members[k] = e`: an existing key keeps its place (and the old key
object), a new one goes to the end. -/
def store : Members E → PyVal → E → Members E
  | [], k, e => [(k, e)]
  | p :: ms, k, e => if pyEq p.1 k then (p.1, e) :: ms else p :: store ms k e

/-- `del self._members[k]`. -/
def erase : Members E → PyVal → Except Err (Members E)
  | [], _ => .error .keyError
  | p :: ms, k => if pyEq p.1 k then .ok ms else (erase ms k).map fun ms => p :: ms

/-- Only hashable objects can be looked up in a dict.  (`seq` stands for a list, set
or dict here; tuples are not modelled as keys.) -/
def hashable : PyVal → Bool
  | .seq _ _ => false
  | .obj (.bits _) => false
  | _ => true

/-- The loop setting the key leaves, pyangbind/lib/yangtypes.py:712-715.  The first
argument is the number of the first key. -/
def setKeys (C : EntryCls E) : Nat → List PyVal → E → Except Err E
  | _, [], e => .ok e
  | i, r :: rs, e => do
    let e ← C.setKey e i r
    setKeys C (i + 1) rs e

/-- `except ValueError as m: raise KeyError`, pyangbind/lib/yangtypes.py:722-723. -/
def asKeyError : Except Err α → Except Err α
  | .error .valueError => .error .keyError
  | r => r

/-- The key values held by a positional key, pyangbind/lib/yangtypes.py:655-674:
with several keys the text is split at spaces (other types have no `split`);
with one key the empty text is refused. -/
def keyParts (n : Nat) (k : PyVal) : Except Err (List PyVal) :=
  if n = 1 then
    if k = .str [] then .error .keyError else .ok [k]
  else match k with
    | .str s =>
      let parts := (splitOn ' ' s).map PyVal.str
      if parts.length = n then .ok parts else .error .keyError
    | _ => .error .attributeError

/-- Making the new entry, pyangbind/lib/yangtypes.py:685-715.  `update` says an
object is handed to the constructor; `v = None` there fails because `None` does not
have the attributes of an entry (pyangbind/plugin/pybind.py:1065-1074). -/
def startEntry (C : EntryCls E) : Bool → Option E → Except Err E
  | false, _ => .ok C.fresh
  | true, some v => C.copy v
  | true, none => .error .valueError

/-- The new entry with its key leaves set. -/
def mkEntry (C : EntryCls E) (update : Bool) (v : Option E) (raws : List PyVal) : Except Err E := do
  let e ← startEntry C update v
  setKeys C 0 raws e

/-- `__set` of a keyed list, pyangbind/lib/yangtypes.py:621-723, positional form.
`n` is the number of keys. -/
def ylSetPos (C : EntryCls E) (n : Nat) (ms : Members E) (k : PyVal) (v : Option E) :
    Except Err (Members E) :=
  if k = .none then .error .indexError
  else if !hashable k then .error .typeError
  else do
    let raws ← keyParts n k
    let e ← asKeyError (mkEntry C (v.isSome || mem ms k) v raws)
    pure (store ms k e)

/-- `_generate_key` with keywords, pyangbind/lib/yangtypes.py:755-766: the texts of
the values joined with spaces; a missing keyword raises `AttributeError`. -/
def namedKey (raws : List PyVal) : PyVal := .str (join py!" " (raws.map PyVal.toStr))

/-- All the keywords, in key order, if none is missing. -/
def allGiven : List (Option PyVal) → Except Err (List PyVal)
  | [] => .ok []
  | some r :: rs => (allGiven rs).map fun t => r :: t
  | none :: _ => .error .attributeError

/-- `add(k)`, pyangbind/lib/yangtypes.py:793-807. -/
def ylAdd (C : EntryCls E) (n : Nat) (ms : Members E) (k : PyVal) : Except Err (Members E) :=
  if !hashable k then .error .typeError
  else if mem ms k then .error .keyError
  else if k = .none then .error .keyError
  else ylSetPos C n ms k none

/-- `add(**keywords)`, pyangbind/lib/yangtypes.py:793-814; `v` is the `_v` keyword.
`__set` is called with `_named_set`: a fresh uuid stands for the key until
`_python_key` replaces it, so an entry is handed over only if `v` is given. -/
def ylAddNamed (C : EntryCls E) (ms : Members E) (raws : List (Option PyVal)) (v : Option E) :
    Except Err (Members E) := do
  let raws ← allGiven raws
  if mem ms (namedKey raws) then .error .keyError
  else do
    let e ← asKeyError (mkEntry C v.isSome v raws)
    pure (store ms (namedKey raws) e)

/-- `_extract_key`, pyangbind/lib/yangtypes.py:771-785. -/
def extractKey (C : EntryCls E) (n : Nat) (e : E) : PyVal :=
  if n = 1 then C.getKey e 0
  else .str (rstripBy (· = ' ')
    (((List.range n).map fun i => (C.getKey e i).toStr ++ [' ']).flatten))

/-- `delete`, pyangbind/lib/yangtypes.py:819-844, and `del lst[k]`. -/
def ylDelete (ms : Members E) (k : PyVal) : Except Err (Members E) :=
  if !hashable k then .error .typeError else erase ms k

/-- What users do to a list.  `edit` is any change to the entry stored under a key,
through the object returned by `lst[k]`. -/
inductive LOp (E : Type) where
  | add (k : PyVal)
  | addNamed (raws : List (Option PyVal)) (v : Option E)
  | setitem (k : PyVal) (v : Option E)
  | append (e : E)
  | delete (k : PyVal)
  | deleteNamed (raws : List (Option PyVal))
  | edit (k : PyVal) (f : E → E)

/-- Changing an entry in place. -/
def ylEdit (ms : Members E) (k : PyVal) (f : E → E) : Except Err (Members E) :=
  if !hashable k then .error .typeError
  else do
    let e ← lookup ms k
    pure (store ms k (f e))

def ylStep (C : EntryCls E) (n : Nat) (ms : Members E) : LOp E → Except Err (Members E)
  | .add k => ylAdd C n ms k
  | .addNamed raws v => if raws.length = n then ylAddNamed C ms raws v else .error .attributeError
  | .setitem k v => ylSetPos C n ms k v
  | .append e => ylSetPos C n ms (extractKey C n e) (some e)
  | .delete k => ylDelete ms k
  | .deleteNamed raws => do
    let raws ← allGiven raws
    ylDelete ms (namedKey raws)
  | .edit k f => ylEdit ms k f

/-- A history: an operation that raises leaves the list as it was. -/
def ylRun (C : EntryCls E) (n : Nat) : Members E → List (LOp E) → Members E
  | ms, [] => ms
  | ms, op :: ops =>
    ylRun C n (match ylStep C n ms op with | .ok ms' => ms' | .error _ => ms) ops

end Pyb
