import Verif.Model.Reg

/-! # Lists without key, and the path helper

An entry of a list without key is made with the `is_container` of the list, `'list'`, and without a path
of its own (pyangbind/lib/yangtypes.py:725-733, pyangbind/plugin/pybind.py:902-914).  It does not
register, as "lists themselves do not register", but its children do (pyangbind/lib/yangtypes.py:1070-1091),
with the path of the list and their name (1183-1189).

The list is `name`, in the object at `up`. -/

namespace Pyb
open Py
open Spec (PStep RegOp)

/-- Calls of the helper, up to the first that raises. -/
def callAll (eqv : XObj → XObj → Bool) : Helper → List RegOp → Helper × Except Err Unit
  | h, [] => (h, .ok ())
  | h, c :: cs =>
    match (doCall eqv h c).2 with
    | .error e => ((doCall eqv h c).1, .error e)
    | .ok _ => callAll eqv (doCall eqv h c).1 cs

/-- `add()` on a list without key of a binding with a path helper, pyangbind/lib/yangtypes.py:793-817,
724-734: the entry is put into the list when it has been made.  `u` is the key made by `uuid.uuid1()`. -/
def addAnonRun (eqv : XObj → XObj → Bool) (up : List PStep) (name : Str) (kids : List (Meta × Schema)) (h : Helper) (ms : Members Inst) (u : Str) :
    Helper × Members Inst × Option Err :=
  match callAll eqv h (regKids (up ++ [⟨name, []⟩]) kids) with
  | (h, .ok _) => (h, store ms (.str u) (.cont false false (freshKids kids)), none)
  | (h, .error e) => (h, ms, some e)

/-- `delete(k)` there, pyangbind/lib/yangtypes.py:819-844: the entry is looked up, then `" " in
self._keyval` raises `TypeError`, as `_keyval` is `False`. -/
def deleteAnonRun (h : Helper) (ms : Members Inst) (k : PyVal) : Helper × Members Inst × Option Err :=
  if !hashable k then (h, ms, some .typeError)
  else if mem ms k then (h, ms, some .typeError)
  else (h, ms, some .keyError)

end Pyb
