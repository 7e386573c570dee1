import Verif.Model.Reg

/-! # One path helper for several bindings

Each binding is made with the same helper, and each makes its calls of the helper on its own
account (`Verif/Model/Reg.lean`). -/

namespace Pyb
open Py Spec

/-- What is done next: an operation at a path of the binding with that number. -/
abbrev SharedOp := Nat × Path × Op

/-- The modules' classes are instantiated one after the other with the helper,
pyangbind/plugin/pybind.py:1059-1085, and lib/yangtypes.py:1049-1057 for their children. -/
def makeAll : List (List (Meta × Schema)) → List RegOp
  | [] => []
  | kids :: mods => regKids [] kids ++ makeAll mods

/-- The calls of the helper when the bindings are used in turns; `nss` has the data of each. -/
def sharedCalls (mods : List (List (Meta × Schema))) : List (List Inst) → List SharedOp → List RegOp
  | _, [] => []
  | nss, (i, p, op) :: evs =>
    match mods[i]?, nss[i]? with
    | some kids, some ns => rootCalls kids ns p op ++ sharedCalls mods (nss.set i (runRoot kids ns p op).1) evs
    | _, _ => sharedCalls mods nss evs

/-- The helper of bindings that are made with it, and used in turns. -/
def sharedHelper (eqv : XObj → XObj → Bool) (mods : List (List (Meta × Schema))) (evs : List SharedOp) : Helper :=
  (makeAll mods ++ sharedCalls mods (mods.map freshKids) evs).foldl (fun h c => (doCall eqv h c).1) Helper.new

/-- The helper after several bindings of one module, each made when the one before is done with. -/
def seriesCalls (kids : List (Meta × Schema)) : List (List (Path × Op)) → List RegOp
  | [] => []
  | ops :: rest => (regKids [] kids ++ historyCalls kids (freshKids kids) ops) ++ seriesCalls kids rest

def seriesHelper (eqv : XObj → XObj → Bool) (kids : List (Meta × Schema)) (hist : List (List (Path × Op))) : Helper :=
  (seriesCalls kids hist).foldl (fun h c => (doCall eqv h c).1) Helper.new

/-- What a document is loaded into. -/
inductive LoadInto where
  | new
  | found (o : XObj)
  deriving DecidableEq

/-- The object for a document when none is given, but a path helper,
pyangbind/lib/serialise.py:472-489, 578-595, 722-739: the `_path()` of the module's object, which
has no parent, is `[]` (pyangbind/plugin/pybind.py:1091-1097 with the path of a module). -/
def loadTarget (h : Helper) : Except Err LoadInto :=
  match h.get [] none with
  | .error e => .error e
  | .ok [] => .ok .new
  | .ok [o] => .ok (.found o)
  | .ok _ => .error .valueError

end Pyb
