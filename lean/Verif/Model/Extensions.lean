import Verif.Model.GenValue

/-! # Extension statements kept with a node

With `--interesting-extension`, the statements of extensions from the modules named are put into a
dictionary of dictionaries, which is given to the object (pyangbind/plugin/pybind.py:1453-1462, 914,
996-997, 1514, 1730-1731) and comes back from `_extensions()` (pyangbind/lib/yangtypes.py:1042,
1096-1097). -/

namespace Pyb
open Py

/-- A substatement as pyang gives it: the keyword is a text, or for extensions a pair of the name of
the module that defines it and its own name. -/
inductive Keyword where
  | core (s : Str)
  | ext (mod name : Str)
  deriving DecidableEq

structure SubStmt where
  keyword : Keyword
  arg : Option Str
  deriving DecidableEq

/-- `keyword[0]` and `keyword[1]`: of a text these are characters.  (A keyword of one character would
raise an `IndexError` for the second; YANG has none.) -/
def Keyword.fst : Keyword → Str
  | .core s => s.take 1
  | .ext m _ => m
def Keyword.snd : Keyword → Str
  | .core s => (s.drop 1).take 1
  | .ext _ n => n

/-- `d[k] = v`. -/
def dictSet {V : Type} (k : Str) (v : V) : List (Str × V) → List (Str × V)
  | [] => [(k, v)]
  | p :: d => if p.1 = k then (k, v) :: d else p :: dictSet k v d

abbrev ExtDict := List (Str × List (Str × Option Str))

/-- One statement, pyangbind/plugin/pybind.py:1459-1462. -/
def addExt (interested : List Str) (d : ExtDict) (s : SubStmt) : ExtDict :=
  if s.keyword.fst ∈ interested then
    let d := if (d.lookup s.keyword.fst).isSome then d else dictSet s.keyword.fst [] d
    dictSet s.keyword.fst (dictSet s.keyword.snd s.arg ((d.lookup s.keyword.fst).getD [])) d
  else d

/-- The loop, pyangbind/plugin/pybind.py:1457-1462. -/
def collectExts (interested : List Str) (ss : List SubStmt) : ExtDict := ss.foldl (addExt interested) []

/-- `_extensions()` of the object: `None` if there are none. -/
def objExtensions (interested : List Str) (ss : List SubStmt) : Option ExtDict :=
  if (collectExts interested ss).isEmpty then none else some (collectExts interested ss)

/-- `obj._extensions()[m][n]`, where `none` stands for an exception. -/
def extArg (interested : List Str) (ss : List SubStmt) (m n : Str) : Option (Option Str) :=
  (objExtensions interested ss).bind fun d => (d.lookup m).bind fun e => e.lookup n

/-! ## In the generated program -/

def litPairs {V : Type} (f : V → Lit) : List (Str × V) → LitPairs
  | [] => .nil
  | p :: d => .cons p.1 (f p.2) (litPairs f d)

/-- The value written behind `extensions=`, pyangbind/plugin/pybind.py:914, 996-997, 1514: the dictionary,
or `None`.  For leaves without extensions nothing is written and `None` is the default of the parameter
(1730-1731, pyangbind/lib/yangtypes.py:939). -/
def extLit (o : Option ExtDict) : Lit :=
  match o with
  | none => .none
  | some d => .dict (litPairs (fun e => .dict (litPairs (fun a => match a with | none => .none | some t => .str t) e)) d)

/-- `d[k]` of a dictionary given by a display: of equal keys the last counts. -/
def LitPairs.get (k : Str) : LitPairs → Option Lit
  | .nil => none
  | .cons k' v xs => (xs.get k).or (if k' = k then some v else none)

/-- `d[k]`, where `none` stands for an exception. -/
def Lit.get (k : Str) : Lit → Option Lit
  | .dict xs => xs.get k
  | _ => Option.none

end Pyb
