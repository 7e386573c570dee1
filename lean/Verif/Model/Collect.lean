import Verif.Py.Dict


/-! # Which modules and definitions a binding is built from

`build_pybind`, pyangbind/plugin/pybind.py:287-437, and `find_definitions`,
pyangbind/helpers/misc.py:34-57.  Statements are pyang's; a module is known by its name
(one revision of each). -/

namespace Pyb
open Py

/-- The keywords that matter here. -/
inductive StmKw where
  | typedef_ | identity_ | grouping_ | container_ | list_ | rpc_ | input_ | output_ | notification_ | action_ | other
  deriving DecidableEq

/-- A statement: its keyword, its argument, whether pyang's `i_children` (the data nodes
under it, after `uses`) is not empty, and its substatements. -/
inductive Stm where
  | mk (kw : StmKw) (arg : Str) (kids : Bool) (subs : List Stm)

def Stm.kw : Stm → StmKw
  | .mk k _ _ _ => k

def Stm.arg : Stm → Str
  | .mk _ a _ _ => a

def Stm.kids : Stm → Bool
  | .mk _ _ c _ => c

def Stm.subs : Stm → List Stm
  | .mk _ _ _ ss => ss

/-- `possible_parents`, pyangbind/helpers/misc.py:41. -/
def possibleParents : List StmKw := [.grouping_, .container_, .list_, .rpc_, .input_, .output_, .notification_]

/-- The order in which `find_child_definitions` meets the definitions under a statement
with the substatements `subs`, pyangbind/helpers/misc.py:35 and 43-46: its own, then those
under its children, by keyword.  `rs` has the keyword of each child and what is met there. -/
def meetOrder (d : StmKw) (subs : List Stm) (rs : List (StmKw × List Stm)) : List Stm :=
  subs.filter (·.kw = d) ++ possibleParents.flatMap fun k => (rs.filter (·.1 = k)).flatMap (·.2)

mutual
/-- What is met under a statement; nothing under one without `i_children`,
pyangbind/helpers/misc.py:45. -/
def meetIn (d : StmKw) : Stm → StmKw × List Stm
  | .mk k _ c ss => (k, if c then meetOrder d ss (meetEach d ss) else [])

/-- What is met under each of some statements. -/
def meetEach (d : StmKw) : List Stm → List (StmKw × List Stm)
  | [] => []
  | x :: rest => meetIn d x :: meetEach d rest
end

/-- The definitions in the order in which `find_child_definitions` meets them. -/
def meet (d : StmKw) (subs : List Stm) : List Stm := meetOrder d subs (meetEach d subs)

/-- `"%s:%s" % (prefix, i.arg)`. -/
def defKey (pfx name : Str) : Str := pfx ++ ':' :: name

/-- One definition, pyangbind/helpers/misc.py:36-39. -/
def noteDef (pfx : Str) (ds : Dict Stm) (s : Stm) : Dict Stm := if ds.has s.arg then ds else ds.set (defKey pfx s.arg) s

/-- `find_definitions`, pyangbind/helpers/misc.py:51-57. -/
def findDefinitions (d : StmKw) (pfx : Str) (body : List Stm) : Dict Stm := (meet d body).foldl (noteDef pfx) []

/-! ## Modules -/

/-- A module or submodule: the argument of its `prefix` and of the `prefix` in its
`belongs-to`, its imports (prefix, module), the submodules it includes, and its
statements. -/
structure Mod where
  prefix_ : Option Str
  belongs : Option Str
  imports : List (Str × Str)
  includes : List Str
  body : List Stm

/-- `ctx.get_module`. -/
abbrev Repo := Str → Option Mod

/-- `local_module_prefix`, pyangbind/plugin/pybind.py:343-350. -/
def Mod.localPrefix (m : Mod) : Except Err Str :=
  match m.prefix_ with
  | some p => .ok p
  | none =>
    match m.belongs with
    | some p => .ok p
    | none => .error .attributeError

/-- The submodules found, pyangbind/plugin/pybind.py:357-360. -/
def foundSubs (r : Repo) (m : Mod) : List (Str × Mod) :=
  m.includes.filterMap fun n => (r n).map fun s => (n, s)

/-- `imported_modules`, pyangbind/plugin/pybind.py:353, 362-363. -/
def importedMods (r : Repo) (m : Mod) : List (Str × Str) := m.imports ++ (foundSubs r m).flatMap fun s => s.2.imports

/-- `mods`, pyangbind/plugin/pybind.py:351, 360, 367-371. -/
def modsOf (r : Repo) (name : Str) (m : Mod) (p : Str) : List (Str × Str) :=
  (p, name) :: (foundSubs r m).map (fun s => (p, s.1)) ++ (importedMods r m).filter fun j => (r j.2).isSome

/-- The modules appended to the list that is being gone through,
pyangbind/plugin/pybind.py:367-372. -/
def nextMods (r : Repo) (m : Mod) : List Str := ((importedMods r m).filter fun j => (r j.2).isSome).map (·.2)

/-- The loop over `modules`, pyangbind/plugin/pybind.py:341-373, with a bound on its turns.
The list grows while it is gone through. -/
def gatherLoop (r : Repo) : Nat → List Str → List (Str × Str) → Option (Except Err (List (Str × Str)))
  | _, [], acc => some (.ok acc)
  | 0, _ :: _, _ => none
  | f + 1, n :: q, acc =>
    match r n with
    | none => some (.error .attributeError)
    | some m =>
      match m.localPrefix with
      | .error e => some (.error e)
      | .ok p => gatherLoop r f (q ++ nextMods r m) (acc ++ modsOf r n m p)

/-- Duplicates removed, pyangbind/plugin/pybind.py:375-380. -/
def dropSame (l : List (Str × Str)) : List (Str × Str) := l.foldl (fun acc x => if x ∈ acc then acc else acc ++ [x]) []

/-- The definitions of one module not there yet, pyangbind/plugin/pybind.py:389-391. -/
def addNew (ds : Dict Stm) (t : Dict Stm) : Dict Stm := t.foldl (fun acc kv => if acc.has kv.1 then acc else acc.set kv.1 kv.2) ds

/-- `defn[defnt]`, pyangbind/plugin/pybind.py:386-391. -/
def defsFrom (r : Repo) (d : StmKw) (mods : List (Str × Str)) : Dict Stm :=
  mods.foldl (fun acc pm =>
    match r pm.2 with
    | none => acc
    | some m => addNew acc (findDefinitions d pm.1 m.body)) []

/-- The definitions a binding for `roots` is built from, pyangbind/plugin/pybind.py:341-391.
`none` when `fuel` turns do not suffice. -/
def gather (r : Repo) (d : StmKw) (fuel : Nat) (roots : List Str) : Option (Except Err (Dict Stm)) :=
  (gatherLoop r fuel roots []).map fun x => x.map fun l => defsFrom r d (dropSame l)

/-! ## What is written -/

/-- One call of `get_children` at the top: which children (data, RPCs, notifications) of
which module, written for which module or submodule, under which path. -/
structure TopCall where
  kind : StmKw
  children : Str
  as_ : Str
  path : Str
  deriving DecidableEq

/-- The options `build_rpcs` and `build_notifications`, and for each module whether it has
RPCs and notifications. -/
structure TopOpts where
  rpcs : Bool
  notifications : Bool
  hasRpcs : Str → Bool
  hasNotifs : Str → Bool

/-- The calls for one module, pyangbind/plugin/pybind.py:401-436.  `safe` is `safe_name`.
`other` stands for data nodes. -/
def topCallsOf (r : Repo) (o : TopOpts) (safe : Str → Str) (n : Str) (m : Mod) : List TopCall :=
  (n :: (foundSubs r m).map (·.1)).flatMap fun x =>
    ⟨.other, n, x, []⟩
      :: ((if o.rpcs && o.hasRpcs n then [⟨.rpc_, n, n, '/' :: (safe n ++ py!"_rpc")⟩] else [])
        ++ (if o.notifications && o.hasNotifs n then [⟨.notification_, n, n, '/' :: (safe n ++ py!"_notification")⟩] else []))

/-- `module_d`, pyangbind/plugin/pybind.py:291-294: the modules given, once each. -/
def calledMods (roots : List Str) : List Str := roots.foldl (fun acc x => if x ∈ acc then acc else acc ++ [x]) []

/-- The last loop, pyangbind/plugin/pybind.py:398-437. -/
def topCalls (r : Repo) (o : TopOpts) (safe : Str → Str) (roots : List Str) : List TopCall :=
  (calledMods roots).flatMap fun n =>
    match r n with
    | none => []
    | some m => topCallsOf r o safe n m

/-- The check of pyang's errors, pyangbind/plugin/pybind.py:299-304: `true` when it goes
on. -/
def errorsPass (errs : List Str) : Bool := errs.all fun e => e == py!"UNUSED_IMPORT" || e == py!"PATTERN_ERROR"

end Pyb
