import Verif.Model.Names

/-! # Bindings split into directories (`--split-class-dir`) -/

namespace Pyb
open Py

mutual
/-- A data node with a class of its own: a container, list, rpc, its input or output, or a
notification.  (Choices and cases are left out: their children are written as those of the
node around them, pyangbind/plugin/pybind.py:665-683.) -/
inductive Holder where
  | mk (name : Str) (kids : Holders)
inductive Holders where
  | nil
  | cons (k : Holder) (ks : Holders)
end

def Holder.name : Holder → Str
  | .mk n _ => n

def Holder.kids : Holder → Holders
  | .mk _ ks => ks

def Holders.toList : Holders → List Holder
  | .nil => []
  | .cons k ks => k :: ks.toList

/-- The name of a directory: `before` is the part of the path before it,
pyangbind/plugin/pybind.py:725-732. -/
def dirName (first : Bool) (module before part : Str) : Str :=
  if part = before then safeName part ++ py!"_"
  else if first = true ∧ part = module then safeName part ++ py!"_"
  else safeName part

/-- The directory of a path, below the base directory, pyangbind/plugin/pybind.py:715-736. -/
def dirParts (module : Str) : Bool → Str → List Str → List Str
  | _, _, [] => []
  | first, before, part :: rest => dirName first module before part :: dirParts module false part rest

def splitDir (module : Str) (path : List Str) : List Str := dirParts module true [] path

/-- What one call of `get_children` writes: into which directory, the names it imports, the
name of the class, which node it is the class of, and for each child with a class the
package and the class it is to be found by. -/
structure Chunk where
  dir : List Str
  imports : List Str
  cls : Str
  node : Str × List Str
  refs : List (Str × Str × Str)

/-- pyangbind/plugin/pybind.py:785-792. -/
def importName (parent im : Str) : Str := safeName (if im = parent then im ++ py!"_" else im)

/-- pyangbind/plugin/pybind.py:1519-1528. -/
def refOf (parent name : Str) : Str × Str × Str :=
  (name, if name = parent then safeName name ++ py!"_" else safeName name, safeName name)

/-- What a call writes itself, after its children, pyangbind/plugin/pybind.py:785-818. -/
def ownChunk (module parent : Str) (path : List Str) (kids : Holders) : Chunk :=
  { dir := splitDir module path, imports := kids.toList.map fun k => importName parent k.name, cls := safeName parent,
    node := (module, path), refs := kids.toList.map fun k => refOf parent k.name }

/-- The calls of `get_children` for the children, pyangbind/plugin/pybind.py:685-700,
1485-1498. -/
def splitElements (module : Str) (path : List Str) : Holders → List Chunk
  | .nil => []
  | .cons (.mk n ks) rest => (splitElements module (path ++ [n]) ks ++ [ownChunk module n (path ++ [n]) ks]) ++ splitElements module path rest

/-- `get_children` as far as directories are concerned, pyangbind/plugin/pybind.py:702-818:
`parent` is the name of the node and `path` its path. -/
def splitChildren (module parent : Str) (path : List Str) (kids : Holders) : List Chunk :=
  splitElements module path kids ++ [ownChunk module parent path kids]

/-- All data nodes of the modules given, and the rpcs and the notifications of each,
pyangbind/plugin/pybind.py:400-437. -/
structure SplitModule where
  name : Str
  data : Holders
  rpcs : Holders := .nil
  notifications : Holders := .nil

def splitModule (m : SplitModule) : List Chunk :=
  splitChildren m.name m.name [] m.data ++
    (if m.rpcs.toList.isEmpty then [] else splitChildren m.name m.name [safeName m.name ++ py!"_rpc"] m.rpcs) ++
    (if m.notifications.toList.isEmpty then [] else splitChildren m.name m.name [safeName m.name ++ py!"_notification"] m.notifications)

def splitFiles (ms : List SplitModule) : List Chunk := ms.flatMap splitModule

/-! ## How Python loads them -/

/-- The names every file begins with, `pybind_common_hdr`,
pyangbind/plugin/pybind.py:307-333
(`xpathhelper` with `--use-xpathhelper`). -/
def headerNames : List Str :=
  [py!"attrgetter", py!"xpathhelper", py!"RestrictedPrecisionDecimalType", py!"RestrictedClassType", py!"TypedListType", py!"YANGBool",
   py!"YANGListType", py!"YANGDynClass", py!"ReferenceType", py!"YANGBinary", py!"YANGBitsType", py!"PybindBase", py!"OrderedDict", py!"Decimal",
   py!"__builtin__", py!"long"]

/-- What a global name of a package stands for. -/
inductive Global where
  | lib
  | package (dir : List Str)
  | cls (node : Str × List Str)
  deriving DecidableEq, Repr

abbrev Globals := List (Str × Global)

def Globals.look (g : Globals) (x : Str) : Option Global := List.lookup x g

/-- `from . import x` in the package `dir`: what the package has by that name already, or
else the package in the directory of that name; `none` is an `ImportError`. -/
def importStep (files : List Chunk) (dir : List Str) (g : Globals) (x : Str) : Option Globals :=
  match g.look x with
  | some _ => some g
  | none => if files.any (fun c => c.dir = dir ++ [x]) then some ((x, .package (dir ++ [x])) :: g) else none

def importAll (files : List Chunk) (dir : List Str) : Globals → List Str → Option Globals
  | g, [] => some g
  | g, x :: xs => (importStep files dir g x).bind fun g => importAll files dir g xs

def loadChunk (files : List Chunk) (g : Globals) (c : Chunk) : Option Globals :=
  (importAll files c.dir g c.imports).map fun g => (c.cls, .cls c.node) :: g

def loadChunks (files : List Chunk) : Globals → List Chunk → Option Globals
  | g, [] => some g
  | g, c :: cs => (loadChunk files g c).bind fun g => loadChunks files g cs

/-- The global names of the package in a directory once it is loaded; `none`
is an `ImportError`.  (That the packages it
imports are loaded as well is a statement about their directories.) -/
def loadDir (files : List Chunk) (dir : List Str) : Option Globals :=
  loadChunks files (headerNames.map fun n => (n, .lib)) (files.filter fun c => c.dir = dir)

/-- `package.cls` in a class of a package. -/
def classOf (files : List Chunk) (dir : List Str) (package cls : Str) : Option Global :=
  (loadDir files dir).bind fun g => (g.look package).bind fun p =>
    match p with
    | .package d => (loadDir files d).bind fun g' => g'.look cls
    | _ => none

end Pyb
