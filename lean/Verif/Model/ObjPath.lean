import Verif.Model.Reg
import Verif.Model.Ietf

/-! # The paths objects report

`_path()` is the path of the parent with the object's own name (pyangbind/plugin/pybind.py:1087-1097,
pyangbind/lib/yangtypes.py:1099-1103, 1183-1189).  An entry of a list with keys is given its own path
when it is made, of the key it is stored under (pyangbind/lib/yangtypes.py:655-708; keywords with spaces
in their values are left out, see `entryStep`), one of a list without key has that of the list
(725-733: its parent is that of the list). -/

namespace Pyb
open Py

mutual
/-- The results of `_path()` for an object and all the objects below, `up` being that of the holder. -/
def pathsNode (up : List Str) (m : Meta) : Schema → Inst → List (List Str)
  | .cont _ kids, .cont _ _ ns => (up ++ [m.name]) :: pathsKids (up ++ [m.name]) kids ns
  | .list info kids, .list _ es =>
    (up ++ [m.name]) :: es.flatMap fun e =>
      (up ++ [(entryStep m.name info kids e.1).text]) :: pathsKids (up ++ [(entryStep m.name info kids e.1).text]) kids e.2.kids
  | _, _ => [up ++ [m.name]]
/-- The same for the children of an object. -/
def pathsKids (up : List Str) : List (Meta × Schema) → List Inst → List (List Str)
  | k :: ks, n :: ns => pathsNode up k.1 k.2 n ++ pathsKids up ks ns
  | _, _ => []
end

mutual
/-- As `pathsNode`, the paths with what has them; lists themselves are left out. -/
def objsNode (up : List Str) (m : Meta) : Schema → Inst → List (List Str × XObj)
  | .leaf _, .leaf v _ => [(up ++ [m.name], leafObj v)]
  | .leafList _, .leafList _ _ => [(up ++ [m.name], llObj)]
  | .cont _ kids, .cont _ _ ns => (up ++ [m.name], contObj) :: objsKids (up ++ [m.name]) kids ns
  | .list info kids, .list _ es =>
    es.flatMap fun e =>
      (up ++ [(entryStep m.name info kids e.1).text], contObj) :: objsKids (up ++ [(entryStep m.name info kids e.1).text]) kids e.2.kids
  | _, _ => []
def objsKids (up : List Str) : List (Meta × Schema) → List Inst → List (List Str × XObj)
  | k :: ks, n :: ns => objsNode up k.1 k.2 n ++ objsKids up ks ns
  | _, _ => []
end

/-- `_yang_path()`, pyangbind/lib/yangtypes.py:1102-1103. -/
def yangPath (p : List Str) : Str := '/' :: join py!"/" p

end Pyb
