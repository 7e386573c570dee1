import Verif.Model.Tree

/-! # From YANG statements to classes

What the plugin makes of the data definition statements of a module: which classes, with
which children, and the `choice` argument of each child.  Sources: `get_children_elements`,
`get_children` and `get_element` (pyangbind/plugin/pybind.py:648-700, 702-1240,
1422-1700).  The types of leaves are not followed here (they are the business of the
models of types): a leaf statement comes with its class.  `config`, extensions, class and
file names are left out, as are rpcs and notifications. -/

namespace Pyb
open Py

/-- Name, namespace and module of a data definition statement
(pyangbind/plugin/pybind.py:1428-1442). -/
structure Src where
  name : Str
  ns : Str := []
  module_ : Str := []

/-- The statements in pyang's `i_children`.  `case` statements are what pyang puts below a
choice, also where the module leaves them out. -/
inductive YNode where
  | leaf (src : Src) (L : LeafCls)
  | leafList (src : Src) (L : LLCls)
  | cont (src : Src) (presence : Bool) (kids : List YNode)
  | list (src : Src) (keys : List Str) (ordered : Bool) (kids : List YNode)
  | choice (name : Str) (cases : List YNode)
  | case (name : Str) (kids : List YNode)

/-- The arguments of a child's class, pyangbind/plugin/pybind.py:992-1015, 1502-1516. -/
def Src.meta (s : Src) (c : Option Choice) : Meta := { name := s.name, ns := s.ns, module_ := s.module_, choice := c }

/-- The children named in the `key` statement, in its order
(pyangbind/plugin/pybind.py:1541-1547; `YANGList` looks them up by name). -/
def keyPos (keys : List Str) (kids : List (Meta × Schema)) : List Nat :=
  keys.filterMap fun k => kids.findIdx? fun m => m.1.name == k

mutual
/-- The elements made for one statement; `genPres` is the option `--presence`.

* a choice: the children of its cases, each with `(choice, case)` in the place of the
  `choice` argument it was called with: pyangbind/plugin/pybind.py:666-684
* a container or list without children gets no class, unless it is a presence container
  and the option is given: 1484-1485; its children are made with the same `choice`: 1486-1496
* `presence` of a container counts only with the option: 982-985. -/
def genNode (genPres : Bool) (c : Option Choice) : YNode → List (Meta × Schema)
  | .leaf s L => [(s.meta c, .leaf L)]
  | .leafList s L => [(s.meta c, .leafList L)]
  | .cont s pres kids =>
    if kids.isEmpty && !(genPres && pres) then [] else [(s.meta c, .cont (genPres && pres) (genNodes genPres c kids))]
  | .list s keys ordered kids =>
    if kids.isEmpty then []
    else [(s.meta c, .list { keys := keyPos keys (genNodes genPres c kids), ordered := ordered } (genNodes genPres c kids))]
  | .choice n cases => genCases genPres n cases
  | .case _ _ => []
/-- The loop over `i_children`, pyangbind/plugin/pybind.py:666-700. -/
def genNodes (genPres : Bool) (c : Option Choice) : List YNode → List (Meta × Schema)
  | [] => []
  | d :: ds => genNode genPres c d ++ genNodes genPres c ds
/-- The children of one case, pyangbind/plugin/pybind.py:670-683. -/
def genCase (genPres : Bool) (n : Str) : YNode → List (Meta × Schema)
  | .case c kids => genNodes genPres (some ⟨n, c⟩) kids
  | _ => []
/-- The loop over the cases, pyangbind/plugin/pybind.py:669. -/
def genCases (genPres : Bool) (n : Str) : List YNode → List (Meta × Schema)
  | [] => []
  | d :: ds => genCase genPres n d ++ genCases genPres n ds
end

/-- The children of the class of a module, pyangbind/plugin/pybind.py:413. -/
def genModule (genPres : Bool) (f : List YNode) : List (Meta × Schema) := genNodes genPres none f

end Pyb
