import Verif.Py.Str

/-! # Which generated properties are writable -/

namespace Pyb
open Py

/-- The part of a YANG statement tree that decides writability.  `cfg` is the
argument of the node's own `config` substatement, if any.  `inner` is a container,
list, rpc input/output or notification; `case` nodes are what pyang puts below
a choice (also for shorthand cases). -/
inductive SNode where
  | leaf (name : Str) (cfg : Option Bool)
  | inner (name : Str) (cfg : Option Bool) (children : List SNode)
  | choice (name : Str) (cfg : Option Bool) (cases : List SNode)
  | case (name : Str) (children : List SNode)

mutual
/-- The elements generated for one statement, with their path and whether they get
a setter.  `pcfg` is `parent_cfg` as seen by the enclosing class.

* `get_children` lowers `parent_cfg` when the parent says config false:
  pyangbind/plugin/pybind.py:754-763;
* an element's own flag: 1499-1500 (container, list) and 1668-1669 (leaf);
* `rw` is the conjunction: 1189-1199;
* a choice or case passes its parent's `parent_cfg` on and its own `config`
  is never looked at: 666-684. -/
def genElems (pcfg : Bool) (path : List Str) : SNode → List (List Str × Bool)
  | .leaf n cfg => [(path ++ [n], pcfg && cfg.getD true)]
  | .inner n cfg ch =>
      (path ++ [n], pcfg && cfg.getD true) ::
        genElemsL (pcfg && cfg.getD true) (path ++ [n]) ch
  | .choice _ _ cases => genElemsL pcfg path cases
  | .case _ ch => genElemsL pcfg path ch
/-- The loop over `i_children`, pyangbind/plugin/pybind.py:666-699. -/
def genElemsL (pcfg : Bool) (path : List Str) : List SNode → List (List Str × Bool)
  | [] => []
  | x :: xs => genElems pcfg path x ++ genElemsL pcfg path xs
end

/-- All elements of a module, with their absolute path and whether a property
setter is generated. -/
def moduleElems (children : List SNode) : List (List Str × Bool) := genElemsL true [] children

end Pyb
