import Verif.Model.Tree

/-! # `get(filter=...)`

`PybindBase.get` (pyangbind/lib/base.py:31-98), `YANGList.get`
(pyangbind/lib/yangtypes.py:861-869) and `TypedList.get` (511-512). -/

namespace Pyb
open Py

/-- What `get` returns: a leaf, the values of a leaf-list, a dict for a container or
list entry, an ordered dict for a list. -/
inductive DVal where
  | leaf (v : PyVal)
  | vals (vs : List PyVal)
  | dict (items : List (Str × DVal))
  | odict (items : List (PyVal × DVal))

/-- Is the item kept in the dict?  pyangbind/lib/base.py:50-97.  The loop at 55-71
deletes nothing: an item of a filtered dict is a changed leaf, or has no `_changed`. -/
def keepItem (f : Bool) : Schema → Inst → DVal → Bool
  | .leaf _, .leaf _ ch, _ => !f || ch
  | .leafList _, .leafList _ _, .vals vs => !f || !vs.isEmpty
  | .cont pres _, .cont _ pr _, .dict items => !f || !items.isEmpty || (pres && pr)
  | .list _ _, .list _ _, .odict items => !f || !items.isEmpty
  | _, _, _ => !f

/-- The children of a container or entry. -/
def Inst.kids : Inst → List Inst
  | .cont _ _ ns => ns
  | _ => []

mutual
/-- The value for one child. -/
def getNode (f : Bool) : Schema → Inst → DVal
  | .leaf L, .leaf v ch => .leaf (if !f && !ch then L.default.getD v else v)
  | .leafList _, .leafList vs _ => .vals vs
  | .cont _ kids, n => .dict (getKids f kids n.kids)
  | .list _ kids, .list _ es => .odict (es.map fun q => (q.1, .dict (getKids f kids q.2.kids)))
  | _, _ => .leaf .none
/-- The dict of a container or entry; the keys of `d` are the `yang_name`s of the
children, which differ (attributes are named after them). -/
def getKids (f : Bool) : List (Meta × Schema) → List Inst → List (Str × DVal)
  | k :: ks, n :: ns =>
    let d := getNode f k.2 n
    if keepItem f k.2 n d then (k.1.name, d) :: getKids f ks ns else getKids f ks ns
  | _, _ => []
end

/-- `get` on the object of the module's class. -/
def getRoot (f : Bool) (kids : List (Meta × Schema)) (ns : List Inst) : DVal := .dict (getKids f kids ns)

end Pyb
