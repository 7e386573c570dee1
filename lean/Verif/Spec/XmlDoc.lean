import Verif.Spec.JsonDoc
import Verif.Spec.XmlTypes
import Verif.Spec.JsonUnknown

/-! # Specification vocabulary: what is where in an XML document -/

namespace Spec
open Py Pyb

/-- The elements for the object at a position: of those inside the elements of its
parent, the ones with its namespace and name; for an entry of a list, the one with its
number. -/
def elemsAt : Schema → List Xml → List Pos → List Xml
  | _, xs, [] => xs
  | .cont _ kids, xs, .child i :: p =>
    match kids[i]? with
    | some k => elemsAt k.2 ((xs.flatMap Xml.kids).filter fun x => x.ns == k.1.ns && x.name == k.1.name) p
    | none => []
  | .list _ kids, xs, .elem i :: p => elemsAt (.cont false kids) xs[i]?.toList p
  | _, _, _ => []

/-- The XML encoding of a value (RFC 7950, 9): the text of the element of the leaf, and
the prefixes declared for it.  The default namespace is that of the leaf, `m.ns`; `nsOf`
gives the namespaces of modules. -/
inductive Rfc7950 (nsOf : Str → Str) (m : Meta) : YTy → PyVal → List (Str × Str) → Option Str → Prop where
  /-- 9.2.1 -/
  | int (name t rs n ds) : Rfc7950 nsOf m (.int name t rs) (.int n) ds (some (intStr n))
  /-- 9.4.1, 9.6.1: as it is; no text at all is the empty string -/
  | str (name T s ds) : s ≠ [] → Rfc7950 nsOf m (.str name T) (.str s) ds (some s)
  | strEmpty (name T ds) : Rfc7950 nsOf m (.str name T) (.str []) ds none
  /-- 9.5.1 -/
  | tt (name ds) : Rfc7950 nsOf m (.bool name) (.bool true) ds (some py!"true")
  | ff (name ds) : Rfc7950 nsOf m (.bool name) (.bool false) ds (some py!"false")
  /-- 9.10.3: a name without prefix is in the default namespace -/
  | identHere (name ids s i ds) : ids.lookup s = some i → nsOf i = m.ns → Rfc7950 nsOf m (.ident name ids) (.str s) ds (some s)
  | ident (name ids s i pre ds) : ids.lookup s = some i → ds.lookup pre = some (nsOf i) →
      Rfc7950 nsOf m (.ident name ids) (.str s) ds (some (pre ++ ':' :: s))
  /-- 9.11.2 -/
  | empty (name ds) : Rfc7950 nsOf m (.empty name) (.bool true) ds none
  /-- 9.3.1 -/
  | dec (name fd x s ds) : DecimalText s → decOfStr s = .ok x → Rfc7950 nsOf m (.ext name (.dec fd)) (.obj (.dec x)) ds (some s)
  /-- 9.8.2: base64; no text at all is no octets -/
  | bin (name b ds) : b ≠ [] → Rfc7950 nsOf m (.ext name .bin) (.obj (.bytes b)) ds (some (b64encode b))
  | binEmpty (name ds) : Rfc7950 nsOf m (.ext name .bin) (.obj (.bytes [])) ds none
  /-- 9.7.2: the names of the bits, separated by spaces -/
  | bits (name allowed ns ns' ds) : ns ≠ [] → ns'.Perm ns →
      Rfc7950 nsOf m (.ext name (.bits allowed)) (.obj (.bits ns)) ds (some (join [' '] ns'))
  | bitsEmpty (name allowed ds) : Rfc7950 nsOf m (.ext name (.bits allowed)) (.obj (.bits [])) ds none

/-- The types and values for which the encoding is right: an identityref has the built-in
type, and the name of the identity is not empty and does not start with the name of its
module; `empty` is the built-in type; decimals as for JSON (`EncodedWell`). -/
def XmlEncodedWell : YTy → PyVal → Prop
  | .ident name ids, v => name = py!"identityref" ∧ v ≠ .str [] ∧ ∀ m, ids.lookup v.toStr = some m → ¬ m <+: v.toStr
  | .empty name, _ => name = py!"empty"
  | .ext n (.dec fd), v => EncodedWell (.ext n (.dec fd)) v
  | _, _ => True

/-- The child an element stands for: its attribute has the name made from the local name
of the element. -/
def childNamed (kids : List (Meta × Schema)) (name : Str) : Option (Meta × Schema) :=
  kids.find? fun k => safeName k.1.name == safeName name

/-- Among the elements in an object with the children `kids` there is, at any depth, one
that is not in the schema.  (Elements inside leaves are another matter; inside leaf-lists those
with the name `pyval`, which is what lxml calls the value.) -/
inductive XHasUnknown : List (Meta × Schema) → List Xml → Prop where
  | here {kids xs x} : x ∈ xs → childNamed kids x.name = none → XHasUnknown kids xs
  | cont {kids xs x m pres ks} : x ∈ xs → childNamed kids x.name = some (m, .cont pres ks) → XHasUnknown ks x.kids →
      XHasUnknown kids xs
  | list {kids xs x m info ks} : x ∈ xs → childNamed kids x.name = some (m, .list info ks) → XHasUnknown ks x.kids →
      XHasUnknown kids xs
  | leafList {kids xs x m L} : x ∈ xs → childNamed kids x.name = some (m, .leafList L) → x.kids ≠ [] → (∀ y ∈ x.kids, y.name ≠ py!"pyval") →
      XHasUnknown kids xs

end Spec
