import Verif.Model.Xml
import Verif.Spec.Json

/-! # Specification vocabulary for XML: trees that can be written and read back -/

namespace Spec
open Py Pyb

/-- A leaf value is written as an element, and reading the element gives the value
again. -/
def XLeafBack (nsOf : Str → Str) (m : Meta) (L : LeafCls) (v : PyVal) : Prop :=
  ∃ d t, xmlLeaf nsOf m L v true = .ok (.elem m.ns m.name d t []) ∧
    ∀ own c, xmlSet L own false c t = ⟨.leaf v true, [own, none], none⟩

/-- The values of a leaf-list are written as elements, and appending what is read for each
to those before gives the values again. -/
def XLeafListBack (infer : Str → PyVal) (m : Meta) (L : LLCls) (vs : List PyVal) : Prop :=
  ∀ p v s, vs = p ++ v :: s → ∃ j t, serElem true m.module_ L v = .ok j ∧ elemText j = .ok t ∧
    ∀ own ch, ∃ sg, xmlAppend infer L own p ch t = ⟨.leafList (p ++ [v]) true, own :: sg, none⟩ ∧ ∀ x ∈ sg, x = own

/-- What is read for the key leaf at position `i` of an entry. -/
def xkeyRaw (nsOf : Str → Str) (infer : Str → PyVal) (kids : List (Meta × Schema)) (ns : List Inst) (i : Nat) : PyVal :=
  match kids[i]?, ns[i]? with
  | some (m, .leaf L), some (.leaf v ch) =>
    match xmlLeaf nsOf m L v ch with
    | .ok x => pyval infer x.text
    | .error _ => .none
  | _, _ => .none

/-- A key leaf: it is set, in the namespace of the list, and what is read for it sets the
same value. -/
def XKeyBack (nsOf : Str → Str) (infer : Str → PyVal) (ns : Str) (kids : List (Meta × Schema)) (e : List Inst) (i : Nat) : Prop :=
  ∃ m L v, kids[i]? = some (m, .leaf L) ∧ e[i]? = some (.leaf v true) ∧ m.ns = ns ∧
    (∃ x, xmlLeaf nsOf m L v true = .ok x) ∧ L.set (xkeyRaw nsOf infer kids e i) = .ok v

/-- The list has keys, and the entries can be told apart by the texts of what is read for
their keys, joined with spaces. -/
def XGoodKeys (nsOf : Str → Str) (infer : Str → PyVal) (ns : Str) (info : ListInfo) (kids : List (Meta × Schema))
    (es : List (PyVal × Inst)) : Prop :=
  info.keys ≠ [] ∧ info.keys.Nodup ∧
  (∀ q ∈ es, ∀ i ∈ info.keys, XKeyBack nsOf infer ns kids q.2.kids i) ∧
  es.Pairwise fun a b => keyText (info.keys.map (xkeyRaw nsOf infer kids a.2.kids)) ≠
    keyText (info.keys.map (xkeyRaw nsOf infer kids b.2.kids))

/-- The conditions on the objects of a tree for the XML round trip. -/
def XmlReady (nsOf : Str → Str) (infer : Str → PyVal) (m : Meta) : Schema → Inst → Prop
  | .leaf L, .leaf v ch => ch = true → XLeafBack nsOf m L v
  | .leafList L, .leafList vs ch => (ch = true → L.yangType ≠ py!"identityref") ∧ (vs ≠ [] → ch = true ∧ XLeafListBack infer m L vs)
  | .cont pres kids, .cont _ pr ns => OneCase kids ns ∧ GoodNames kids ∧
      (pres = true → pr = false → ∀ n ∈ ns, Untouched n)
  | .list info kids, .list _ es => GoodNames kids ∧ (∀ q ∈ es, OneCase kids q.2.kids) ∧
      (es ≠ [] → XGoodKeys nsOf infer m.ns info kids es)
  | _, _ => False

end Spec
