import Verif.Spec.Save
import Verif.Spec.XmlTypes
import Verif.Spec.XmlText

/-! # Specification vocabulary: data that survives being saved as XML -/

namespace Spec
open Py Pyb

/-- What is asked of the data, at each object of the tree, for XML:

* a leaf is of a safe type, and if it holds a string it is not empty and XML has its characters; or
  it holds a value of its type whose text is not empty
* the values of a leaf-list and the keys of a list are of safe types, or values of their types; in
  both cases strings are not taken for numbers or booleans when they are read
* no leaf-lists of identityrefs, no value twice in a leaf-list
* the texts of the keys of the entries of a list, joined with spaces, differ -/
def XKept (rx : Str → Str → Bool) (infer : Str → PyVal) (m : Meta) : Schema → Inst → Prop
  | .leaf L, .leaf v ch => ch = true →
      ((∃ t d, L = YTy.cls rx t d ∧ SafeTy t) ∧ ∀ s, v = .str s → s ≠ [] ∧ s.all xmlChar = true) ∨ (XmlHolds rx L v ∧ xmlTextOf v ≠ [])
  | .leafList L, .leafList vs ch => (ch = true → L.yangType ≠ py!"identityref") ∧
      (vs ≠ [] → ((∃ t u tx, L = YTy.llCls rx t u tx ∧ SafeTy t ∧ ∀ v ∈ vs, InXml t v ∧ Untyped infer t v) ∨ XElemsHold rx infer L vs) ∧
        vs.Pairwise fun a b => pyEq a b = false)
  | .cont _ _, .cont _ _ _ => True
  | .list info kids, .list _ es =>
      (∀ i ∈ info.keys, (∃ mi t d, kids[i]? = some (mi, .leaf (t.cls rx d)) ∧ SafeTy t ∧
          ∀ q ∈ es, InXml t (valAt q.2.kids i) ∧ Untyped infer t (valAt q.2.kids i)) ∨ XKeyLeaf rx infer m.ns kids es i) ∧
      es.Pairwise fun a b => Spec.keyText (info.keys.map (valAt a.2.kids)) ≠ Spec.keyText (info.keys.map (valAt b.2.kids))
  | _, _ => False

/-- The names in the module can be written: identifiers and namespaces, also those of the modules of
identities (`nsOf` gives the namespace of a module). -/
def XmlNamed (nsOf : Str → Str) (f : List YNode) : Prop :=
  ∀ d s, Inside d f → srcOf d = some s → (Identifier s.name ∧ Uri s.ns) ∧
    ∀ L, d = .leaf s L → ∀ v y i, (L.ser v).idents.lookup y = some i → Identifier i ∧ Uri (nsOf i)

/-- The strings the leaves of a tree hold are not empty, and XML has their characters. -/
def PlainTexts (_ : Meta) : Schema → Inst → Prop
  | .leaf _, .leaf v ch => ch = true → ∀ s, v = .str s → s ≠ [] ∧ s.all xmlChar = true
  | _, _ => True

end Spec
