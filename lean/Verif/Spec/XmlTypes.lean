import Verif.Spec.JsonTypes
import Verif.Spec.Xml

/-! # Specification vocabulary: trees ready for XML, in terms of types and values -/

namespace Spec
open Py Pyb

/-- What is known of the type inference of `lxml.objectify`: it finds integers and
booleans.  (It finds other numbers, too, and the texts of integers are not only those
`str` gives: `007`.) -/
structure Objectify (infer : Str → PyVal) : Prop where
  int : ∀ n, infer (intStr n) = .int n
  tt : infer py!"true" = .bool true
  ff : infer py!"false" = .bool false

/-- Strings XML can hold.  The names of modules that are written as prefixes are such
strings, too, and so are the names of bits. -/
def InXml (t : YTy) (v : PyVal) : Prop :=
  (∀ s, v = .str s → s.all xmlChar = true) ∧ (∀ n ids, t = .ident n ids → ∀ q ∈ ids, q.2.all xmlChar = true) ∧
  ∀ ns, v = .obj (.bits ns) → ∀ b ∈ ns, b.all xmlChar = true

/-- The string is not taken for something else when it is read, or the text of what it is
taken for is the string and the type is that of strings without restriction.  Decimals are
taken for floats: they are left out. -/
def Untyped (infer : Str → PyVal) (t : YTy) (v : PyVal) : Prop :=
  (∀ s, v = .str s → s = [] ∨ infer s = .str s ∨ (t.isStr = true ∧ ∃ n, s = intStr n)) ∧ ∀ o, v ≠ .obj o

/-- The text of a value. -/
def xmlTextOf : PyVal → Str
  | .bool b => if b then py!"true" else py!"false"
  | .obj (.bytes b) => b64encode b
  | v => v.toStr

/-- A leaf holds a value of its type, or of a member of its union; in a union, the members
before do not take its text. -/
def XmlHolds (rx : Str → Str → Bool) (L : LeafCls) (v : PyVal) : Prop :=
  (∃ t d, L = YTy.cls rx t d ∧ Stored rx t v ∧ InXml t v) ∨
  ∃ u d pre t, L = UTy.cls rx u d ∧ MemberValue rx u pre t v ∧ InXml t v ∧ ∀ s ∈ pre, ¬ Accepts rx s (.str (xmlTextOf v))

/-- The string is not taken for something else when it is read; or it is taken for a number
that no member takes, and the member is that of strings without restriction. -/
def UntypedIn (rx : Str → Str → Bool) (infer : Str → PyVal) (u : UTy) (t : YTy) (v : PyVal) : Prop :=
  ∀ s, v = .str s → s = [] ∨ infer s = .str s ∨ (t.isStr = true ∧ ∃ n, s = intStr n ∧ ∀ t' ∈ u.members, ¬ ElemTakes rx t' (.int n))

/-- The elements of a leaf-list are values of its type, not taken for something else; or of
a member of its union, and not taken for something else. -/
def XElemsHold (rx : Str → Str → Bool) (infer : Str → PyVal) (L : LLCls) (vs : List PyVal) : Prop :=
  (∃ t u tx, L = YTy.llCls rx t u tx ∧ ∀ v ∈ vs, StoredElem rx t v ∧ InXml t v ∧ Untyped infer t v) ∨
  ∃ u b tx, L = UTy.llCls rx u b tx ∧ ∀ v ∈ vs, ∃ pre t, ElemMember rx u pre t v ∧ InXml t v ∧ UntypedIn rx infer u t v

/-- Key leaves: position `i` holds a leaf of some type (not `empty`, decimal64, binary or bits), in the namespace of
the list, that is set in every entry, to a value that is not taken for something else; an
identityref names an identity of the module of the leaf. -/
def XKeyLeaf (rx : Str → Str → Bool) (infer : Str → PyVal) (ns : Str) (kids : List (Meta × Schema)) (es : List (PyVal × Inst)) (i : Nat) : Prop :=
  ∃ m t d, kids[i]? = some (m, .leaf (t.cls rx d)) ∧ m.ns = ns ∧ ((∀ n, t ≠ .empty n) ∧ ∀ n x, t ≠ .ext n x) ∧
    ∀ q ∈ es, ∃ v, q.2.kids[i]? = some (.leaf v true) ∧ Stored rx t v ∧ InXml t v ∧ Untyped infer t v ∧
      ∀ ids, t = .ident py!"identityref" ids → ids.lookup v.toStr = some m.module_

/-- The conditions on the objects of a tree.

* a leaf that was set holds a value of its type, whose text is not empty
* a leaf-list that was set is no identityref, and its elements are values of its type
  that are not taken for something else, none of them twice
* siblings have different names, and at most one case of a choice holds data
* a presence container that is not present holds no data
* a list that has entries has keys, and the texts of the keys of the entries, joined with
  spaces, differ -/
def XmlOrderly (rx : Str → Str → Bool) (infer : Str → PyVal) (m : Meta) : Schema → Inst → Prop
  | .leaf L, .leaf v ch => ch = true → XmlHolds rx L v ∧ xmlTextOf v ≠ []
  | .leafList L, .leafList vs ch => (ch = true → L.yangType ≠ py!"identityref") ∧
      (vs ≠ [] → ch = true ∧ XElemsHold rx infer L vs ∧
        vs.Pairwise fun a b => pyEq a b = false)
  | .cont pres kids, .cont _ pr ns => OneCase kids ns ∧ GoodNames kids ∧
      (pres = true → pr = false → ∀ n ∈ ns, Untouched n)
  | .list info kids, .list _ es => GoodNames kids ∧ (∀ q ∈ es, OneCase kids q.2.kids) ∧
      (es ≠ [] → info.keys ≠ [] ∧ info.keys.Nodup ∧ (∀ i ∈ info.keys, XKeyLeaf rx infer m.ns kids es i) ∧
        es.Pairwise fun a b => Spec.keyText (info.keys.map (valAt a.2.kids)) ≠ Spec.keyText (info.keys.map (valAt b.2.kids)))
  | _, _ => False

/-- The conditions that are not a consequence of how trees are made. -/
def XmlValues (rx : Str → Str → Bool) (infer : Str → PyVal) (m : Meta) : Schema → Inst → Prop
  | .leaf L, .leaf v ch => ch = true → XmlHolds rx L v ∧ xmlTextOf v ≠ []
  | .leafList L, .leafList vs ch => (ch = true → L.yangType ≠ py!"identityref") ∧
      (vs ≠ [] → XElemsHold rx infer L vs ∧
        vs.Pairwise fun a b => pyEq a b = false)
  | .cont _ kids, .cont _ _ _ => GoodNames kids
  | .list info kids, .list _ es => GoodNames kids ∧
      (es ≠ [] → info.keys ≠ [] ∧ info.keys.Nodup ∧ (∀ i ∈ info.keys, XKeyLeaf rx infer m.ns kids es i) ∧
        es.Pairwise fun a b => Spec.keyText (info.keys.map (valAt a.2.kids)) ≠ Spec.keyText (info.keys.map (valAt b.2.kids)))
  | _, _ => False

end Spec
