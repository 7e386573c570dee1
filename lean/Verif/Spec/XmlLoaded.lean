import Verif.Spec.Loaded
import Verif.Spec.XmlDoc

/-! # What an XML document says

As for IETF JSON.  Each element is for a child of the object it is in: the entries of a
list and the values of a leaf-list are elements with the same name. -/

namespace Spec
open Py Pyb

/-- The element is for child `i`.  (Its namespace does not matter.) -/
def XIsFor (kids : List (Meta × Schema)) (x : Xml) (i : Nat) : Prop :=
  ∃ k, kids[i]? = some k ∧ safeName k.1.name = safeName x.name

/-- What a text is taken for where the schema is not looked at; `infer` guesses it. -/
def guess (infer : Str → PyVal) : Option Str → PyVal
  | none => .str []
  | some s => infer s

/-- The key of the entry that an element is for: the texts of the elements of the key
leaves in it, with spaces between them. -/
def xDocKey (infer : Str → PyVal) (info : ListInfo) (kids : List (Meta × Schema)) (x : Xml) : Option PyVal :=
  (info.keys.mapM fun i => kids[i]?.bind fun k => (x.kids.find? fun y => y.ns == x.ns && y.name == k.1.name).map fun y => guess infer y.text).map
    fun rs => .str (keyText rs)

/-- The element `x` for an object of class `S` gives the text `t` for the leaf at `p`, or
for one of the values of the leaf-list at `p`.  (Not for the key leaves of entries: these
are set when the entry is made.) -/
inductive XSays (infer : Str → PyVal) : Schema → Xml → Path → Option Str → Prop where
  | leaf {L x} : XSays infer (.leaf L) x [] x.text
  | leafList {L x} : XSays infer (.leafList L) x [] x.text
  | field {pres kids x y i k p t} : y ∈ x.kids → XIsFor kids y i → kids[i]? = some k → XSays infer k.2 y p t →
      XSays infer (.cont pres kids) x (.field i :: p) t
  | entry {info kids x k i p t} : xDocKey infer info kids x = some k → i ∉ info.keys →
      XSays infer (.cont false kids) x (.field i :: p) t → XSays infer (.list info kids) x (.key k :: .field i :: p) t

/-- The element `x` for an object of class `S` concerns the object at `p`. -/
inductive XConcerns (infer : Str → PyVal) : Schema → Xml → Path → Prop where
  | here {S x} : XConcerns infer S x []
  | field {pres kids x y i k p} : y ∈ x.kids → XIsFor kids y i → kids[i]? = some k → XConcerns infer k.2 y p →
      XConcerns infer (.cont pres kids) x (.field i :: p)
  | rival {pres kids x y i k i' k' p} : y ∈ x.kids → XIsFor kids y i' → kids[i']? = some k' → kids[i]? = some k →
      Rivals k'.1 k.1 → XConcerns infer (.cont pres kids) x (.field i :: p)
  | entry {info kids x k k' p} : xDocKey infer info kids x = some k → pyEq k k' = true → XConcerns infer (.cont false kids) x p →
      XConcerns infer (.list info kids) x (.key k' :: p)

/-- The class of a child with one element for each entry or value. -/
def Repeats : Schema → Prop
  | .list _ _ => True
  | .leafList _ => True
  | _ => False

/-- The element contradicts itself: two elements are for the same leaf, container or entry,
or for different cases of a choice. -/
inductive XContradicts (infer : Str → PyVal) : Schema → Xml → Prop where
  | twice {pres kids x y z i k} {a b : Nat} : a < b → x.kids[a]? = some y → x.kids[b]? = some z → XIsFor kids y i → XIsFor kids z i →
      kids[i]? = some k → ¬ Repeats k.2 → XContradicts infer (.cont pres kids) x
  | sameKey {pres kids x y z i m info ks k k'} {a b : Nat} : a < b → x.kids[a]? = some y → x.kids[b]? = some z → XIsFor kids y i →
      XIsFor kids z i → kids[i]? = some (m, .list info ks) → xDocKey infer info ks y = some k → xDocKey infer info ks z = some k' →
      pyEq k k' = true → XContradicts infer (.cont pres kids) x
  | rivals {pres kids x y z i j k k'} : y ∈ x.kids → z ∈ x.kids → XIsFor kids y i → XIsFor kids z j →
      kids[i]? = some k → kids[j]? = some k' → Rivals k.1 k'.1 → XContradicts infer (.cont pres kids) x
  | inside {pres kids x y i k} : y ∈ x.kids → XIsFor kids y i → kids[i]? = some k → XContradicts infer k.2 y →
      XContradicts infer (.cont pres kids) x
  | entry {info kids x} : XContradicts infer (.cont false kids) x → XContradicts infer (.list info kids) x

/-- The value that is assigned for the text of the element of a leaf. -/
inductive XRead : Str → Option Str → PyVal → Prop where
  | plain {yt s} : yt ≠ py!"empty" → yt ≠ py!"identityref" → XRead yt (some s) (.str s)
  | empty : XRead py!"empty" none (.bool true)
  | name {s} : ':' ∉ s → XRead py!"identityref" (some s) (.str s)
  | qualified {m s} : ':' ∉ m → XRead py!"identityref" (some (m ++ ':' :: s)) (.str s)

/-- The object holds what a document gives.  A leaf: what its class makes of the text.  A
leaf-list: among others, what its class makes of the value the text is taken for, or a value
equal to it. -/
def XHolds (infer : Str → PyVal) : Schema → Option Str → Inst → Prop
  | .leaf L, t, n => ∃ v w, XRead L.yangType t v ∧ L.set v = .ok w ∧ n = .leaf w true
  | .leafList L, t, n => ∃ ws ch u w, n = .leafList ws ch ∧ w ∈ ws ∧
      (u = guess infer t ∨ L.plainStr = true ∧ u = .str (guess infer t).toStr) ∧ (L.conv u = some w ∨ pyEq w u = true)
  | _, _, _ => False

/-- The text sets nothing: there is none, and the leaf is not of type `empty`. -/
def XIgnored : Schema → Option Str → Prop
  | .leaf L, t => t = none ∧ L.yangType ≠ py!"empty"
  | _, _ => False

end Spec
