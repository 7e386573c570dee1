import Verif.Spec.Save
import Verif.Spec.Native
import Verif.Spec.JsonText

/-! # Specification vocabulary: data that survives being saved in the default JSON encoding -/

namespace Spec
open Py Pyb

/-- What is asked of the data, at each object of the tree, for the default encoding:

* a leaf, and a leaf-list, is of a safe type, or it holds values of its type; no value twice in a
  leaf-list
* the keys of the entries of a list, as JSON texts, hold the values of the key leaves, and differ
* the name `__yang_order` is not used in lists with `ordered-by user` -/
def NKept (rx : Str → Str → Bool) (_ : Meta) : Schema → Inst → Prop
  | .leaf L, .leaf v ch => ch = true → (∃ t d, L = YTy.cls rx t d ∧ SafeTy t) ∨ NativeHolds rx L v
  | .leafList L, .leafList vs _ => vs ≠ [] →
      ((∃ t u tx, L = YTy.llCls rx t u tx ∧ SafeTy t) ∨ (ElemsHold rx L vs ∧ ∀ v ∈ vs, ∀ o, v ≠ .obj o)) ∧
        vs.Pairwise fun a b => pyEq a b = false
  | .cont _ _, .cont _ _ _ => True
  | .list info kids, .list _ es => (info.ordered = true → ∀ k ∈ kids, k.1.name ≠ py!"__yang_order") ∧
      (∀ q ∈ es, KeyHeld rx info kids q.1 q.2.kids) ∧ es.Pairwise fun a b => jsonKey a.1 ≠ jsonKey b.1
  | _, _ => False

/-- Python reads the decimals of the tree, as floats, as it writes them. -/
def DecimalsBack (fl : Int × Int → Str) (rf : Str → Option (Int × Int)) (_ : Meta) : Schema → Inst → Prop
  | .leaf _, .leaf v ch => ch = true → ∀ x, v = .obj (.dec x) → FloatBack fl rf (floatOfDec x)
  | .leafList _, .leafList vs _ => ∀ v ∈ vs, ∀ x, v = .obj (.dec x) → FloatBack fl rf (floatOfDec x)
  | _, _ => True

end Spec
