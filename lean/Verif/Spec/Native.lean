import Verif.Model.Native
import Verif.Spec.JsonTypes

/-! # Specification vocabulary: native JSON -/

namespace Spec
open Py Pyb

/-- A leaf value is written as `j`, and reading it gives the value again. -/
def NativeLeafBack (repr : J → Str) (L : LeafCls) (v : PyVal) : Prop :=
  ∃ j, serLeaf false [] L v = .ok j ∧ L.set (jPy repr j) = .ok v

/-- The same for a value of a leaf-list; it must also equal what is read. -/
def NativeElemBack (repr : J → Str) (L : LLCls) (v : PyVal) : Prop :=
  ∃ j, serElem false [] L v = .ok j ∧ L.conv (jPy repr j) = some v ∧ pyEq v (jPy repr j) = true

/-- The values of the key leaves in the text `s`: with several keys it is split at
spaces. -/
def keyTexts (n : Nat) (s : Str) : List Str := if n = 1 then [s] else splitOn ' ' s

/-- The entry `e`, written under the text `s`: the text holds the right number of keys and
is not empty; its parts are accepted by the key leaves, which are set. -/
def NativeKey (info : ListInfo) (kids : List (Meta × Schema)) (s : Str) (e : List Inst) : Prop :=
  s ≠ [] ∧ (keyTexts info.keys.length s).length = info.keys.length ∧
  ∀ (p i : Nat), info.keys[p]? = some i → ∃ m L v r w, kids[i]? = some (m, .leaf L) ∧ e[i]? = some (.leaf v true) ∧
    (keyTexts info.keys.length s)[p]? = some r ∧ L.set (.str r) = .ok w

/-- The conditions on the objects of a tree for the native round trip. -/
def NativeReady (repr : J → Str) (_ : Meta) : Schema → Inst → Prop
  | .leaf L, .leaf v ch => ch = true → NativeLeafBack repr L v
  | .leafList L, .leafList vs _ => (∀ v ∈ vs, NativeElemBack repr L v) ∧
      vs.Pairwise fun a b => pyEq a b = false
  | .cont pres kids, .cont _ pr ns => OneCase kids ns ∧ GoodNames kids ∧
      (pres = true → pr = false → ∀ n ∈ ns, Untouched n)
  | .list info kids, .list _ es => GoodNames kids ∧ (∀ q ∈ es, OneCase kids q.2.kids) ∧
      (info.ordered = true → ∀ k ∈ kids, k.1.name ≠ py!"__yang_order") ∧
      (es ≠ [] → info.keys ≠ []) ∧
      (∀ q ∈ es, ∃ s, jsonKey q.1 = .ok s ∧ NativeKey info kids s q.2.kids) ∧
      es.Pairwise fun a b => jsonKey a.1 ≠ jsonKey b.1
  | _, _ => False

/-- The key of the entry `e`, as JSON text, holds the values of its key leaves: it is the
value of the one key, not empty; or the values of the keys separated by spaces. -/
def KeyHeld (rx : Str → Str → Bool) (info : ListInfo) (kids : List (Meta × Schema)) (k : PyVal) (e : List Inst) : Prop :=
  ∃ s, jsonKey k = .ok s ∧ s ≠ [] ∧ (keyTexts info.keys.length s).length = info.keys.length ∧
    ∀ (p i : Nat), info.keys[p]? = some i → ∃ m, ∃ t : YTy, ∃ d v r, kids[i]? = some (m, .leaf (t.cls rx d)) ∧ e[i]? = some (.leaf v true) ∧
      (keyTexts info.keys.length s)[p]? = some r ∧ (t.cls rx).set (.str r) = .ok v

/-- A decimal has at most 15 digits (52 bits). -/
def FitsFloat (v : PyVal) : Prop := ∀ x, v = .obj (.dec x) → x.coef.natAbs < 2 ^ 52

/-- A leaf holds a value of its type (a decimal has at most 15 digits), or of a member of
its union. -/
def NativeHolds (rx : Str → Str → Bool) (L : LeafCls) (v : PyVal) : Prop :=
  (∃ t d, L = YTy.cls rx t d ∧ Stored rx t v ∧ FitsFloat v) ∨ ∃ u d pre t, L = UTy.cls rx u d ∧ MemberValue rx u pre t v

/-- The conditions that are not a consequence of how trees are made.

* a leaf that was set, and the elements of a leaf-list, hold values of their types (there
  are no leaf-lists of decimals); a leaf-list has no value twice
* siblings have different names
* the entries of a list have keys, which hold the values of the key leaves; they are
  different texts
* the name `__yang_order` is not used in lists with `ordered-by user` -/
def NativeValues (rx : Str → Str → Bool) (_ : Meta) : Schema → Inst → Prop
  | .leaf L, .leaf v ch => ch = true → NativeHolds rx L v
  | .leafList L, .leafList vs _ => vs ≠ [] → (ElemsHold rx L vs ∧ ∀ v ∈ vs, ∀ o, v ≠ .obj o) ∧
      vs.Pairwise fun a b => pyEq a b = false
  | .cont _ kids, .cont _ _ _ => GoodNames kids
  | .list info kids, .list _ es => GoodNames kids ∧ (info.ordered = true → ∀ k ∈ kids, k.1.name ≠ py!"__yang_order") ∧
      (es ≠ [] → info.keys ≠ []) ∧ (∀ q ∈ es, KeyHeld rx info kids q.1 q.2.kids) ∧
      es.Pairwise fun a b => jsonKey a.1 ≠ jsonKey b.1
  | _, _ => False

end Spec
