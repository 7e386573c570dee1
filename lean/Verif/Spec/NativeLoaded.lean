import Verif.Spec.Loaded
import Verif.Spec.NativeOrder

/-! # What a native JSON document says

As for IETF JSON.  Members have the names of the children; the entries of a list are the
members of an object, named by their keys, and may say what place they have in the list. -/

namespace Spec
open Py Pyb

/-- The member is for child `i`; in an entry of a user-ordered list (`o`), it is not the
place of the entry. -/
def NIsFor (o : Bool) (kids : List (Meta × Schema)) (key : Str) (i : Nat) : Prop :=
  ¬ (o = true ∧ key = py!"__yang_order") ∧ ∃ k, kids[i]? = some k ∧ safeName k.1.name = safeName key

/-- The document `j` for an object of class `S` gives the value `x` for the leaf or
leaf-list at `p`. -/
inductive NSays : Bool → Schema → J → Path → J → Prop where
  | leaf {o L j} : NSays o (.leaf L) j [] j
  | leafList {o L xs} : NSays o (.leafList L) (.arr xs) [] (.arr xs)
  | field {o pres kids ms} {x : Str × J} {i k p j} : x ∈ ms → NIsFor o kids x.1 i → kids[i]? = some k → NSays false k.2 x.2 p j →
      NSays o (.cont pres kids) (.obj ms) (.field i :: p) j
  | entry {o info kids ms} {x : Str × J} {p j} : x ∈ ms → NSays info.ordered (.cont false kids) x.2 p j →
      NSays o (.list info kids) (.obj ms) (.key (.str x.1) :: p) j

/-- The document `j` for an object of class `S` concerns the object at `p`. -/
inductive NConcerns : Bool → Schema → J → Path → Prop where
  | here {o S j} : NConcerns o S j []
  | field {o pres kids ms} {x : Str × J} {i k p} : x ∈ ms → NIsFor o kids x.1 i → kids[i]? = some k → NConcerns false k.2 x.2 p →
      NConcerns o (.cont pres kids) (.obj ms) (.field i :: p)
  | rival {o pres kids ms} {x : Str × J} {i k i' k' p} : x ∈ ms → NIsFor o kids x.1 i' → kids[i']? = some k' → kids[i]? = some k →
      Rivals k'.1 k.1 → NConcerns o (.cont pres kids) (.obj ms) (.field i :: p)
  | entry {o info kids ms} {x : Str × J} {p} : x ∈ ms → NConcerns info.ordered (.cont false kids) x.2 p →
      NConcerns o (.list info kids) (.obj ms) (.key (.str x.1) :: p)
  /-- an object without members empties the list -/
  | whole {o info kids p} : NConcerns o (.list info kids) (.obj []) p

/-- The document contradicts itself: two members are for the same child, the same entry, or
different cases of a choice; or two entries of a user-ordered list have the same place. -/
inductive NContradicts : Bool → Schema → J → Prop where
  | twice {o pres kids ms} {a b : Nat} {x y : Str × J} {i} : a < b → ms[a]? = some x → ms[b]? = some y →
      NIsFor o kids x.1 i → NIsFor o kids y.1 i → NContradicts o (.cont pres kids) (.obj ms)
  | rivals {o pres kids ms} {x y : Str × J} {i j k k'} : x ∈ ms → y ∈ ms → NIsFor o kids x.1 i → NIsFor o kids y.1 j →
      kids[i]? = some k → kids[j]? = some k' → Rivals k.1 k'.1 → NContradicts o (.cont pres kids) (.obj ms)
  | inside {o pres kids ms} {x : Str × J} {i k} : x ∈ ms → NIsFor o kids x.1 i → kids[i]? = some k → NContradicts false k.2 x.2 →
      NContradicts o (.cont pres kids) (.obj ms)
  | sameKey {o info kids ms} : ¬ (ms.map Prod.fst).Nodup → NContradicts o (.list info kids) (.obj ms)
  | samePlace {o info kids ms} : info.ordered = true → ¬ (ms.filterMap fun x => position x.2).Nodup →
      NContradicts o (.list info kids) (.obj ms)
  | entry {o info kids ms} {x : Str × J} : x ∈ ms → NContradicts info.ordered (.cont false kids) x.2 →
      NContradicts o (.list info kids) (.obj ms)

/-- The object holds the value a document gives.  A leaf: what its class makes of the value
when it is assigned.  A leaf-list: no value is in it that is not in the document, and, if
the values of the document are equal to what is stored for them, all of them are in it. -/
def NHolds (repr : J → Str) : Schema → J → Inst → Prop
  | .leaf L, x, n => ∃ w, L.set (jPy repr x) = .ok w ∧ n = .leaf w true
  | .leafList L, .arr xs, n => ∃ ws ch, n = .leafList ws ch ∧ (∀ w ∈ ws, ∃ x ∈ xs, pyEq w (jPy repr x) = true) ∧
      ((∀ x ∈ xs, ∃ w, L.conv (jPy repr x) = some w ∧ pyEq w (jPy repr x) = true) → ∀ x ∈ xs, ∃ w ∈ ws, pyEq w (jPy repr x) = true)
  | _, _, _ => False

end Spec
