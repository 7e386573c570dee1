import Verif.Spec.Session
import Verif.Spec.JsonUnknown

/-! # What an IETF JSON document says

The document gives values for some leaves and leaf-lists of a binding, and says nothing
about the others. -/

namespace Spec
open Py Pyb

/-- The member is for child `i`: it is not metadata, and its name without the name of the
module stands for the child. -/
def IsFor (kids : List (Meta × Schema)) (key : Str) (i : Nat) : Prop :=
  '@' ∉ key ∧ ∃ k, kids[i]? = some k ∧ safeName k.1.name = safeName (localName key)

/-- The key of an entry whose key leaves have these values: with several keys their texts
with spaces between them. -/
def entryKey : List PyVal → Option PyVal
  | [] => none
  | [r] => some r
  | rs => some (.str (keyText rs))

/-- The key of the entry that an element of an array is for: from its members with the
names of the key leaves. -/
def docKey (repr : J → Str) (info : ListInfo) (kids : List (Meta × Schema)) : J → Option PyVal
  | .obj ms => (info.keys.mapM fun i => kids[i]?.bind fun k => ms.lookup k.1.name).bind fun xs => entryKey (xs.map (jPy repr))
  | _ => none

/-- The document `j` for an object of class `S` gives the value `x` for the leaf or
leaf-list at `p`.  (Not for the key leaves of entries: these are set when the entry is
made.) -/
inductive Says (repr : J → Str) : Schema → J → Path → J → Prop where
  | leaf {L j} : Says repr (.leaf L) j [] j
  | leafList {L xs} : Says repr (.leafList L) (.arr xs) [] (.arr xs)
  | field {pres kids ms} {x : Str × J} {i k p j} : x ∈ ms → IsFor kids x.1 i → kids[i]? = some k → Says repr k.2 x.2 p j →
      Says repr (.cont pres kids) (.obj ms) (.field i :: p) j
  | entry {info kids xs x k i p j} : x ∈ xs → docKey repr info kids x = some k → i ∉ info.keys →
      Says repr (.cont false kids) x (.field i :: p) j → Says repr (.list info kids) (.arr xs) (.key k :: .field i :: p) j

/-- The document `j` for an object of class `S` concerns the object at `p`: it gives
something for the object, for an object above it, or for a different case of a choice. -/
inductive Concerns (repr : J → Str) : Schema → J → Path → Prop where
  | here {S j} : Concerns repr S j []
  | field {pres kids ms} {x : Str × J} {i k p} : x ∈ ms → IsFor kids x.1 i → kids[i]? = some k → Concerns repr k.2 x.2 p →
      Concerns repr (.cont pres kids) (.obj ms) (.field i :: p)
  | rival {pres kids ms} {x : Str × J} {i k i' k' p} : x ∈ ms → IsFor kids x.1 i' → kids[i']? = some k' → kids[i]? = some k →
      Rivals k'.1 k.1 → Concerns repr (.cont pres kids) (.obj ms) (.field i :: p)
  | entry {info kids xs x k k' p} : x ∈ xs → docKey repr info kids x = some k' → pyEq k' k = true →
      Concerns repr (.cont false kids) x p → Concerns repr (.list info kids) (.arr xs) (.key k :: p)
  /-- a value in the place of an array empties the list -/
  | whole {info kids j p} : j ≠ .null → (∀ xs, j ≠ .arr xs) → (∀ ms, j ≠ .obj ms) → Concerns repr (.list info kids) j p

/-- The document contradicts itself: two members of an object are for the same child or for
different cases of a choice, or two elements of an array are for the same entry. -/
inductive Contradicts (repr : J → Str) : Schema → J → Prop where
  | twice {pres kids ms} {a b : Nat} {x y : Str × J} {i} : a < b → ms[a]? = some x → ms[b]? = some y →
      IsFor kids x.1 i → IsFor kids y.1 i → Contradicts repr (.cont pres kids) (.obj ms)
  | rivals {pres kids ms} {x y : Str × J} {i j k k'} : x ∈ ms → y ∈ ms → IsFor kids x.1 i → IsFor kids y.1 j →
      kids[i]? = some k → kids[j]? = some k' → Rivals k.1 k'.1 → Contradicts repr (.cont pres kids) (.obj ms)
  | inside {pres kids ms} {x : Str × J} {i k} : x ∈ ms → IsFor kids x.1 i → kids[i]? = some k → Contradicts repr k.2 x.2 →
      Contradicts repr (.cont pres kids) (.obj ms)
  | sameKey {info kids xs} {a b : Nat} {x y k k'} : a < b → xs[a]? = some x → xs[b]? = some y →
      docKey repr info kids x = some k → docKey repr info kids y = some k' → pyEq k k' = true →
      Contradicts repr (.list info kids) (.arr xs)
  | elem {info kids xs x} : x ∈ xs → Contradicts repr (.cont false kids) x → Contradicts repr (.list info kids) (.arr xs)

/-- Somewhere an element of a list with several keys has a last key whose text is empty or
ends with a space: the library strips the text it looks up. -/
inductive Loose (repr : J → Str) : Schema → J → Prop where
  | here {info kids xs x s} : x ∈ xs → 2 ≤ info.keys.length → docKey repr info kids x = some (.str (s ++ [' '])) →
      Loose repr (.list info kids) (.arr xs)
  | elem {info kids xs x} : x ∈ xs → Loose repr (.cont false kids) x → Loose repr (.list info kids) (.arr xs)
  | inside {pres kids ms} {x : Str × J} {i k} : x ∈ ms → IsFor kids x.1 i → kids[i]? = some k → Loose repr k.2 x.2 →
      Loose repr (.cont pres kids) (.obj ms)

/-- The value a document gives for a leaf, as a Python value: `[null]` for `empty` is
`True`, the name of an identity is taken without what is in front of its first colon. -/
inductive Sent (repr : J → Str) (yangType : Str) : J → PyVal → Prop where
  | plain {j} : yangType ≠ py!"empty" → yangType ≠ py!"identityref" → Sent repr yangType j (jPy repr j)
  | empty : yangType = py!"empty" → Sent repr yangType (.arr [.null]) (.bool true)
  | name {s} : yangType = py!"identityref" → ':' ∉ s → Sent repr yangType (.str s) (.str s)
  | qualified {m s} : yangType = py!"identityref" → ':' ∉ m → Sent repr yangType (.str (m ++ ':' :: s)) (.str s)
  | array {xs} : yangType = py!"identityref" → Sent repr yangType (.arr xs) (jPy repr (.arr xs))

/-- The object holds the value a document gives: what the class of the leaf or leaf-list
makes of it when it is assigned. -/
def HoldsDoc (repr : J → Str) : Schema → J → Inst → Prop
  | .leaf L, x, n => ∃ v w, Sent repr L.yangType x v ∧ L.set v = .ok w ∧ n = .leaf w true
  | .leafList L, .arr xs, n => L.yangType ≠ py!"empty" → ∃ ws, tlInit L.conv L.uniq (.seq (xs.map (jPy repr))) = .ok ws ∧
      n = .leafList ws true
  | _, _, _ => False

/-- Values that stand for nothing: the library ignores them. -/
def Ignored : J → Prop
  | .null => True
  | .arr [] => True
  | .obj _ => True
  | _ => False

end Spec
