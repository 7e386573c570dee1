import Verif.Spec.Typedef
import Verif.Spec.Restricted
import Verif.Model.TypeBuild

/-! # What a `type` statement means (RFC 7950, 7.3, 9)

Typedefs are expanded: a type is a built-in type with the restrictions met on the way,
the outermost first.  Only the input format (`TypeT`, `TDef`) is shared with the model,
and the way names are looked up (`Names`) with `Spec/Typedef.lean`. -/

namespace Spec
open Py Pyb

/-- A type with all typedefs expanded.  The members of a union that are themselves unions
are replaced by their members: the first member that takes a value decides either way. -/
inductive YType where
  | int (t : IntTy) (ranges : List (List WrittenPart))
  | string (layers : List StrLayer)
  | boolean
  | empty
  | binary
  | enumeration (names : List Str)
  | decimal64 (fd : Nat)
  | bits (allowed : List (Str × Str))
  | leafref
  | union (members : List YType)

/-- What the type contributes to a union it is a member of. -/
def YType.parts : YType → List YType
  | .union ys => ys
  | y => [y]

/-- The type statement `t`, written in the scope of `s`, means `y`.  `base` are the names
known without a typedef, `ids` the values of identities. -/
inductive TypeIs (base : List Str) (ids : List (Str × List Str)) (defs : List TDef) : TDef → TypeT → YType → Prop where
  | int (s t) : TypeIs base ids defs s (.plain t.name [] none none) (.int t [])
  | range (s a t rs ws) : TypeIs base ids defs s (.plain a [] none none) (.int t rs) →
      TypeIs base ids defs s (.plain a [] none (some (rangeText ws))) (.int t (ws :: rs))
  | string (s) : TypeIs base ids defs s (.plain py!"string" [] none none) (.string [])
  | layer (s a ls l) : TypeIs base ids defs s (.plain a [] none none) (.string ls) → l.patterns ≠ [] ∨ l.length.isSome →
      TypeIs base ids defs s (.plain a l.patterns (l.length.map rangeText) none) (.string (l :: ls))
  | boolean (s) : TypeIs base ids defs s (.plain py!"boolean" [] none none) .boolean
  | empty (s) : TypeIs base ids defs s (.plain py!"empty" [] none none) .empty
  | binary (s) : TypeIs base ids defs s (.plain py!"binary" [] none none) .binary
  | enumeration (s names) : TypeIs base ids defs s (.enumeration names) (.enumeration names)
  | decimal64 (s fd) : TypeIs base ids defs s (.decimal fd) (.decimal64 fd)
  | bits (s bs) : TypeIs base ids defs s (.bits bs) (.bits bs)
  | leafref (s) : TypeIs base ids defs s .leafref .leafref
  | identityref (s b k names) : Names base s.erase b k → ids.lookup k = some names → TypeIs base ids defs s (.identityref b) (.enumeration names)
  | typedef (s a d y) : d ∈ defs → Names base s.erase a (d.pfx ++ ':' :: d.name) → TypeIs base ids defs d d.type y →
      TypeIs base ids defs s (.plain a [] none none) y
  | union (s ms) (of : List (TypeT × YType)) : ms = of.map (·.1) → (∀ p ∈ of, TypeIs base ids defs s p.1 p.2) →
      TypeIs base ids defs s (.union ms) (.union (of.flatMap fun p => p.2.parts))

/-- In the scope of `s`, modules are called by their own prefixes. -/
structure OwnPrefixes (s : TDef) : Prop where
  own : s.local_ = s.real
  imports : ∀ p r, s.imports.lookup p = some r → p = r
  colon : ':' ∉ s.real

end Spec
