import Verif.Spec.Native

/-! # Specification vocabulary: the order of entries in native JSON -/

namespace Spec
open Py Pyb

/-- The child a member of a native JSON object stands for. -/
def childOf (kids : List (Meta × Schema)) (key : Str) : Option (Meta × Schema) :=
  kids.find? fun k => safeName k.1.name == safeName key

/-- The documents that differ only in the order in which the entries of user-ordered lists
are listed, at any depth.  (The members of a JSON object have no order: a user may get
them in any.) -/
inductive Shuffled : Schema → J → J → Prop where
  | refl (S j) : Shuffled S j j
  | trans {S a b c} : Shuffled S a b → Shuffled S b c → Shuffled S a c
  | entries {info kids ms ms'} : info.ordered = true → ms.Perm ms' → Shuffled (.list info kids) (.obj ms) (.obj ms')
  | entry {info kids pre post} {key : Str} {a b} : Shuffled (.cont false kids) a b →
      Shuffled (.list info kids) (.obj (pre ++ (key, a) :: post)) (.obj (pre ++ (key, b) :: post))
  | member {pres kids pre post} {key : Str} {k : Meta × Schema} {a b} : key ≠ py!"__yang_order" → childOf kids key = some k →
      Shuffled k.2 a b → Shuffled (.cont pres kids) (.obj (pre ++ (key, a) :: post)) (.obj (pre ++ (key, b) :: post))

/-- The position an entry says it has. -/
def position : J → Option Int
  | .obj ms => match ms.lookup py!"__yang_order" with | some (.num n) => some n | _ => none
  | _ => none

/-- The entries of some user-ordered list in the document do not all have a position, or
not different ones. -/
inductive Unnumbered : Schema → J → Prop where
  | here {info kids ms} : info.ordered = true → ¬ ((∀ x ∈ ms, position x.2 ≠ none) ∧ (ms.map fun x => position x.2).Nodup) →
      Unnumbered (.list info kids) (.obj ms)
  | entry {info kids ms} {x : Str × J} : x ∈ ms → Unnumbered (.cont false kids) x.2 → Unnumbered (.list info kids) (.obj ms)
  | member {pres kids ms} {x : Str × J} {k : Meta × Schema} : x ∈ ms → childOf kids x.1 = some k → Unnumbered k.2 x.2 →
      Unnumbered (.cont pres kids) (.obj ms)

end Spec
