import Verif.Spec.JsonDoc

/-! # Specification vocabulary: members that are not in the schema -/

namespace Spec
open Py Pyb

/-- The name of a member without the module name in front. -/
def localName (key : Str) : Str := (key.reverse.takeWhile (· ≠ ':')).reverse

/-- The child a member stands for: its attribute has the name made from the member's
name. -/
def memberOf (kids : List (Meta × Schema)) (key : Str) : Option (Meta × Schema) :=
  kids.find? fun k => safeName k.1.name == safeName (localName key)

/-- Only containers have members. -/
def kidsOf : Schema → List (Meta × Schema)
  | .cont _ kids => kids
  | _ => []

/-- The document has, somewhere, a member that is not in the schema (and is not an empty
array).  Members with `@` in their name are metadata. -/
inductive HasUnknown : Schema → J → Prop where
  | here {S ms} {x : Str × J} : x ∈ ms → '@' ∉ x.1 → memberOf (kidsOf S) x.1 = none → x.2 ≠ .arr [] → HasUnknown S (.obj ms)
  | inside {S ms} {x : Str × J} {k : Meta × Schema} : x ∈ ms → '@' ∉ x.1 → memberOf (kidsOf S) x.1 = some k → HasUnknown k.2 x.2 →
      HasUnknown S (.obj ms)
  | elem {info kids xs x} : x ∈ xs → HasUnknown (.cont false kids) x → HasUnknown (.list info kids) (.arr xs)

mutual
/-- The document without the members that are not in the schema. -/
def prune : Schema → J → J
  | .cont _ kids, .obj ms => .obj (pruneMembers kids ms)
  | .list _ kids, .arr xs => .arr (pruneElems kids xs)
  | _, j => j
def pruneMembers (kids : List (Meta × Schema)) : List (Str × J) → List (Str × J)
  | [] => []
  | m :: ms =>
    if '@' ∈ m.1 then m :: pruneMembers kids ms
    else match memberOf kids m.1 with
      | some k => (m.1, prune k.2 m.2) :: pruneMembers kids ms
      | none => pruneMembers kids ms
def pruneElems (kids : List (Meta × Schema)) : List J → List J
  | [] => []
  | x :: xs => prune (.cont false kids) x :: pruneElems kids xs
end

/-- The document has an array with elements for a member that is not in the schema, or an
object where the schema has no container. -/
inductive Odd : Schema → J → Prop where
  | array {pres kids ms} {x : Str × J} {y ys} : x ∈ ms → '@' ∉ x.1 → memberOf kids x.1 = none → x.2 = .arr (y :: ys) →
      Odd (.cont pres kids) (.obj ms)
  | object {S ms} : (∀ pres kids, S ≠ .cont pres kids) → Odd S (.obj ms)
  | inside {pres kids ms} {x : Str × J} {k : Meta × Schema} : x ∈ ms → '@' ∉ x.1 → memberOf kids x.1 = some k → Odd k.2 x.2 →
      Odd (.cont pres kids) (.obj ms)
  | elem {info kids xs x} : x ∈ xs → Odd (.cont false kids) x → Odd (.list info kids) (.arr xs)

mutual
/-- The names of siblings are in order, and the keys of lists are leaves, at all
levels. -/
def Orderly : Schema → Prop
  | .cont _ kids => GoodNames kids ∧ OrderlyKids kids
  | .list info kids => GoodNames kids ∧ (∀ i ∈ info.keys, ∃ m L, kids[i]? = some (m, .leaf L)) ∧ OrderlyKids kids
  | _ => True
def OrderlyKids : List (Meta × Schema) → Prop
  | [] => True
  | k :: ks => Orderly k.2 ∧ OrderlyKids ks
end

end Spec
