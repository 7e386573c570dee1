import Verif.Spec.NativeOrder

/-! # Specification vocabulary: members of native JSON that are not in the schema -/

namespace Spec
open Py Pyb

/-- The document has, somewhere, a member that is not in the schema.  The first argument
says that the object is an entry of a user-ordered list: `__yang_order` is its position
then, and no member. -/
inductive NUnknown : Bool → Schema → J → Prop where
  | here {o pres kids ms} {x : Str × J} : x ∈ ms → ¬ (o = true ∧ x.1 = py!"__yang_order") → childOf kids x.1 = none →
      NUnknown o (.cont pres kids) (.obj ms)
  | inside {o pres kids ms} {x : Str × J} {k : Meta × Schema} : x ∈ ms → ¬ (o = true ∧ x.1 = py!"__yang_order") →
      childOf kids x.1 = some k → NUnknown false k.2 x.2 → NUnknown o (.cont pres kids) (.obj ms)
  | entry {o info kids ms} {x : Str × J} : x ∈ ms → NUnknown info.ordered (.cont false kids) x.2 → NUnknown o (.list info kids) (.obj ms)

/-- Two entries of some user-ordered list in the document say they have the same
position. -/
inductive SamePlace : Schema → J → Prop where
  | here {info kids ms} : info.ordered = true → ¬ (ms.filterMap fun x : Str × J => position x.2).Nodup → SamePlace (.list info kids) (.obj ms)
  | entry {info kids ms} {x : Str × J} : x ∈ ms → SamePlace (.cont false kids) x.2 → SamePlace (.list info kids) (.obj ms)
  | member {pres kids ms} {x : Str × J} {k : Meta × Schema} : x ∈ ms → childOf kids x.1 = some k → SamePlace k.2 x.2 →
      SamePlace (.cont pres kids) (.obj ms)

mutual
/-- The document without the members that are not in the schema. -/
def bare : Bool → Schema → J → J
  | o, .cont _ kids, .obj ms => .obj (bareMembers o kids ms)
  | _, .list info kids, .obj ms => .obj (bareEntries info.ordered kids ms)
  | _, _, j => j
def bareMembers (o : Bool) (kids : List (Meta × Schema)) : List (Str × J) → List (Str × J)
  | [] => []
  | m :: ms =>
    if o = true ∧ m.1 = py!"__yang_order" then m :: bareMembers o kids ms
    else match childOf kids m.1 with
      | some k => (m.1, bare false k.2 m.2) :: bareMembers o kids ms
      | none => bareMembers o kids ms
def bareEntries (o : Bool) (kids : List (Meta × Schema)) : List (Str × J) → List (Str × J)
  | [] => []
  | m :: ms => (m.1, bare o (.cont false kids) m.2) :: bareEntries o kids ms
end

end Spec
