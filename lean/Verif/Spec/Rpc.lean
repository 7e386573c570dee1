import Verif.Model.Tree

/-! # Schemas of rpcs -/

namespace Spec
open Py Pyb

/-- No list in the schema has a key. -/
inductive KeylessIn : Schema → Prop where
  | leaf (L) : KeylessIn (.leaf L)
  | leafList (L) : KeylessIn (.leafList L)
  | cont (pres kids) : (∀ k ∈ kids, KeylessIn k.2) → KeylessIn (.cont pres kids)
  | list (info kids) : info.keys = [] → (∀ k ∈ kids, KeylessIn k.2) → KeylessIn (.list info kids)

/-- The operation deletes no list entry. -/
def NoDelete : Op → Prop
  | .delete _ => False
  | _ => True

end Spec
