import Verif.Model.LeafRef

/-! # What a leafref may hold -/

namespace Spec
open Py Pyb

/-- The values at an object: those of a leaf-list, else its text. -/
def refValues (o : RefObj) : List Str :=
  match o.kind with
  | .leafList es => es
  | _ => [o.text]

/-- The value is one of those at the referenced path. -/
def Referenced (objs : List RefObj) (v : Str) : Prop := ∃ o ∈ objs, v ∈ refValues o

/-- The path leads to one single leaf that is not a list key. -/
def SingleLeaf (objs : List RefObj) : Prop := ∃ o, objs = [o] ∧ o.isKey = false ∧ o.kind = .leaf

end Spec
