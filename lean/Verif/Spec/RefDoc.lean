import Verif.Model.RefDoc
import Verif.Spec.JsonTypes
import Verif.Spec.XmlTypes
import Verif.Spec.XmlDoc

/-! # What a leafref refers to -/

namespace Spec
open Py Pyb

/-- The object is a leaf of type `t` in module `mod` with the value `v`, or a leafref that
refers to one (RFC 7950, 9.9: the type is that of the leaf at the end). -/
inductive Leads (rx : Str → Str → Bool) (mod : Str) (t : YTy) (v : PyVal) : RefVal → Prop where
  | leaf (d : Option PyVal) : Leads rx mod t v (.leaf mod (t.cls rx d) v)
  | ref (x : RefVal) : Leads rx mod t v x → Leads rx mod t v (.ref x)

/-- Values of type `t` are at the path: the objects found are leaves of this type, holding a
value of it. -/
def LeavesOf (rx : Str → Str → Bool) (mod : Str) (t : YTy) (objs : List Target) : Prop :=
  ∀ o ∈ objs, ∃ v, Leads rx mod t v o.val ∧ Stored rx t v

/-- The types whose values have, in a JSON document, the text that `str` gives. -/
def SameText (ietf : Bool) : YTy → Prop
  | .int _ _ _ => True
  | .str _ _ => True
  | .bool _ => True
  | .ext _ (.bits _) => True
  | .ext _ (.dec _) => ietf = true
  | _ => False

/-- The same for XML. -/
def SameXmlText : YTy → Prop
  | .int _ _ _ => True
  | .str _ _ => True
  | .ext _ (.bits _) => True
  | .ext _ (.dec _) => True
  | _ => False

end Spec
