import Verif.Spec.Json
import Verif.Spec.Reg

/-! # Trees whose objects have different paths -/

namespace Spec
open Py Pyb

/-- Siblings have different names, without `[`. -/
def PathNames (kids : List (Meta × Schema)) : Prop := (∀ k ∈ kids, '[' ∉ k.1.name) ∧ (kids.map fun k => k.1.name).Nodup

/-- The entries of a list have keys, one text for each key leaf, and no two the same texts. -/
def PathTexts (info : ListInfo) (es : List (PyVal × Inst)) : Prop :=
  info.keys ≠ [] ∧ (∀ e ∈ es, (entryTexts info.keys.length e.1).length = info.keys.length) ∧ (es.map fun e => entryTexts info.keys.length e.1).Nodup

def PathReady (_ : Meta) : Schema → Inst → Prop
  | .cont _ kids, _ => PathNames kids
  | .list info kids, .list _ es => PathNames kids ∧ PathTexts info es
  | _, _ => True

end Spec
