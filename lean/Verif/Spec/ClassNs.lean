import Verif.Model.ClassNs
import Verif.Spec.Names

/-! # Attributes of generated classes -/

namespace Spec
open Py Pyb

def Separator (c : Char) : Prop := c = '_' ∨ c = '-' ∨ c = '.'

/-- A YANG identifier that starts with a letter, and does not end in two separators. -/
def UsualName (n : Str) : Prop :=
  (∃ c r, n = c :: r ∧ isAlpha c = true) ∧ ∀ x a b, n = x ++ [a, b] → ¬ (Separator a ∧ Separator b)

/-- The name of a class: something else than underscores, and then not `get_`, `set_` or `unset_`
(the classes of containers and lists start with `yc_`, those of modules have their name). -/
def UsualClass (cls : Str) : Prop :=
  ∃ u c r, cls = u ++ c :: r ∧ (∀ x ∈ u, x = '_') ∧ c ≠ '_' ∧ ∀ p ∈ [py!"get_", py!"set_", py!"unset_"], ¬ p <+: c :: r

/-- The attribute that reads and writes the child, or only reads it if it is not config. -/
def childAttr (k : Str × Bool) : Member :=
  if k.2 then .prop (.getter (safeName k.1)) (.setter (safeName k.1)) else .readOnly (.getter (safeName k.1))

end Spec
