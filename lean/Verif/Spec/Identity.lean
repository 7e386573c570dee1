import Verif.Model.Identity

/-! # What identities and identityrefs mean (RFC 7950, 7.18 and 9.10)

Only the input format (`IdDef`) is shared with the model. -/

namespace Spec
open Py Pyb

/-- Identity `r` (module, name) is what the text `b` of a `base` statement in `d` means. -/
inductive Refers (d : IdDef) : Str → Str × Str → Prop where
  | plain (n) : ':' ∉ n → Refers d n (d.mod, n)
  | own (n) : ':' ∉ d.prefix_ → ':' ∉ n → Refers d (d.prefix_ ++ ':' :: n) (d.mod, n)
  | imported (p m n) : p ≠ d.prefix_ → p ≠ [] → d.imports.lookup p = some m → ':' ∉ p → ':' ∉ n →
      Refers d (p ++ ':' :: n) (m, n)

/-- `c` has `p` as one of its bases. -/
def Derives (defs : List IdDef) (c p : Str × Str) : Prop :=
  ∃ d ∈ defs, (d.mod, d.name) = c ∧ ∃ b ∈ d.bases, Refers d b p

/-- `c` is derived from `p`, directly or through others. -/
def DerivedFrom (defs : List IdDef) : Str × Str → Str × Str → Prop := Relation.TransGen (Derives defs)

/-- All chains of bases from `r` end in identities without base, among the definitions. -/
inductive Grounded (defs : List IdDef) : Str × Str → Prop where
  | mk (d) : d ∈ defs → (∀ b ∈ d.bases, ∀ r, Refers d b r → Grounded defs r) → Grounded defs (d.mod, d.name)

/-- Every `base` statement has a meaning: pyang has found the prefixes it uses. -/
def BasesOk (defs : List IdDef) : Prop := ∀ d ∈ defs, ∀ b ∈ d.bases, ∃ r, Refers d b r

/-- A module defines a name at most once (but the statement may be listed repeatedly). -/
def OneEach (defs : List IdDef) : Prop := ∀ d ∈ defs, ∀ d' ∈ defs, d.mod = d'.mod → d.name = d'.name → d = d'

/-- What `q` may be in a spelling `q:name` of an identity: the name of its module, its
prefix, or a prefix some module imports it with. -/
def KnownPrefix (mods : List (List (Str × Str))) (d : IdDef) (q : Str) : Prop :=
  q = d.mod ∨ q = d.prefix_ ∨ ∃ m ∈ mods, (d.mod, q) ∈ m

/-- The spellings of an identity. -/
def Spelling (mods : List (List (Str × Str))) (d : IdDef) (x : Str) : Prop :=
  x = d.name ∨ ∃ q, KnownPrefix mods d q ∧ x = q ++ ':' :: d.name

end Spec
