import Verif.Model.Typedef

/-! # What type names mean (RFC 7950, 7.3 and 6.2.1)

Only the input format (`TypeS`, `TypeDef`) is shared with the model. -/

namespace Spec
open Py Pyb

/-- The type names and identity names a type statement uses. -/
inductive Mentions : TypeS → Str → Prop where
  | plain (a r) : Mentions (.plain a r) a
  | identityref (b) : Mentions (.identityref b) b
  | member (ms t a) : t ∈ ms → Mentions t a → Mentions (.union ms) a

/-- A union with a union written inside it. -/
def NestedUnion : TypeS → Prop
  | .union ms => ∃ ms', .union ms' ∈ ms
  | _ => False

/-- `a`, used in `d`, is the known name or the typedef `k` (with the real prefix of its
module). -/
inductive Names (base : List Str) (d : TypeDef) : Str → Str → Prop where
  | known (a) : ':' ∉ a → a ∈ base → Names base d a a
  | sameModule (a) : ':' ∉ a → a ∉ base → Names base d a (d.real ++ ':' :: a)
  | own (n) : ':' ∉ d.local_ → ':' ∉ n → Names base d (d.local_ ++ ':' :: n) (d.real ++ ':' :: n)
  | imported (p n r) : ':' ∉ p → ':' ∉ n → p ≠ [] → p ≠ d.local_ → d.imports.lookup p = some r →
      Names base d (p ++ ':' :: n) (r ++ ':' :: n)

/-- `d` needs the type `k`. -/
def Needs (base : List Str) (d : TypeDef) (k : Str) : Prop := ∃ a, Mentions d.type a ∧ Names base d a k

/-- The type `k` comes down to known ones. -/
inductive TGrounded (base : List Str) (defs : List TypeDef) : Str → Prop where
  | known (k) : k ∈ base → TGrounded base defs k
  | typedef (d) : d ∈ defs → (∀ k, Needs base d k → TGrounded base defs k) → TGrounded base defs (d.pfx ++ ':' :: d.name)

/-- Every name used has a meaning (pyang knows the prefixes). -/
def NamesOk (base : List Str) (defs : List TypeDef) : Prop := ∀ d ∈ defs, ∀ a, Mentions d.type a → ∃ k, Names base d a k

/-- The name `a` stands for the typedef `d`, with or without prefix. -/
def Denotes (d : TypeDef) (a : Str) : Prop := a = d.pfx ++ ':' :: d.name ∨ a = d.name

/-- The default a type gives a leaf: that of the nearest typedef that has one. -/
inductive Nearest (builtin : List Str) (defs : List TypeDef) : Str → Option Str → Prop where
  | builtin (a) : a ∈ builtin → Nearest builtin defs a none
  | here (d a v) : d ∈ defs → Denotes d a → d.default = some v → Nearest builtin defs a (some v)
  | next (d a b r o) : d ∈ defs → Denotes d a → d.default = none → d.type = .plain b r → Nearest builtin defs b o →
      Nearest builtin defs a o

end Spec
