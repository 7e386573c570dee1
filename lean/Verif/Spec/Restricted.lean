import Verif.Spec.Range

/-! # Derived integer types as YANG defines them -/

namespace Spec
open Py

/-- The bounds of the built-in integer types (RFC 6020, 9.2), by YANG name. -/
def builtinBounds (name : Str) : Option (Int × Int) :=
  if name = py!"int8" then some (-(2 ^ 7), 2 ^ 7 - 1)
  else if name = py!"int16" then some (-(2 ^ 15), 2 ^ 15 - 1)
  else if name = py!"int32" then some (-(2 ^ 31), 2 ^ 31 - 1)
  else if name = py!"int64" then some (-(2 ^ 63), 2 ^ 63 - 1)
  else if name = py!"uint8" then some (0, 2 ^ 8 - 1)
  else if name = py!"uint16" then some (0, 2 ^ 16 - 1)
  else if name = py!"uint32" then some (0, 2 ^ 32 - 1)
  else if name = py!"uint64" then some (0, 2 ^ 64 - 1)
  else none

/-- A `type` statement restricting a string: the patterns (any number) and at most
one length argument. -/
structure StrLayer where
  patterns : List Str := []
  length : Option (List WrittenPart) := none

/-- What the layer demands of a string, for a given meaning `matchesPat` of a
pattern: every pattern and the length. -/
def StrLayer.Allows (matchesPat : Str → Str → Prop) (l : StrLayer) (s : Str) : Prop :=
  (∀ p ∈ l.patterns, matchesPat p s) ∧ (∀ ws, l.length = some ws → Allowed ws s.length)

/-- A `type` statement whose restrictions the code keeps: at most one pattern. -/
def StrLayer.SinglePattern (l : StrLayer) : Prop := l.patterns.length ≤ 1

/-- A `type` statement with at most one restriction. -/
def StrLayer.AtMostOne (l : StrLayer) : Prop :=
  l.patterns.length + l.length.toList.length ≤ 1

/-- A legal length argument: at least one part, every single value in
`0..18446744073709551615`. -/
def LegalLength (ws : List WrittenPart) : Prop :=
  ws ≠ [] ∧ ∀ w ∈ ws, ∀ m, w.part = .single m → 0 ≤ m ∧ m < 2 ^ 64

/-- A derived integer type: the range arguments on its derivation chain, the
outermost (most derived) first.  A number belongs to the type iff every range on
the chain allows it. -/
def InType (chain : List (List WrittenPart)) (n : Int) : Prop := ∀ ws ∈ chain, Allowed ws n

/-- The explicit bounds written in a part. -/
def RangePart.bounds : RangePart → List Int
  | .span lo hi => lo.toList ++ hi.toList
  | .single n => [n]

/-- A legal chain: every argument has at least one part and each written bound
belongs to the type being restricted (RFC 6020, 9.2.4).  Single values are below
2^53 in magnitude: beyond that the code compares through a float (see C08). -/
def LegalChain : List (List WrittenPart) → Prop
  | [] => True
  | ws :: rest =>
    ws ≠ [] ∧ (∀ w ∈ ws, ∀ b ∈ w.part.bounds, InType rest b) ∧
    (∀ w ∈ ws, ∀ m, w.part = .single m → m.natAbs < 2 ^ 53) ∧ LegalChain rest

instance (n : Int) (p : RangePart) : Decidable (p.Contains n) := by
  cases p with
  | single m => exact inferInstanceAs (Decidable (n = m))
  | span lo hi =>
    cases lo with
    | none => cases hi with
      | none => exact isTrue ⟨nofun, nofun⟩
      | some h =>
        exact if hh : n ≤ h then isTrue ⟨nofun, fun _ e => by cases e; exact hh⟩
          else isFalse fun e => hh (e.2 h rfl)
    | some l => cases hi with
      | none =>
        exact if hl : l ≤ n then isTrue ⟨fun _ e => by cases e; exact hl, nofun⟩
          else isFalse fun e => hl (e.1 l rfl)
      | some h =>
        exact if hl : l ≤ n ∧ n ≤ h then
            isTrue ⟨fun _ e => by cases e; exact hl.1, fun _ e => by cases e; exact hl.2⟩
          else isFalse fun e => hl ⟨e.1 l rfl, e.2 h rfl⟩

instance (ws : List WrittenPart) (n : Int) : Decidable (Allowed ws n) :=
  inferInstanceAs (Decidable (∃ w ∈ ws, w.part.Contains n))

instance (chain : List (List WrittenPart)) (n : Int) : Decidable (InType chain n) :=
  inferInstanceAs (Decidable (∀ ws ∈ chain, Allowed ws n))

end Spec
