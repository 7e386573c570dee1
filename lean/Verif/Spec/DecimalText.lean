import Verif.Spec.IntText
import Verif.Py.Dec

/-! # Texts that are decimals -/

namespace Spec
open Py

/-- A sign, or none. -/
def IsSign (sg : Str) : Prop := sg = [] ∨ sg = ['+'] ∨ sg = ['-']

/-- A number with a sign. -/
def withSign (sg : Str) (n : Nat) : Int := if sg = ['-'] then -(n : Int) else n

/-- An exponent, or none, and its value. -/
def WrittenExponent (ex : Str) (e : Int) : Prop :=
  (ex = [] ∧ e = 0) ∨
  ∃ c sg ds, (c = 'E' ∨ c = 'e') ∧ IsSign sg ∧ ds ≠ [] ∧ (∀ d ∈ ds, isDigit d = true) ∧ ex = c :: (sg ++ ds) ∧ e = withSign sg (digitsValue ds)

/-- A number without spaces and underscores: a sign or none, digits before and after a point or without one, at least one
digit, an exponent or none. -/
def BareDecimal (t : Str) (x : Dec) : Prop :=
  ∃ sg ip fp point ex e, IsSign sg ∧ (∀ d ∈ ip, isDigit d = true) ∧ (∀ d ∈ fp, isDigit d = true) ∧ ip ++ fp ≠ [] ∧
    (point = '.' :: fp ∨ (point = [] ∧ fp = [])) ∧ WrittenExponent ex e ∧ t = sg ++ (ip ++ (point ++ ex)) ∧
    x = ⟨withSign sg (digitsValue (ip ++ fp)), e - fp.length⟩

/-- The texts that are decimals to Python's `decimal`: a number between white space, with underscores anywhere in it. -/
def WrittenDecimal (s : Str) (x : Dec) : Prop :=
  ∃ l t r, (∀ c ∈ l, isSpace c = true) ∧ (∀ c ∈ r, isSpace c = true) ∧ s = l ++ t ++ r ∧ BareDecimal (t.filter (· ≠ '_')) x

end Spec
