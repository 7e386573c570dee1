import Verif.Py.Str

/-! # Texts that are integers -/

namespace Spec
open Py

/-- Groups of digits with an underscore between them. -/
def grouped : List Str → Str
  | [] => []
  | [g] => g
  | g :: gs => g ++ '_' :: grouped gs

/-- The number digits stand for. -/
def digitsValue (ds : Str) : Nat := ds.foldl (fun a c => a * 10 + (c.toNat - 48)) 0

/-- The text is the integer as Python's language reference has it for `int()`: white space, a sign or none, one or more
groups of digits with single underscores between them, white space. -/
def WrittenInt (s : Str) (n : Int) : Prop :=
  ∃ l sg r gs, (∀ c ∈ l, isSpace c = true) ∧ (∀ c ∈ r, isSpace c = true) ∧ (sg = [] ∨ sg = ['+'] ∨ sg = ['-']) ∧
    gs ≠ [] ∧ (∀ g ∈ gs, g ≠ [] ∧ ∀ c ∈ g, isDigit c = true) ∧ s = l ++ (sg ++ grouped gs) ++ r ∧
    n = (if sg = ['-'] then -(digitsValue gs.flatten : Int) else (digitsValue gs.flatten : Int))

end Spec
