import Verif.Model.JsonText
import Verif.Spec.Native

/-! # Texts of JSON documents -/

namespace Spec
open Py Pyb

mutual
/-- No object has two members of one name. -/
def MembersApart : J → Prop
  | .arr xs => MembersApartAll xs
  | .obj ms => (ms.map Prod.fst).Nodup ∧ MembersApartMems ms
  | _ => True
def MembersApartAll : List J → Prop
  | [] => True
  | x :: xs => MembersApart x ∧ MembersApartAll xs
def MembersApartMems : List (Str × J) → Prop
  | [] => True
  | (_, x) :: ms => MembersApart x ∧ MembersApartMems ms
end

/-- Digits, at least one. -/
def Digits (s : Str) : Prop := s ≠ [] ∧ ∀ c ∈ s, isDigit c = true

/-- The text of a float in JSON (RFC 8259, 6): an integer with a fraction or an exponent. -/
def FloatForm (s : Str) : Prop :=
  ∃ sign n f e, s = sign ++ natStr n ++ f ++ e ∧ (sign = [] ∨ sign = ['-']) ∧
    (f = [] ∨ ∃ d, f = '.' :: d ∧ Digits d) ∧ (e = [] ∨ ∃ g d, e = 'e' :: g ++ d ∧ (g = [] ∨ g = ['-'] ∨ g = ['+']) ∧ Digits d) ∧
    (f ≠ [] ∨ e ≠ [])

/-- Python writes the float so that it is read as the same. -/
def FloatBack (fl : Int × Int → Str) (rf : Str → Option (Int × Int)) (x : Int × Int) : Prop :=
  FloatForm (fl x) ∧ rf (fl x) = some x

mutual
/-- Every float of the document is written so that it is read as the same. -/
def FloatsBack (fl : Int × Int → Str) (rf : Str → Option (Int × Int)) : J → Prop
  | .float x => FloatBack fl rf x
  | .arr xs => FloatsBackAll fl rf xs
  | .obj ms => FloatsBackMems fl rf ms
  | _ => True
def FloatsBackAll (fl : Int × Int → Str) (rf : Str → Option (Int × Int)) : List J → Prop
  | [] => True
  | x :: xs => FloatsBack fl rf x ∧ FloatsBackAll fl rf xs
def FloatsBackMems (fl : Int × Int → Str) (rf : Str → Option (Int × Int)) : List (Str × J) → Prop
  | [] => True
  | (_, x) :: ms => FloatsBack fl rf x ∧ FloatsBackMems fl rf ms
end

/-- An object or an array. -/
def Structured : J → Prop
  | .arr _ => True
  | .obj _ => True
  | _ => False

/-- What may be found in a file if the program stops at any moment while these things
happen. -/
def FileAtCrash (before : Option Str) (steps : List FileStep) (f : Option Str) : Prop :=
  ∃ done rest, steps = done ++ rest ∧ f = fileAfter before done

/-- The names of the children of an object, if it has any, are good. -/
def NamedIetf (_ : Meta) : Schema → Inst → Prop
  | .cont _ kids, _ => GoodNames kids
  | .list _ kids, _ => GoodNames kids
  | _, _ => True

/-- The names of the members of an object of the default document differ: the children
have good names, and the keys of the entries of a list have different texts. -/
def NamedNative (_ : Meta) : Schema → Inst → Prop
  | .cont _ kids, _ => GoodNames kids
  | .list info kids, .list _ es => GoodNames kids ∧ (info.ordered = true → ∀ k ∈ kids, k.1.name ≠ py!"__yang_order") ∧
      es.Pairwise fun a b => jsonKey a.1 ≠ jsonKey b.1
  | _, _ => True

/-- Only ASCII characters. -/
def Ascii (s : Str) : Prop := ∀ c ∈ s, c.toNat < 128

end Spec
