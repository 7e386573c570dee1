import Verif.Py.Str

/-! # Specification vocabulary for names (independent of the model) -/

namespace Spec
open Py

/-- ASCII letter. -/
def isAlpha (c : Char) : Bool :=
  (65 ≤ c.toNat && c.toNat ≤ 90) || (97 ≤ c.toNat && c.toNat ≤ 122)

/-- RFC 6020 `identifier = (ALPHA / "_") *(ALPHA / DIGIT / "_" / "-" / ".")`. -/
def isYangIdentifier : Str → Bool
  | [] => false
  | c :: cs => (isAlpha c || c = '_') &&
      cs.all fun d => isAlpha d || isDigit d || d = '_' || d = '-' || d = '.'

/-- ASCII Python identifier: a letter or `_`, then letters, digits, `_`. -/
def isPyIdentifier : Str → Bool
  | [] => false
  | c :: cs => (isAlpha c || c = '_') && cs.all fun d => isAlpha d || isDigit d || d = '_'

/-- The keywords of Python 3 (`keyword.kwlist`). -/
def pyKeywords : List Str :=
  [py!"False", py!"None", py!"True", py!"and", py!"as", py!"assert", py!"async", py!"await",
   py!"break", py!"class", py!"continue", py!"def", py!"del", py!"elif", py!"else", py!"except",
   py!"finally", py!"for", py!"from", py!"global", py!"if", py!"import", py!"in", py!"is",
   py!"lambda", py!"nonlocal", py!"not", py!"or", py!"pass", py!"raise", py!"return", py!"try",
   py!"while", py!"with", py!"yield"]

/-- The three characters that look the same in a Python attribute name. -/
def blurred (c : Char) : Bool := c = '-' || c = '.' || c = '_'

/-- Two names that differ at most by exchanging `-`, `.` and `_`. -/
def confusable : Str → Str → Bool
  | [], [] => true
  | c :: cs, d :: ds => (c = d || (blurred c && blurred d)) && confusable cs ds
  | _, _ => false

end Spec
