import Verif.Model.GenText

namespace Spec
open Py Pyb

/-- The characters that have a meaning after a backslash. -/
def escapeChars : List Char :=
  ['\n', '\\', '\'', '"', 'a', 'b', 'f', 'n', 'r', 't', 'v', 'x', 'u', 'U', 'N', '0', '1', '2', '3', '4', '5', '6', '7']

/-- Every backslash is followed by a character that has no meaning after it. -/
def NoEscapes (s : Str) : Prop := ∀ a b, s = a ++ '\\' :: b → ∃ d r, b = d :: r ∧ d ∉ escapeChars

/-- A text that means itself between two quote characters. -/
def PlainIn (q : Char) (s : Str) : Prop := (∀ c ∈ s, c ≠ q ∧ c ≠ '\n' ∧ c ≠ '\r' ∧ c ≠ '\x00') ∧ NoEscapes s

/-- Three quote characters in a row. -/
def Triple (q : Char) (s : Str) : Prop := ∃ a b, s = a ++ q :: q :: q :: b

/-- A text without backslash and NUL. -/
def Clean (s : Str) : Prop := ∀ c ∈ s, c ≠ '\\' ∧ c ≠ '\x00'

def PieceOk : Piece → Prop
  | .code t => Clean t ∧ '\r' ∉ t
  | .repr _ => True
  | .quoted q s => (q = '"' ∨ q = '\'') ∧ PlainIn q s

end Spec
