/-!
# Python strings

A Python `str` is modelled as the list of its characters.  Lone surrogates are
not modelled (Lean's `Char` is a Unicode scalar value).
-/

namespace Py

/-- A Python `str`. -/
abbrev Str := List Char

/-- `py!"abc"` is the character-list literal `['a','b','c']`. -/
macro:max "py!" s:str : term => do
  let cs := s.getString.toList.toArray.map fun c => Lean.Syntax.mkCharLit c
  `(([$cs,*] : List Char))

/-- The exceptions the modelled code raises or catches (messages dropped). -/
inductive Err where
  | typeError | valueError | keyError | attributeError | indexError
  | runtimeError | xpathError | invalidOperation | overflowError
  deriving DecidableEq, Repr

instance instDecidableEqExcept {ε α} [DecidableEq ε] [DecidableEq α] : DecidableEq (Except ε α)
  | .ok a, .ok b => if h : a = b then isTrue (h ▸ rfl) else isFalse fun e => h (Except.ok.inj e)
  | .error a, .error b =>
    if h : a = b then isTrue (h ▸ rfl) else isFalse fun e => h (Except.error.inj e)
  | .ok _, .error _ => isFalse nofun
  | .error _, .ok _ => isFalse nofun

/-- `s.split(sep)` for a one-character separator (Python built-in). -/
def splitOn (sep : Char) : Str → List Str
  | [] => [[]]
  | c :: cs =>
    if c = sep then [] :: splitOn sep cs
    else match splitOn sep cs with
      | [] => [[c]]
      | p :: ps => (c :: p) :: ps

/-- `sep.join(parts)` (Python built-in). -/
def join (sep : Str) : List Str → Str
  | [] => []
  | [x] => x
  | x :: y :: r => x ++ sep ++ join sep (y :: r)

/-- `s.replace(a, b)` for one-character `a` and `b` (Python built-in). -/
def replaceChar (a b : Char) (s : Str) : Str := s.map fun c => if c = a then b else c

/-- `s.replace(a, r)` for a one-character `a` (Python built-in). -/
def replaceBy (a : Char) (r : Str) (s : Str) : Str := s.flatMap fun c => if c = a then r else [c]

/-- `s.startswith(p)` (Python built-in). -/
def startsWith (s p : Str) : Bool := p.isPrefixOf s

/-- Characters removed by `str.strip()` and accepted around a number by `int()`:
ASCII white space and the few Latin-1 ones; other Unicode spaces are not modelled. -/
def isSpace (c : Char) : Bool :=
  c = ' ' || c = '\t' || c = '\n' || c = '\r' || c = Char.ofNat 0x0b || c = Char.ofNat 0x0c ||
  c = Char.ofNat 0x1c || c = Char.ofNat 0x1d || c = Char.ofNat 0x1e || c = Char.ofNat 0x1f ||
  c = Char.ofNat 0x85 || c = Char.ofNat 0xa0

/-- `s.lstrip(chars)`. -/
def lstripBy (p : Char → Bool) (s : Str) : Str := s.dropWhile p

/-- `s.rstrip(chars)`. -/
def rstripBy (p : Char → Bool) (s : Str) : Str := (s.reverse.dropWhile p).reverse

/-- `s.strip()`. -/
def strip (s : Str) : Str := rstripBy isSpace (lstripBy isSpace s)

/-! ### Decimal numerals -/

/-- ASCII decimal digit.  `int()` also accepts other Unicode digits; not modelled. -/
def isDigit (c : Char) : Bool := 48 ≤ c.toNat && c.toNat ≤ 57

/-- The digit character of `d < 10`. -/
def digitChar (d : Nat) : Char := Char.ofNat (48 + d)

/-- Digits of `n`, structurally on a fuel that is always sufficient. -/
def natStrAux : Nat → Nat → Str
  | 0, _ => []
  | f + 1, n => if n < 10 then [digitChar n] else natStrAux f (n / 10) ++ [digitChar (n % 10)]

/-- `str(n)` for a natural number. -/
def natStr (n : Nat) : Str := natStrAux (n + 1) n

/-- `str(n)` for an integer. -/
def intStr : Int → Str
  | .ofNat n => natStr n
  | .negSucc n => '-' :: natStr (n + 1)

/-- The digit part of `int()`: digits, single underscores allowed between digits.
`pd` says the previous character was a digit. -/
def parseDigits : Nat → Bool → Str → Option Nat
  | acc, pd, [] => if pd then some acc else none
  | acc, pd, c :: cs =>
    if isDigit c then parseDigits (acc * 10 + (c.toNat - 48)) true cs
    else if c = '_' && pd then parseDigits acc false cs
    else none

/-- Optional sign and digits. -/
def parseSigned : Str → Option Int
  | [] => none
  | c :: cs =>
    if c = '-' then (parseDigits 0 false cs).map fun n : Nat => -(n : Int)
    else if c = '+' then (parseDigits 0 false cs).map fun n : Nat => (n : Int)
    else (parseDigits 0 false (c :: cs)).map fun n : Nat => (n : Int)

/-- `int(s)` on a `str`: surrounding white space, an optional sign, digits;
anything else raises `ValueError`. -/
def intOfStr (s : Str) : Except Err Int :=
  match parseSigned (strip s) with
  | some n => .ok n
  | none => .error .valueError

end Py
