import Verif.Py.Str

/-! # Python's string literals

How Python reads a string literal in a source file, and how `repr` writes one (The Python
Language Reference, 2.4.1; `unicode_repr` in CPython's Objects/unicodeobject.c).  Prefixed
literals (`r"..."`, `b"..."`) are left out. -/

namespace Py

/-- Universal newlines: CR LF and CR in a source file are read as LF.  The flag tells whether
the last character was CR. -/
def srcNl : Bool → Str → Str
  | _, [] => []
  | b, c :: r => if c = '\r' then '\n' :: srcNl true r else if c = '\n' ∧ b = true then srcNl false r else c :: srcNl false r

def srcNewlines (s : Str) : Str := srcNl false s

/-- The rest of a literal in single quote characters: its body and what follows.  The flag
tells whether a backslash was just read. -/
def shortEnd (q : Char) : Bool → Str → Option (Str × Str)
  | _, [] => none
  | true, c :: r => if c = '\x00' then none else (shortEnd q false r).map fun x => (c :: x.1, x.2)
  | false, c :: r =>
    if c = q then some ([], r)
    else if c = '\n' ∨ c = '\x00' then none
    else (shortEnd q (decide (c = '\\')) r).map fun x => (c :: x.1, x.2)

/-- The same for a literal in triple quotes. -/
def longEnd (q : Char) : Bool → Str → Option (Str × Str)
  | _, [] => none
  | true, c :: r => if c = '\x00' then none else (longEnd q false r).map fun x => (c :: x.1, x.2)
  | false, c :: r =>
    if c = q ∧ r.take 2 = [q, q] then some ([], r.drop 2)
    else if c = '\x00' then none
    else (longEnd q (decide (c = '\\')) r).map fun x => (c :: x.1, x.2)

def hexVal (c : Char) : Option Nat :=
  if 48 ≤ c.toNat ∧ c.toNat ≤ 57 then some (c.toNat - 48)
  else if 97 ≤ c.toNat ∧ c.toNat ≤ 102 then some (c.toNat - 87)
  else if 65 ≤ c.toNat ∧ c.toNat ≤ 70 then some (c.toNat - 55)
  else none

def octVal (c : Char) : Option Nat := if 48 ≤ c.toNat ∧ c.toNat ≤ 55 then some (c.toNat - 48) else none

/-- The character with a number.  A surrogate is a character to Python, but not here. -/
def chrOf (n : Nat) : Option Char := if h : n.isValidChar then some (Char.ofNatAux n h) else none

/-- Where in an escape sequence the reader is. -/
inductive Esc where
  | none
  | back
  | hex (left val : Nat)
  | oct (left val : Nat)
  | brace
  | name (acc : Str)

/-- The escapes of one character. -/
def simpleEsc (c : Char) : Option Str :=
  if c = '\n' then some []
  else if c = '\\' ∨ c = '\'' ∨ c = '"' then some [c]
  else if c = 'a' then some ['\x07']
  else if c = 'b' then some ['\x08']
  else if c = 'f' then some ['\x0c']
  else if c = 'n' then some ['\n']
  else if c = 'r' then some ['\r']
  else if c = 't' then some ['\t']
  else if c = 'v' then some ['\x0b']
  else none

/-- What the character after a backslash leads to: an unknown escape stands for itself. -/
def backStep (c : Char) : Str × Esc :=
  match simpleEsc c with
  | some o => (o, .none)
  | none =>
    if c = 'x' then ([], .hex 2 0)
    else if c = 'u' then ([], .hex 4 0)
    else if c = 'U' then ([], .hex 8 0)
    else if c = 'N' then ([], .brace)
    else match octVal c with
      | some d => ([], .oct 2 d)
      | none => (['\\', c], .none)

def plainStep (c : Char) : Str × Esc := if c = '\\' then ([], .back) else ([c], .none)

/-- One character; `names` gives the characters with names, for `\N{...}`. -/
def escStep (names : Str → Option Char) : Esc → Char → Option (Str × Esc)
  | .none, c => some (plainStep c)
  | .back, c => some (backStep c)
  | .hex left val, c =>
    match hexVal c with
    | none => none
    | some d => if left ≤ 1 then (chrOf (val * 16 + d)).map fun x => ([x], .none) else some ([], .hex (left - 1) (val * 16 + d))
  | .oct left val, c =>
    match (if left = 0 then none else octVal c) with
    | some d => some ([], .oct (left - 1) (val * 8 + d))
    | none => (chrOf val).map fun x => (x :: (plainStep c).1, (plainStep c).2)
  | .brace, c => if c = '{' then some ([], .name []) else none
  | .name acc, c => if c = '}' then (names acc.reverse).map fun x => ([x], .none) else some ([], .name (c :: acc))

def escEnd : Esc → Option Str
  | .none => some []
  | .oct _ val => (chrOf val).map fun x => [x]
  | _ => none

/-- The text a body stands for; `none` is a `SyntaxError`. -/
def unesc (names : Str → Option Char) : Esc → Str → Option Str
  | m, [] => escEnd m
  | m, c :: r =>
    match escStep names m c with
    | none => none
    | some (o, m') => (unesc names m' r).map (o ++ ·)

/-- The literal a text begins with, and what follows; `none` is a `SyntaxError`. -/
def readLit (names : Str → Option Char) : Str → Option (Str × Str)
  | [] => none
  | q :: r =>
    if q = '"' ∨ q = '\'' then
      (if r.take 2 = [q, q] then longEnd q false (r.drop 2) else shortEnd q false r).bind fun x => (unesc names .none x.1).map fun v => (v, x.2)
    else none

/-! ## `repr` -/

def hexChar (n : Nat) : Char := if n < 10 then Char.ofNat (48 + n) else Char.ofNat (87 + n)

/-- `k` hexadecimal digits. -/
def hexDigits : Nat → Nat → Str
  | 0, _ => []
  | k + 1, n => hexDigits k (n / 16) ++ [hexChar (n % 16)]

/-- One character; `printable` is `str.isprintable` beyond ASCII. -/
def reprChar (printable : Char → Bool) (q c : Char) : Str :=
  if c = q ∨ c = '\\' then ['\\', c]
  else if c = '\t' then py!"\\t"
  else if c = '\n' then py!"\\n"
  else if c = '\r' then py!"\\r"
  else if c.toNat < 32 ∨ c.toNat = 127 then py!"\\x" ++ hexDigits 2 c.toNat
  else if c.toNat < 127 ∨ printable c = true then [c]
  else if c.toNat < 256 then py!"\\x" ++ hexDigits 2 c.toNat
  else if c.toNat < 65536 then py!"\\u" ++ hexDigits 4 c.toNat
  else py!"\\U" ++ hexDigits 8 c.toNat

def reprQuote (s : Str) : Char := if '\'' ∈ s ∧ '"' ∉ s then '"' else '\''

def pyRepr (printable : Char → Bool) (s : Str) : Str := reprQuote s :: (s.flatMap (reprChar printable (reprQuote s)) ++ [reprQuote s])

end Py
