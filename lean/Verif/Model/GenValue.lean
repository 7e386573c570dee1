import Verif.Model.GenText
import Verif.Model.DecRange

/-! # Values in the generated program -/

namespace Pyb
open Py

mutual
/-- The values the generator writes by `repr`. -/
inductive Lit where
  | none
  | int (n : Int)
  | str (s : Str)
  | list (xs : Lits)
  | dict (xs : LitPairs)
inductive Lits where
  | nil
  | cons (x : Lit) (xs : Lits)
inductive LitPairs where
  | nil
  | cons (k : Str) (v : Lit) (xs : LitPairs)
end

mutual
/-- `repr(x)`, or `"%s" % x` for a list or dict: `restriction_dict`, `restriction_arg`,
`allowed_bits`, `extensions`, `__choices__`, pyangbind/plugin/pybind.py:470-475, 914-916, 986,
996-997, 1205, 1256-1266, 1284-1288, 1362. -/
def Lit.repr (printable : Char → Bool) : Lit → Str
  | .none => py!"None"
  | .int n => intStr n
  | .str s => pyRepr printable s
  | .list xs => '[' :: xs.repr printable
  | .dict xs => '{' :: xs.repr printable
def Lits.repr (printable : Char → Bool) : Lits → Str
  | .nil => [']']
  | .cons x xs => x.repr printable ++ xs.more printable
/-- After an item. -/
def Lits.more (printable : Char → Bool) : Lits → Str
  | .nil => [']']
  | .cons x xs => py!", " ++ x.repr printable ++ xs.more printable
def LitPairs.repr (printable : Char → Bool) : LitPairs → Str
  | .nil => ['}']
  | .cons k v xs => pyRepr printable k ++ py!": " ++ v.repr printable ++ xs.more printable
def LitPairs.more (printable : Char → Bool) : LitPairs → Str
  | .nil => ['}']
  | .cons k v xs => py!", " ++ pyRepr printable k ++ py!": " ++ v.repr printable ++ xs.more printable
end

/-! ## How Python reads them -/

/-- The characters of a number; the literal goes as far as they do. -/
def numChar (c : Char) : Bool := isDigit c || (65 ≤ c.toNat && c.toNat ≤ 90) || (97 ≤ c.toNat && c.toNat ≤ 122) || c == '.' || c == '_'

/-- The number hexadecimal digits stand for. -/
def hexNat : Nat → Str → Option Nat
  | acc, [] => some acc
  | acc, c :: r => (hexVal c).bind fun d => hexNat (acc * 16 + d) r

/-- An integer literal: decimal without zeros in front, or hexadecimal.  (Those with `0o`,
`0b` and underscores are left out.) -/
def readNat : Str → Option Nat
  | [] => none
  | c :: r =>
    if c = '0' ∧ (r.head? = some 'x' ∨ r.head? = some 'X') then (if r.tail = [] then none else hexNat 0 r.tail)
    else if c = '0' ∧ r.any (· != '0') then none
    else if (c :: r).all isDigit then some (decVal (c :: r)) else none

/-- An integer with or without sign, and what follows. -/
def readInt : Str → Option (Int × Str)
  | '-' :: t => (readNat (t.takeWhile numChar)).map fun n : Nat => (-(n : Int), t.dropWhile numChar)
  | '+' :: t => (readNat (t.takeWhile numChar)).map fun n : Nat => ((n : Int), t.dropWhile numChar)
  | t => (readNat (t.takeWhile numChar)).map fun n : Nat => ((n : Int), t.dropWhile numChar)

/-- White space between brackets. -/
def skipWs (t : Str) : Str := t.dropWhile fun c => c == ' ' || c == '\t' || c == '\n'

mutual
/-- A literal, a list or a dict, and what follows.  The first argument bounds the depth. -/
def readVal (names : Str → Option Char) : Nat → Str → Option (Lit × Str)
  | 0, _ => none
  | f + 1, t =>
    match t.head? with
    | none => none
    | some c =>
      if c = '"' ∨ c = '\'' then (readLit names t).map fun x => (.str x.1, x.2)
      else if c = '[' then (readItems names f t.tail).map fun x => (.list x.1, x.2)
      else if c = '{' then (readPairs names f t.tail).map fun x => (.dict x.1, x.2)
      else if py!"None".isPrefixOf t then some (.none, t.drop 4)
      else (readInt t).map fun x => (.int x.1, x.2)
/-- The items up to the closing bracket. -/
def readItems (names : Str → Option Char) : Nat → Str → Option (Lits × Str)
  | 0, _ => none
  | f + 1, t =>
    if (skipWs t).head? = some ']' then some (.nil, (skipWs t).tail)
    else (readVal names f (skipWs t)).bind fun x =>
      if (skipWs x.2).head? = some ',' then (readItems names f (skipWs x.2).tail).map fun y => (.cons x.1 y.1, y.2)
      else if (skipWs x.2).head? = some ']' then some (.cons x.1 .nil, (skipWs x.2).tail)
      else none
def readPairs (names : Str → Option Char) : Nat → Str → Option (LitPairs × Str)
  | 0, _ => none
  | f + 1, t =>
    if (skipWs t).head? = some '}' then some (.nil, (skipWs t).tail)
    else (readLit names (skipWs t)).bind fun k =>
      if (skipWs k.2).head? = some ':' then
        (readVal names f (skipWs (skipWs k.2).tail)).bind fun x =>
          if (skipWs x.2).head? = some ',' then (readPairs names f (skipWs x.2).tail).map fun y => (.cons k.1 x.1 y.1, y.2)
          else if (skipWs x.2).head? = some '}' then some (.cons k.1 x.1 .nil, (skipWs x.2).tail)
          else none
      else none
end

/-! ## Defaults that are numbers -/

/-- The default of an integer, `"%s" % default`, pyangbind/plugin/pybind.py:884, 901, 934,
971: the text as it is. -/
def intDefault (s : Str) : Str := s

/-- The value of `Decimal(%s)`, the default of a decimal64, pyangbind/plugin/pybind.py:884,
971: an integer literal is an `int`, one with a point a `float`. -/
def decimalDefault (s : Str) : Option Dec :=
  if '.' ∈ s then (match decOfBare s with | .ok x => some (decOfFloat (floatOfDec x)) | .error _ => none)
  else (readInt (s ++ py!")")).map fun x => ⟨x.1, 0⟩

end Pyb
