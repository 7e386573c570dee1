import Verif.Model.Json
import Verif.Py.Dict

/-! # The text of JSON documents

`json.dumps(tree, cls=cls, indent=indent)` at the end of `dumps` (pyangbind/lib/pybindJSON.py:157)
and `json.loads(d, object_pairs_hook=OrderedDict)` in the readers
(pyangbind/lib/pybindJSON.py:54, 63, 72, 80).  Both are Python's standard library, modelled
here as it is documented: texts are ASCII with `\u` escapes, with surrogate pairs for
characters above `U+FFFF`.

Simplified: nothing is limited (Python stops at about a thousand nested values, and at
integers of 4300 digits); `NaN`, `Infinity` and lone surrogates, which Python takes, are refused
by the reader (the model has no such values). -/

namespace Pyb
open Py

/-! ## Writing -/

/-- A hexadecimal digit. -/
def hexDigit (n : Nat) : Char := if n < 10 then Char.ofNat (48 + n) else Char.ofNat (87 + n)

/-- Four hexadecimal digits, `'{0:04x}'.format(n)`. -/
def hexFour (n : Nat) : Str := [hexDigit (n / 4096 % 16), hexDigit (n / 256 % 16), hexDigit (n / 16 % 16), hexDigit (n % 16)]

/-- The escapes with a letter. -/
def shortEscapes : List (Char × Char) :=
  [('"', '"'), ('\\', '\\'), ('\n', 'n'), ('\r', 'r'), ('\t', 't'), (Char.ofNat 12, 'f'), (Char.ofNat 8, 'b')]

/-- A character in a string, `py_encode_basestring_ascii` of the standard library. -/
def jsonChar (c : Char) : Str :=
  match shortEscapes.lookup c with
  | some e => ['\\', e]
  | none =>
    if 32 ≤ c.toNat ∧ c.toNat ≤ 126 then [c]
    else if c.toNat < 0x10000 then '\\' :: 'u' :: hexFour c.toNat
    else '\\' :: 'u' :: (hexFour (0xd800 + (c.toNat - 0x10000) / 1024) ++ ('\\' :: 'u' :: hexFour (0xdc00 + (c.toNat - 0x10000) % 1024)))

/-- A string. -/
def jsonStr (s : Str) : Str := '"' :: (s.flatMap jsonChar ++ ['"'])

/-- The line break before an item at a level; `indent=None` has none. -/
def jsonLine (ind : Option Nat) (lvl : Nat) : Str :=
  match ind with
  | none => []
  | some k => '\n' :: List.replicate (k * lvl) ' '

/-- Between two items. -/
def jsonSep (ind : Option Nat) (lvl : Nat) : Str :=
  match ind with
  | none => [',', ' ']
  | some _ => ',' :: jsonLine ind lvl

mutual
/-- `json.dumps`, pyangbind/lib/pybindJSON.py:157; `fl` is `float.__repr__`. -/
def jsonText (ind : Option Nat) (fl : Int × Int → Str) (lvl : Nat) : J → Str
  | .null => py!"null"
  | .bool b => if b then py!"true" else py!"false"
  | .num n => intStr n
  | .float f => fl f
  | .str s => jsonStr s
  | .arr [] => ['[', ']']
  | .arr (x :: xs) => '[' :: (jsonLine ind (lvl + 1) ++ (jsonText ind fl (lvl + 1) x ++ (jsonElems ind fl (lvl + 1) xs ++ (jsonLine ind lvl ++ [']']))))
  | .obj [] => ['{', '}']
  | .obj ((k, x) :: ms) =>
    '{' :: (jsonLine ind (lvl + 1) ++ (jsonStr k ++ (':' :: ' ' :: (jsonText ind fl (lvl + 1) x ++ (jsonMems ind fl (lvl + 1) ms ++ (jsonLine ind lvl ++ ['}']))))))

/-- The elements after the first. -/
def jsonElems (ind : Option Nat) (fl : Int × Int → Str) (lvl : Nat) : List J → Str
  | [] => []
  | x :: xs => jsonSep ind lvl ++ (jsonText ind fl lvl x ++ jsonElems ind fl lvl xs)

/-- The members after the first. -/
def jsonMems (ind : Option Nat) (fl : Int × Int → Str) (lvl : Nat) : List (Str × J) → Str
  | [] => []
  | (k, x) :: ms => jsonSep ind lvl ++ (jsonStr k ++ (':' :: ' ' :: (jsonText ind fl lvl x ++ jsonMems ind fl lvl ms)))
end

/-! ## Reading -/

/-- White space. -/
def isJsonSpace (c : Char) : Bool := c = ' ' || c = '\t' || c = '\n' || c = '\r'

def skipSpace (s : Str) : Str := s.dropWhile isJsonSpace

/-- The value of a hexadecimal digit. -/
def hexValue (c : Char) : Option Nat :=
  if 48 ≤ c.toNat ∧ c.toNat ≤ 57 then some (c.toNat - 48)
  else if 97 ≤ c.toNat ∧ c.toNat ≤ 102 then some (c.toNat - 87)
  else if 65 ≤ c.toNat ∧ c.toNat ≤ 70 then some (c.toNat - 55)
  else none

/-- Four hexadecimal digits. -/
def readHex : Str → Option (Nat × Str)
  | a :: b :: c :: d :: r =>
    match hexValue a, hexValue b, hexValue c, hexValue d with
    | some a, some b, some c, some d => some (4096 * a + 256 * b + 16 * c + d, r)
    | _, _, _, _ => none
  | _ => none

/-- The second half of a surrogate pair. -/
def readLow (hi : Nat) : Str → Option (Char × Str)
  | '\\' :: 'u' :: r =>
    match readHex r with
    | some (lo, r) =>
      if 0xdc00 ≤ lo ∧ lo < 0xe000 then some (Char.ofNat (0x10000 + (hi - 0xd800) * 1024 + (lo - 0xdc00)), r) else none
    | none => none
  | _ => none

/-- After `\u`. -/
def readUni (s : Str) : Option (Char × Str) :=
  match readHex s with
  | some (n, r) =>
    if 0xd800 ≤ n ∧ n < 0xdc00 then readLow n r
    else if 0xdc00 ≤ n ∧ n < 0xe000 then none
    else some (Char.ofNat n, r)
  | none => none

/-- The characters of the escapes with a letter. -/
def shortUnescapes : List (Char × Char) :=
  [('"', '"'), ('\\', '\\'), ('/', '/'), ('n', '\n'), ('r', '\r'), ('t', '\t'), ('f', Char.ofNat 12), ('b', Char.ofNat 8)]

/-- After a backslash. -/
def readEsc : Str → Option (Char × Str)
  | [] => none
  | c :: r => if c = 'u' then readUni r else (shortUnescapes.lookup c).map fun x => (x, r)

/-- The characters of a string up to the closing quote, `scanstring` of the standard
library; control characters are refused.  The first argument bounds the number of characters. -/
def readStr : Nat → Str → Option (Str × Str)
  | 0, _ => none
  | _ + 1, [] => none
  | n + 1, c :: r =>
    if c = '"' then some ([], r)
    else if c = '\\' then
      match readEsc r with
      | some (x, r) => (readStr n r).map fun p => (x :: p.1, p.2)
      | none => none
    else if c.toNat < 32 then none
    else (readStr n r).map fun p => (c :: p.1, p.2)

/-- Digits: `[0-9]+`. -/
def readDigits (s : Str) : Option (Str × Str) :=
  if s.takeWhile isDigit = [] then none else some (s.takeWhile isDigit, s.dropWhile isDigit)

/-- `0|[1-9][0-9]*`. -/
def readWhole (s : Str) : Option (Str × Str) :=
  if s.head? = some '0' then some (['0'], s.tail) else readDigits s

/-- `-?(0|[1-9][0-9]*)`. -/
def readInteger (s : Str) : Option (Str × Str) :=
  if s.head? = some '-' then (readWhole s.tail).map fun p => ('-' :: p.1, p.2) else readWhole s

/-- `(\.[0-9]+)?`. -/
def readFrac (s : Str) : Str × Str :=
  if s.head? = some '.' then
    match readDigits s.tail with
    | some (d, r) => ('.' :: d, r)
    | none => ([], s)
  else ([], s)

/-- `[-+]?`. -/
def readSign (s : Str) : Str × Str :=
  if s.head? = some '-' ∨ s.head? = some '+' then (s.take 1, s.tail) else ([], s)

/-- `([eE][-+]?[0-9]+)?`. -/
def readExp (s : Str) : Str × Str :=
  if s.head? = some 'e' ∨ s.head? = some 'E' then
    match readDigits (readSign s.tail).2 with
    | some (d, r) => (s.take 1 ++ (readSign s.tail).1 ++ d, r)
    | none => ([], s)
  else ([], s)

/-- A number: an integer, or a float if there is a fraction or an exponent; `rf` is
`float(...)`. -/
def readNumber (rf : Str → Option (Int × Int)) (s : Str) : Option (J × Str) :=
  match readInteger s with
  | none => none
  | some (i, r) =>
    let f := readFrac r
    let e := readExp f.2
    if f.1 = [] ∧ e.1 = [] then
      match intOfStr i with
      | .ok n => some (.num n, r)
      | .error _ => none
    else (rf (i ++ f.1 ++ e.1)).map fun x => (.float x, e.2)

/-- A value that is no string, array or object. -/
def readAtom (rf : Str → Option (Int × Int)) (s : Str) : Option (J × Str) :=
  if startsWith s py!"null" then some (.null, s.drop 4)
  else if startsWith s py!"true" then some (.bool true, s.drop 4)
  else if startsWith s py!"false" then some (.bool false, s.drop 5)
  else readNumber rf s

/-- `OrderedDict(pairs)`: of two members of one name the last one counts. -/
def orderedDict (ps : List (Str × J)) : List (Str × J) := ps.foldl (fun d p => Dict.set d p.1 p.2) []

mutual
/-- `scan_once` of the standard library.  The first argument bounds the depth and the
number of items. -/
def readJson (rf : Str → Option (Int × Int)) : Nat → Str → Option (J × Str)
  | 0, _ => none
  | _ + 1, [] => none
  | n + 1, c :: r =>
    if c = '"' then (readStr (r.length + 1) r).map fun p => (.str p.1, p.2)
    else if c = '[' then
      if (skipSpace r).head? = some ']' then some (.arr [], (skipSpace r).tail)
      else (readElems rf n (skipSpace r)).map fun p => (.arr p.1, p.2)
    else if c = '{' then
      if (skipSpace r).head? = some '}' then some (.obj [], (skipSpace r).tail)
      else (readMems rf n (skipSpace r)).map fun p => (.obj (orderedDict p.1), p.2)
    else readAtom rf (c :: r)

/-- The elements of an array, `JSONArray`. -/
def readElems (rf : Str → Option (Int × Int)) : Nat → Str → Option (List J × Str)
  | 0, _ => none
  | n + 1, s =>
    match readJson rf n s with
    | none => none
    | some (x, r) =>
      if (skipSpace r).head? = some ',' then
        (readElems rf n (skipSpace (skipSpace r).tail)).map fun p => (x :: p.1, p.2)
      else if (skipSpace r).head? = some ']' then some ([x], (skipSpace r).tail)
      else none

/-- The members of an object, `JSONObject`. -/
def readMems (rf : Str → Option (Int × Int)) : Nat → Str → Option (List (Str × J) × Str)
  | 0, _ => none
  | n + 1, s =>
    if s.head? = some '"' then
      match readStr (s.tail.length + 1) s.tail with
      | none => none
      | some (k, r) =>
        if (skipSpace r).head? = some ':' then
          match readJson rf n (skipSpace (skipSpace r).tail) with
          | none => none
          | some (x, r) =>
            if (skipSpace r).head? = some ',' then
              (readMems rf n (skipSpace (skipSpace r).tail)).map fun p => ((k, x) :: p.1, p.2)
            else if (skipSpace r).head? = some '}' then some ([(k, x)], (skipSpace r).tail)
            else none
        else none
    else none
end

/-- `json.loads(s, object_pairs_hook=OrderedDict)`; `JSONDecodeError` is a `ValueError`. -/
def jsonParse (rf : Str → Option (Int × Int)) (s : Str) : Except Err J :=
  match readJson rf (s.length + 1) (skipSpace s) with
  | some (j, r) => if skipSpace r = [] then .ok j else .error .valueError
  | none => .error .valueError

/-! ## Files -/

/-- A thing that happens to a file: it is emptied, or a character arrives at its end. -/
inductive FileStep where
  | truncate
  | put (c : Char)

def FileStep.apply (f : Option Str) : FileStep → Option Str
  | .truncate => some []
  | .put c => some (f.getD [] ++ [c])

/-- What `dump` does to the file, and the exception it ends with,
pyangbind/lib/pybindJSON.py:160-166: the file is opened (which empties it) before the
document is made, and then written.  `opens` says if it can be opened (`pybindJSONIOError`, the
`IOError` of the model is `runtimeError`); `doc` is the result of `dumps`.  Output is
buffered, so the characters reach the file some time before `close` returns, in order. -/
def dumpSteps (opens : Bool) (doc : Except Err Str) : List FileStep × Option Err :=
  if opens then
    match doc with
    | .ok s => (.truncate :: s.map .put, none)
    | .error e => ([.truncate], some e)
  else ([], some .runtimeError)

/-- The file when all this has happened. -/
def fileAfter (f : Option Str) (steps : List FileStep) : Option Str := steps.foldl FileStep.apply f

/-- The document that `loads` and `loads_ietf` read, pyangbind/lib/pybindJSON.py:47-66: a text
is parsed, anything else is taken as it is. -/
def loadsDoc (rf : Str → Option (Int × Int)) : J → Except Err J
  | .str s => jsonParse rf s
  | j => .ok j

/-- The document that `load` and `load_ietf` read, pyangbind/lib/pybindJSON.py:69-83: the
content of the file is parsed, and given to `loads`. -/
def loadDoc (rf : Str → Option (Int × Int)) : Option Str → Except Err J
  | none => .error .runtimeError
  | some s => (jsonParse rf s).bind (loadsDoc rf)

end Pyb
