import Verif.Model.Restricted

/-! # Enumerations, booleans, binary, bits, decimal64 and unions -/

namespace Pyb
open Py

/-! ## Enumeration values -/

/-- `while c in used_values: c += 1`, pyangbind/lib/yangtypes.py:350-351.  The first
argument bounds the number of steps; `used.length` steps always suffice. -/
def skipUsed (used : List Int) : Nat → Int → Int
  | 0, c => c
  | f + 1, c => if c ∈ used then skipUsed used f (c + 1) else c

/-- The loop over the keys, pyangbind/lib/yangtypes.py:349-354. -/
def fillLoop (used : List Int) : Int → List (Str × Option Int) → List (Str × Int)
  | _, [] => []
  | c, (k, v) :: es =>
    let c := skipUsed used used.length c
    (k, v.getD c) :: fillLoop used (c + 1) es

/-- Populating the enumeration values, pyangbind/lib/yangtypes.py:338-356.  An
entry is an enum name with the argument of its `value` statement, if any
(pyangbind/plugin/pybind.py:1277-1283), in the order of the module. -/
def enumValues (es : List (Str × Option Int)) : List (Str × Int) :=
  let es := es.filter fun e => !startsWith e.1 py!"@"
  fillLoop (es.filterMap fun e => e.2) 0 es

/-- The type generated for an enumeration, pyangbind/plugin/pybind.py:1277-1295;
identityrefs get the same kind of class with the table of identities. -/
def enumTy (names : List Str) : RTy := .restr (.base .str) [.dictKey names]

/-! ## Booleans -/

def falseArgs : List PyVal := [.str py!"false", .str py!"False", .bool false, .int 0, .str py!"0"]
def trueArgs : List PyVal := [.str py!"true", .str py!"True", .bool true, .int 1, .str py!"1"]

/-- `YANGBool.__new__` with one argument, pyangbind/lib/yangtypes.py:884-893.  The
stored `int` is 0 or 1; here it is returned as a truth value. -/
def yangBool (v : PyVal) : Except Err Bool :=
  if !((falseArgs ++ trueArgs).any (pyEq v)) then .error .valueError
  else .ok (!(falseArgs.any (pyEq v)))

/-- Assigning to a boolean leaf; `ValueError` passes through every layer. -/
def setBool (v : PyVal) : Except Err Bool :=
  match yangBool v with
  | .error .typeError => .error .valueError
  | r => r

/-! ## Binary -/

def b64Alphabet : Str := py!"ABCDEFGHIJKLMNOPQRSTUVWXYZabcdefghijklmnopqrstuvwxyz0123456789+/"

def b64Char (n : Nat) : Char := b64Alphabet.getD n 'A'

/-- `base64.b64encode`, RFC 4648 section 4, on bytes as numbers below 256. -/
def b64encode : List Nat → Str
  | a :: b :: c :: rest =>
    b64Char (a / 4) :: b64Char (a % 4 * 16 + b / 16) :: b64Char (b % 16 * 4 + c / 64) ::
      b64Char (c % 64) :: b64encode rest
  | [a, b] => [b64Char (a / 4), b64Char (a % 4 * 16 + b / 16), b64Char (b % 16 * 4), '=']
  | [a] => [b64Char (a / 4), b64Char (a % 4 * 16), '=', '=']
  | [] => []

/-- The value of a character of the alphabet. -/
def b64Val (c : Char) : Option Nat :=
  let i := b64Alphabet.idxOf c
  if i < 64 then some i else none

/-- `base64.b64decode(s)` (no validation), i.e. CPython's `a2b_base64` in its
non-strict mode: characters outside the alphabet are skipped, a complete padding
ends the input.  `q` is the position in the quad, `left` the left-over bits, `pads`
the number of padding characters just seen. -/
def b64loop : Nat → Nat → Nat → Str → Except Err (List Nat)
  | q, _, _, [] => if q = 0 then .ok [] else .error .valueError
  | q, left, pads, c :: cs =>
    if c = '=' then
      if q ≥ 2 ∧ q + (pads + 1) ≥ 4 then .ok []
      else b64loop q left (if q ≥ 2 then pads + 1 else pads) cs
    else match b64Val c with
      | none => b64loop q left pads cs
      | some v =>
        if q = 0 then b64loop 1 v 0 cs
        else if q = 1 then (b64loop 2 (v % 16) 0 cs).map ((left * 4 + v / 16) % 256 :: ·)
        else if q = 2 then (b64loop 3 (v % 4) 0 cs).map ((left * 16 + v / 4) % 256 :: ·)
        else (b64loop 0 0 0 cs).map ((left * 64 + v) % 256 :: ·)

/-- Text with characters beyond ASCII is refused. -/
def b64decode (s : Str) : Except Err (List Nat) :=
  if s.all (·.toNat < 128) then b64loop 0 0 0 s else .error .valueError

/-- What may be assigned to a binary leaf: text or bytes. -/
inductive BinArg where
  | text (s : Str)
  | bytes (b : List Nat)
  | other

/-- `YANGBinary.__new__`, pyangbind/lib/yangtypes.py:1357-1368. -/
def yangBinary : BinArg → Except Err (List Nat)
  | .text s => b64decode s
  | .bytes b => .ok b
  | .other => .error .valueError

/-- How a binary leaf is written by the JSON serialisers,
pyangbind/lib/serialise.py:129-130. -/
def dumpBinary (b : List Nat) : Str := b64encode b

/-! ## Bits -/

/-- The generator's table of bit positions, pyangbind/plugin/pybind.py:1355-1364: the
position is kept as the text of the argument; without a `position` statement the
generator computes `1 + max(allowed_bits)`, the maximum of the *names*, and fails. -/
def genBits : List (Str × Option Str) → List (Str × Str) → Except Err (List (Str × Str))
  | [], acc => .ok acc
  | (n, some p) :: bs, acc => genBits bs (acc ++ [(n, p)])
  | (_, none) :: _, acc => .error (if acc = [] then .valueError else .typeError)

/-- `a <= b` on `str`. -/
def strLe : Str → Str → Bool
  | [], _ => true
  | _ :: _, [] => false
  | a :: as, b :: bs => a.toNat < b.toNat || (a.toNat == b.toNat && strLe as bs)

def insertBy {α : Type} (key : α → Str) (x : α) : List α → List α
  | [] => [x]
  | y :: ys => if strLe (key x) (key y) then x :: y :: ys else y :: insertBy key x ys

/-- `sorted(xs, key=key)` (stable). -/
def sortBy {α : Type} (key : α → Str) : List α → List α
  | [] => []
  | x :: xs => insertBy key x (sortBy key xs)

/-- `s.split()`: the maximal runs of non-space characters; `cur` is the run being
read. -/
def wordsFrom : Str → Str → List Str
  | cur, [] => if cur = [] then [] else [cur]
  | cur, c :: cs =>
    if isSpace c then
      if cur = [] then wordsFrom [] cs else cur :: wordsFrom [] cs
    else wordsFrom (cur ++ [c]) cs

def words (s : Str) : List Str := wordsFrom [] s

/-- A bits value: the table of its type and the set of names, as a duplicate-free
list in some order. -/
abbrev BitSet := List Str

/-- The methods of `YANGBits` (and the assignment of a text, which builds a new
value), pyangbind/lib/yangtypes.py:1404-1440.  `pop` removes an arbitrary element:
here the given one. -/
inductive BitOp where
  | assign (text : Str)
  | add (bit : Str)
  | discard (bit : Str)
  | remove (bit : Str)
  | pop (bit : Str)
  | clear

/-- `add`. -/
def bitAdd (allowed : List (Str × Str)) (s : BitSet) (b : Str) : Except Err BitSet :=
  if b ∈ allowed.map Prod.fst then .ok (if b ∈ s then s else s ++ [b]) else .error .valueError

/-- `__init__`: add every word. -/
def bitAddAll (allowed : List (Str × Str)) : BitSet → List Str → Except Err BitSet
  | s, [] => .ok s
  | s, b :: bs => do
    let s ← bitAdd allowed s b
    bitAddAll allowed s bs

def bitStep (allowed : List (Str × Str)) (s : BitSet) : BitOp → Except Err BitSet
  | .assign t => bitAddAll allowed [] (words t)
  | .add b => bitAdd allowed s b
  | .discard b => if b ∈ allowed.map Prod.fst then .ok (s.filter (· ≠ b)) else .error .valueError
  | .remove b => if b ∈ s then .ok (s.filter (· ≠ b)) else .error .keyError
  | .pop b => if b ∈ s then .ok (s.filter (· ≠ b)) else .error .keyError
  | .clear => .ok []

/-- A history of operations; an operation that raises leaves the value unchanged. -/
def bitRun (allowed : List (Str × Str)) : BitSet → List BitOp → BitSet
  | s, [] => s
  | s, op :: ops =>
    bitRun allowed (match bitStep allowed s op with | .ok s' => s' | .error _ => s) ops

/-- `__str__`, pyangbind/lib/yangtypes.py:1442-1445.  `order` is the order in which
Python iterates over the set. -/
def bitText (allowed : List (Str × Str)) (order : List Str) : Str :=
  join py!" " (sortBy (fun b => (allowed.lookup b).getD []) order)

/-! ## decimal64 -/

/-- `Decimal.quantize(Decimal("1E-fd"))` in the default context (28 digits,
ROUND_HALF_EVEN): `InvalidOperation` if the result has more than 28 digits. -/
def quantize (x : Dec) (fd : Nat) : Except Err Dec :=
  let k := if -(fd : Int) ≤ x.exp then x.coef * 10 ^ (x.exp + fd).toNat
    else divHalfEven x.coef (10 ^ (-(fd : Int) - x.exp).toNat)
  if k.natAbs < 10 ^ 28 then .ok ⟨k, -fd⟩ else .error .invalidOperation

/-- The type generated for a `decimal64`, applied to a decimal value.  Without a
`range` it is a `RestrictedPrecisionDecimal` (pyangbind/lib/yangtypes.py:134-168);
with a range the generator takes the earlier branch over plain `Decimal`
(pyangbind/plugin/pybind.py:1251-1270), whose range check is passed here.
`str(10.0 ** -fd)` is taken to be the text of `1E-fd`. -/
def setDecimal (fd : Nat) (inRange : Option (Dec → Bool)) (x : Dec) : Except Err Dec :=
  match inRange with
  | none => quantize x fd
  | some ok => if ok x then .ok x else .error .valueError

/-! ## The three as classes of values -/

/-- `decimal64` (without a range), `binary` (without a length) and `bits`, with the table
of the generator. -/
inductive ExtTy where
  | dec (fd : Nat)
  | bin
  | bits (allowed : List (Str × Str))

/-- `Decimal(v)` of Python's `decimal` module. -/
def toDecimal : PyVal → Except Err Dec
  | .bool b => .ok ⟨if b then 1 else 0, 0⟩
  | .int n => .ok ⟨n, 0⟩
  | .str s => decOfStr s
  | .obj (.dec x) => .ok x
  | .obj (.float f _) => .ok (decOfFloat f)
  | .seq _ _ => .error .valueError
  | _ => .error .typeError

/-- The argument of a binary leaf. -/
def binArg : PyVal → BinArg
  | .str s => .text s
  | .obj (.bytes b) => .bytes b
  | _ => .other

/-- The bits in the order of their text: `sorted(self, key=...)`,
pyangbind/lib/yangtypes.py:1444-1445.  Bits with the same position, which YANG does not
allow, would come in the order in which Python iterates over the set. -/
def bitSort (allowed : List (Str × Str)) (s : BitSet) : List Str := sortBy (fun b => (allowed.lookup b).getD []) s

/-- `__init__` of `YANGBits`, pyangbind/lib/yangtypes.py:1404-1411: only texts (and bytes)
have a method `split`; the words of bytes are no names of bits. -/
def bitsInit (allowed : List (Str × Str)) : PyVal → Except Err PyVal
  | .str s => (bitAddAll allowed [] (words s)).map fun s => .obj (.bits (bitSort allowed s))
  | .obj (.bytes b) => if (PyObj.asciiText b).all isSpace then .ok (.obj (.bits [])) else .error .valueError
  | _ => .error .attributeError

/-- Calling the class with one argument: pyangbind/lib/yangtypes.py:150-165, 1357-1368,
1404-1411. -/
def ExtTy.call : ExtTy → PyVal → Except Err PyVal
  | .dec fd, v => do .ok (.obj (.dec (← quantize (← toDecimal v) fd)))
  | .bin, v => (yangBinary (binArg v)).map fun b => .obj (.bytes b)
  | .bits allowed, v => bitsInit allowed v

/-- Calling it without argument. -/
def ExtTy.zero : ExtTy → PyVal
  | .dec _ => .obj (.dec ⟨0, 0⟩)
  | .bin => .obj (.bytes [])
  | .bits _ => .obj (.bits [])

/-- Building the leaf: `YANGBaseClass` catches `TypeError` and goes on without argument
(pyangbind/lib/yangtypes.py:1014-1021, 1087-1092). -/
def ExtTy.dyn (x : ExtTy) (v : PyVal) : Except Err PyVal :=
  match x.call v with
  | .error .typeError => .ok x.zero
  | r => r

/-! ## Unions -/

/-- Member types considered. -/
inductive LeafTy where
  | restr (T : RTy)
  | bool
  | ext (x : ExtTy)

/-- Calling the member type: `candidate_type(args[0])`. -/
def LeafTy.call (rx : Str → Str → Bool) : LeafTy → PyVal → Except Err PyVal
  | .restr T, v => (T.cls rx).call (some v)
  | .bool, v => (yangBool v).map .bool
  | .ext x, v => x.call v

/-- Building the leaf with that type as its base. -/
def LeafTy.dyn (rx : Str → Str → Bool) : LeafTy → PyVal → Except Err PyVal
  | .restr T, v => dynLeaf rx T v
  | .bool, v => (yangBool v).map .bool
  | .ext x, v => x.dyn v

/-- The choice of a member, pyangbind/lib/yangtypes.py:953-971, then the leaf; the
setter turns `TypeError` into `ValueError`. -/
def setUnion (rx : Str → Str → Bool) (ts : List LeafTy) (v : PyVal) : Except Err PyVal :=
  match ts.find? (fun t => (t.call rx v).toBool) with
  | none => .error .valueError
  | some t =>
    match t.dyn rx v with
    | .error .typeError => .error .valueError
    | r => r

end Pyb
