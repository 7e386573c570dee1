import Verif.Py.Dec

/-! # The Python values users assign to leaves -/

namespace Py

/-- Values beyond the plain ones.

* `dec`: a `Decimal`
* `float`: a float `m * 2 ^ e`, with its text (infinities and NaN are left out)
* `bytes`: a bytes object of class `YANGBinary`
* `bits`: a bits value, as the list of its bits in the order of its text -/
inductive PyObj where
  | dec (x : Dec)
  | float (f : Int × Int) (repr : Str)
  | bytes (b : List Nat)
  | bits (names : List Str)
  deriving DecidableEq, Repr

namespace PyObj

/-- `bool(v)`. -/
def truthy : PyObj → Bool
  | .dec x => x.coef ≠ 0
  | .float f _ => f.1 ≠ 0
  | .bytes b => b ≠ []
  | .bits ns => ns ≠ []

/-- The text of octets: `str(b, "ascii", "replace")`, pyangbind/lib/yangtypes.py:1373-1374. -/
def asciiText (b : List Nat) : Str := b.map fun n => if n < 128 then Char.ofNat n else '\uFFFD'

/-- `str(v)`.  (Bytes that are no `YANGBinary` would give `b'...'`.) -/
def toStr : PyObj → Str
  | .dec x => decStr x
  | .float _ r => r
  | .bytes b => asciiText b
  | .bits ns => join [' '] ns

/-- `int(v)`. -/
def toInt : PyObj → Except Err Int
  | .dec x => .ok x.trunc
  | .float f _ => .ok (decOfFloat f).trunc
  | .bytes b => intOfStr (asciiText b)
  | .bits _ => .error .typeError

/-- `len(v)`. -/
def len : PyObj → Except Err Nat
  | .bytes b => .ok b.length
  | .bits ns => .ok ns.length
  | _ => .error .typeError

/-- The integer a value is equal to, if there is one. -/
def num? : PyObj → Option Int
  | .dec x => x.int?
  | .float f _ => (decOfFloat f).int?
  | _ => none

/-- Two values that are equal to no integer are equal if this is the same. -/
def norm : PyObj → PyObj
  | .dec x => .dec x.norm
  | .float f _ => .dec (decOfFloat f).norm
  | o => o

end PyObj

/-- A Python value.  `seq` stands for a list, tuple, set or dict; only its text
form and its length matter to the code. -/
inductive PyVal where
  | none
  | bool (b : Bool)
  | int (n : Int)
  | str (s : Str)
  | seq (repr : Str) (len : Nat)
  | obj (o : PyObj)
  deriving DecidableEq, Repr

namespace PyVal

/-- `bool(v)`. -/
def truthy : PyVal → Bool
  | .none => false
  | .bool b => b
  | .int n => n ≠ 0
  | .str s => s ≠ []
  | .seq _ n => n ≠ 0
  | .obj o => o.truthy

/-- `str(v)`. -/
def toStr : PyVal → Str
  | .none => py!"None"
  | .bool true => py!"True"
  | .bool false => py!"False"
  | .int n => intStr n
  | .str s => s
  | .seq r _ => r
  | .obj o => o.toStr

/-- `int(v)`. -/
def toInt : PyVal → Except Err Int
  | .none => .error .typeError
  | .bool b => .ok (if b then 1 else 0)
  | .int n => .ok n
  | .str s => intOfStr s
  | .seq _ _ => .error .typeError
  | .obj o => o.toInt

/-- `len(v)`. -/
def len : PyVal → Except Err Nat
  | .str s => .ok s.length
  | .seq _ n => .ok n
  | .obj o => o.len
  | _ => .error .typeError

/-- The integer a value is equal to, if there is one. -/
def num? : PyVal → Option Int
  | .bool b => some (if b then 1 else 0)
  | .int n => some n
  | .obj o => o.num?
  | _ => Option.none

/-- Two values that are equal to no integer are equal if this is the same. -/
def norm : PyVal → PyVal
  | .obj o => .obj o.norm
  | v => v

/-- `a < b`.  Only integers are compared by the modelled code (range bounds are
always integers; decimals and floats other than zero have been converted); anything else against a number raises `TypeError`. -/
def lt (a b : PyVal) : Except Err Bool :=
  match a.num?, b.num? with
  | some x, some y => .ok (decide (x < y))
  | _, _ => .error .typeError

end PyVal

/-- `a == b` on the values considered. -/
def pyEq (a b : PyVal) : Bool :=
  match a.num?, b.num? with
  | some x, some y => decide (x = y)
  | some _, none => false
  | none, some _ => false
  | none, none => decide (a.norm = b.norm)

/-- `v in xs` for a Python list. -/
def pyIn (v : PyVal) (xs : List PyVal) : Bool := xs.any fun x => pyEq x v

/-- `float(n)` for an `int`: rounding to nearest, ties to even, with a 53-bit
significand (IEEE 754 binary64); the value is returned as the integer it is.
`OverflowError` beyond the largest double. -/
def floatOfInt (n : Int) : Except Err Int :=
  let m := n.natAbs
  if m < 2 ^ 53 then .ok n
  else
    let e := m.log2 - 52
    let q := m / 2 ^ e
    let r := m % 2 ^ e
    let q' := if 2 * r > 2 ^ e ∨ (2 * r = 2 ^ e ∧ q % 2 = 1) then q + 1 else q
    let v := q' * 2 ^ e
    if v ≥ 2 ^ 1024 then .error .overflowError
    else .ok (if n < 0 then -(v : Int) else v)

end Py
