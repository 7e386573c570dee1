import Verif.Py.Str

/-! # Decimals and floats -/

namespace Py

/-- A finite `Decimal`: `coef * 10 ^ exp` (negative zero is not distinguished). -/
structure Dec where
  coef : Int
  exp : Int
  deriving DecidableEq, Repr

/-- `"%+d" % n`. -/
def signedStr (n : Int) : Str := if n < 0 then intStr n else '+' :: intStr n

/-- `str(x)`, after the documentation of Python's `decimal` module (`_pydecimal.py`,
`Decimal.__str__`). -/
def decStr (x : Dec) : Str :=
  let ds := natStr x.coef.natAbs
  let left := x.exp + ds.length
  let dot : Int := if x.exp ≤ 0 ∧ left > -6 then left else 1
  let body :=
    if dot ≤ 0 then '0' :: '.' :: (List.replicate (-dot).toNat '0' ++ ds)
    else if dot ≥ ds.length then ds ++ List.replicate (dot - ds.length).toNat '0'
    else ds.take dot.toNat ++ '.' :: ds.drop dot.toNat
  let ex := if left = dot then [] else 'E' :: signedStr (left - dot)
  (if x.coef < 0 then ['-'] else []) ++ (body ++ ex)

/-- `Decimal(f)` of a float `m * 2 ^ e`: exact. -/
def decOfFloat (f : Int × Int) : Dec :=
  if 0 ≤ f.2 then ⟨f.1 * 2 ^ f.2.toNat, 0⟩ else ⟨f.1 * 5 ^ (-f.2).toNat, f.2⟩

/-- `int(x)`: the digits after the point are dropped. -/
def Dec.trunc (x : Dec) : Int :=
  if 0 ≤ x.exp then x.coef * 10 ^ x.exp.toNat else x.coef.tdiv (10 ^ (-x.exp).toNat)

/-- The integer a decimal is equal to, if there is one. -/
def Dec.int? (x : Dec) : Option Int :=
  if 0 ≤ x.exp then some (x.coef * 10 ^ x.exp.toNat)
  else if x.coef % 10 ^ (-x.exp).toNat = 0 then some (x.coef / 10 ^ (-x.exp).toNat) else none

/-- Dropping zeros at the end of the coefficient, at most as many as the first argument. -/
def Dec.strip : Nat → Dec → Dec
  | 0, x => x
  | f + 1, x => if x.coef % 10 = 0 then strip f ⟨x.coef / 10, x.exp + 1⟩ else x

/-- The decimal without zeros at the end: equal decimals that are no integers have the
same. -/
def Dec.norm (x : Dec) : Dec := x.strip (natStr x.coef.natAbs).length

/-- The number written by a sequence of digits. -/
def decVal (s : Str) : Nat := s.foldl (fun a c => a * 10 + (c.toNat - 48)) 0

/-- `Decimal(s)` without sign: digits with at most one point, then possibly an exponent.
(`Infinity` and `NaN` are not modelled.) -/
def decOfUnsigned (s : Str) : Except Err (Nat × Int) :=
  let m := s.takeWhile (fun c => c ≠ 'E' && c ≠ 'e')
  let ex := s.dropWhile (fun c => c ≠ 'E' && c ≠ 'e')
  let ip := m.takeWhile (· ≠ '.')
  let fp := (m.dropWhile (· ≠ '.')).tail
  if ip ++ fp = [] ∨ !(ip ++ fp).all isDigit then .error .invalidOperation
  else match ex with
    | [] => .ok (decVal (ip ++ fp), -(fp.length : Int))
    | _ :: e =>
      match parseSigned e with
      | some n => .ok (decVal (ip ++ fp), n - fp.length)
      | none => .error .invalidOperation

/-- The number a text without spaces and underscores is. -/
def decOfBare (s : Str) : Except Err Dec :=
  match s with
  | '-' :: s => (decOfUnsigned s).map fun r => ⟨-(r.1 : Int), r.2⟩
  | '+' :: s => (decOfUnsigned s).map fun r => ⟨r.1, r.2⟩
  | s => (decOfUnsigned s).map fun r => ⟨r.1, r.2⟩

/-- `Decimal(s)`: white space around the text and all underscores are dropped. -/
def decOfStr (s : Str) : Except Err Dec := decOfBare ((strip s).filter (· ≠ '_'))

/-- Division rounding to nearest, ties to even. -/
def divHalfEven (m : Int) (d : Nat) : Int :=
  let q := m / (d : Int)
  let r := m % (d : Int)
  if 2 * r < d then q
  else if 2 * r > d then q + 1
  else if q % 2 = 0 then q else q + 1

/-- `float(x)`: the 53-bit binary number `m * 2 ^ e` nearest to `x`, ties to even, as
`(m, e)`.  (The bounds of the exponent of a double are not modelled.) -/
def floatOfDec (x : Dec) : Int × Int :=
  let n := x.coef.natAbs * 10 ^ x.exp.toNat
  let d := 10 ^ (-x.exp).toNat
  if n = 0 then (0, 0)
  else
    let e0 : Int := (n.log2 : Int) - d.log2 - 53
    let e := if 2 ^ 53 * (d * 2 ^ e0.toNat) ≤ n * 2 ^ (-e0).toNat then e0 + 1 else e0
    let m := divHalfEven (n * 2 ^ (-e).toNat : Nat) (d * 2 ^ e.toNat)
    (if x.coef < 0 then -m else m, e)

end Py
