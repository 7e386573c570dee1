import Verif.Model.DecRange
import Verif.Spec.Scalar

/-! # Ranges of decimal64 types: meaning and text (RFC 6020, 9.3.4)

From the model only the types of decimals and of arguments, and of course nothing of how
ranges are read. -/

namespace Spec
open Py Pyb

/-- `x ≤ y` as numbers: compared in any unit that both are multiples of. -/
def DecLe (x y : Dec) : Prop :=
  ∀ K : Nat, 0 ≤ x.exp + K → 0 ≤ y.exp + K → x.coef * 10 ^ (x.exp + K).toNat ≤ y.coef * 10 ^ (y.exp + K).toNat

/-- A decimal as a module author writes it: a sign, digits, and possibly a point and
digits. -/
structure DecLit where
  neg : Bool
  ip : Str
  fp : Str
  deriving DecidableEq, Repr

structure DecLit.Ok (l : DecLit) : Prop where
  some_digit : l.ip ≠ []
  ip_digits : ∀ c ∈ l.ip, isDigit c = true
  fp_digits : ∀ c ∈ l.fp, isDigit c = true

def DecLit.text (l : DecLit) : Str :=
  (if l.neg then ['-'] else []) ++ (l.ip ++ if l.fp = [] then [] else '.' :: l.fp)

/-- The number digits write. -/
def number (ds : Str) : Nat := ds.foldl (fun a c => a * 10 + (c.toNat - 48)) 0

def DecLit.value (l : DecLit) : Dec :=
  ⟨if l.neg then -(number (l.ip ++ l.fp) : Int) else number (l.ip ++ l.fp), -(l.fp.length : Int)⟩

/-- One part of a range: `none` is `min` as a lower and `max` as an upper bound. -/
inductive DecPart where
  | span (lo hi : Option DecLit)
  | single (v : DecLit)

/-- A part with the white space around it and in it. -/
structure DecWritten where
  part : DecPart
  pre : Nat := 0
  sp1 : Nat := 0
  sp2 : Nat := 0
  post : Nat := 0

def blanks (n : Nat) : Str := List.replicate n ' '

def litText (word : Str) : Option DecLit → Str
  | none => word
  | some l => l.text

def DecWritten.core (w : DecWritten) : Str :=
  match w.part with
  | .span lo hi => litText py!"min" lo ++ (blanks w.sp1 ++ (py!".." ++ (blanks w.sp2 ++ litText py!"max" hi)))
  | .single l => l.text

/-- A whole `range` argument. -/
def decRangeText : List DecWritten → Str
  | [w] => w.core
  | ws => join py!"|" (ws.map fun w => blanks w.pre ++ w.core ++ blanks w.post)

/-- The literals of a part. -/
def DecPart.lits : DecPart → List DecLit
  | .span lo hi => lo.toList ++ hi.toList
  | .single l => [l]

/-- The numbers a part denotes. -/
def DecPart.Contains (x : Dec) : DecPart → Prop
  | .span lo hi => (∀ l, lo = some l → DecLe l.value x) ∧ (∀ h, hi = some h → DecLe x h.value)
  | .single l => DecLe l.value x ∧ DecLe x l.value

def DecAllowed (ws : List DecWritten) (x : Dec) : Prop := ∃ w ∈ ws, w.part.Contains x

/-- `x` is `k / 2 ^ j` for a 53-bit integer `k`. -/
def BinaryFraction (x : Dec) : Prop :=
  ∃ (k : Int) (j : Nat), k.natAbs < 2 ^ 53 ∧ x.coef * 10 ^ x.exp.toNat * 2 ^ j = k * 10 ^ (-x.exp).toNat

/-- `x` is `k / 2 ^ j` for no integer at all. -/
def NoBinaryFraction (x : Dec) : Prop :=
  ∀ (k : Int) (j : Nat), x.coef * 10 ^ x.exp.toNat * 2 ^ j ≠ k * 10 ^ (-x.exp).toNat

end Spec

namespace Spec
open Py Pyb

/-- The value denotes the decimal `x`: it is that decimal, or an integer, or a text of
digits. -/
def DenotesDec (v : DArg) (x : Dec) : Prop :=
  v = .dec x ∨ (∃ n, v = .int n ∧ x = ⟨n, 0⟩) ∨ ∃ l : DecLit, l.Ok ∧ v = .text l.text ∧ x = l.value

/-- A range argument as YANG allows it: digits are digits, and the single values are
ones that a float can hold. -/
structure RangeOk (ws : List DecWritten) : Prop where
  parts : ws ≠ []
  lits : ∀ w ∈ ws, ∀ l ∈ w.part.lits, l.Ok
  singles : ∀ w ∈ ws, ∀ l, w.part = .single l → BinaryFraction l.value

/-- No literal has more than `fd` digits after the point, nor is it out of proportion. -/
def FitsDigits (fd : Nat) (ws : List DecWritten) : Prop :=
  ∀ w ∈ ws, ∀ l ∈ w.part.lits, l.fp.length ≤ fd ∧ (number (l.ip ++ l.fp)) * 10 ^ (fd - l.fp.length) < 10 ^ 28

end Spec
