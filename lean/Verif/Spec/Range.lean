import Verif.Py.Val

/-! # YANG range and length expressions: meaning and text (RFC 6020, 9.2.4, 9.4.4) -/

namespace Spec
open Py

/-- One range part.  `none` is `min` (as a lower) or `max` (as an upper bound). -/
inductive RangePart where
  | span (lo hi : Option Int)
  | single (n : Int)
  deriving DecidableEq, Repr

/-- The numbers a part denotes. -/
def RangePart.Contains (n : Int) : RangePart → Prop
  | .span lo hi => (∀ l, lo = some l → l ≤ n) ∧ (∀ h, hi = some h → n ≤ h)
  | .single m => n = m

/-- A part with the white space a module author wrote: `pre part post` around it,
and `low sp1 .. sp2 high` inside. -/
structure WrittenPart where
  part : RangePart
  pre : Nat := 0
  sp1 : Nat := 0
  sp2 : Nat := 0
  post : Nat := 0

def spaces (n : Nat) : Str := List.replicate n ' '

def boundText (dflt : Str) : Option Int → Str
  | none => dflt
  | some n => intStr n

/-- The text of a part without the outer white space. -/
def WrittenPart.core (w : WrittenPart) : Str :=
  match w.part with
  | .span lo hi => boundText py!"min" lo ++ spaces w.sp1 ++ py!".." ++ spaces w.sp2 ++ boundText py!"max" hi
  | .single n => intStr n

/-- The text of a whole `range` or `length` argument: parts separated by `|`;
white space may surround a `|`, but not the argument. -/
def rangeText : List WrittenPart → Str
  | [w] => w.core
  | ws => join py!"|" (ws.map fun w => spaces w.pre ++ w.core ++ spaces w.post)

/-- A number is allowed by an argument iff one of its parts contains it. -/
def Allowed (ws : List WrittenPart) (n : Int) : Prop := ∃ w ∈ ws, w.part.Contains n

/-- Every explicit bound lies in `[lo, hi]` (a derived range must be within the
range of its base type). -/
def BoundsWithin (lo hi : Int) (ws : List WrittenPart) : Prop :=
  ∀ w ∈ ws, match w.part with
    | .span l h => (∀ x, l = some x → lo ≤ x ∧ x ≤ hi) ∧ (∀ x, h = some x → lo ≤ x ∧ x ≤ hi)
    | .single x => lo ≤ x ∧ x ≤ hi

end Spec
