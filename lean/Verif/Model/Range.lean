import Verif.Py.Val

/-! # Range and length expressions

`RestrictedClassType.__new__`, pyangbind/lib/yangtypes.py:230-295, and the
generator's splitting of the YANG argument, pyangbind/plugin/pybind.py:1237-1249. -/

namespace Pyb
open Py

/-- The character class `[0-9\.]`. -/
def isNumChar (c : Char) : Bool := isDigit c || c = '.'

/-- `\-?`: an optional minus sign (sign, rest). -/
def splitSign : Str → Str × Str
  | [] => ([], [])
  | c :: cs => if c = '-' then (['-'], cs) else ([], c :: cs)

/-- `[-]?[0-9\.]+` matched greedily at the start: (matched, rest). -/
def matchNumber (s : Str) : Option (Str × Str) :=
  let sg := (splitSign s).1
  let t := (splitSign s).2
  let run := t.takeWhile isNumChar
  if run = [] then none else some (sg ++ run, t.dropWhile isNumChar)

/-- The part of `range_regex` after `low`: `([ ]+)?\.\.([ ]+)?(\-?[0-9\.]+|max)`.
Returns (high, rest).  No backtracking is possible here: a space never matches
the next atom, and nothing follows `high`. -/
def matchTail (s : Str) : Option (Str × Str) :=
  match s.dropWhile (· = ' ') with
  | '.' :: '.' :: t =>
    let t := t.dropWhile (· = ' ')
    match matchNumber t with
    | some r => some r
    | none => if py!"max".isPrefixOf t then some (py!"max", t.drop 3) else none
  | _ => none

/-- Backtracking over the length of the greedy run `[0-9\.]+` of `low`:
longest first. -/
def tryLow (s : Str) : Nat → Option (Str × Str × Str)
  | 0 => none
  | k + 1 =>
    match matchTail (s.drop (k + 1)) with
    | some (h, r) => some (s.take (k + 1), h, r)
    | none => tryLow s k

/-- `range_regex` matched at the start of `s`: (low, high, rest).
pyangbind/lib/yangtypes.py:230. -/
def matchRange (s : Str) : Option (Str × Str × Str) :=
  let sg := (splitSign s).1
  let t := (splitSign s).2
  match tryLow t (t.takeWhile isNumChar).length with
  | some (l, h, r) => some (sg ++ l, h, r)
  | none =>
    if py!"min".isPrefixOf s then
      match matchTail (s.drop 3) with
      | some (h, r) => some (py!"min", h, r)
      | none => none
    else none

/-- `range_regex.sub(r"\g<low>,\g<high>", s)`: every non-overlapping match, scanning
from the left.  The first argument is a step bound (`s.length` suffices). -/
def subRange : Nat → Str → Str
  | 0, _ => []
  | _ + 1, [] => []
  | f + 1, c :: cs =>
    match matchRange (c :: cs) with
    | some (l, h, r) => l ++ py!"," ++ h ++ subRange f r
    | none => c :: subRange f cs

/-- A `low_high_tuples` item: a pair of optional bounds or a single value. -/
inductive Chk where
  | pair (lo hi : Option PyVal)
  | single (v : PyVal)
  deriving DecidableEq, Repr

/-- `conv(s) if not s == word else None`. -/
def convBound (conv : PyVal → Except Err PyVal) (word s : Str) : Except Err (Option PyVal) :=
  if s = word then .ok none else (conv (.str s)).map some

/-- `build_length_range_tuples`, pyangbind/lib/yangtypes.py:255-273.  `conv` is
`base_type` for a range and `int` for a length (the multiplier is always 1).  The
single-value regular expression only has to match at the start; its `sub` replaces
matches by themselves, so the whole text is converted. -/
def buildChk (conv : PyVal → Except Err PyVal) (spec : Str) : Except Err Chk :=
  match matchRange spec with
  | some _ =>
    match splitOn ',' (subRange spec.length spec) with
    | [low, high] => do
      let hi ← convBound conv py!"max" high
      let lo ← convBound conv py!"min" low
      pure (.pair lo hi)
    | _ => .error .valueError
  | none =>
    match matchNumber spec with
    | some _ => (conv (.str spec)).map .single
    | none => .error .valueError

/-- One tuple of `range_check`, pyangbind/lib/yangtypes.py:281-291. -/
def Chk.run (value : PyVal) : Chk → Except Err Bool
  | .pair lo hi => do
    let below ← match lo with
      | none => pure false
      | some l => value.lt l
    let above ← match hi with
      | none => pure false
      | some h => h.lt value
    pure (!below && !above)
  | .single v =>
    -- `value != float(check_tuple[0])`
    match v.num? with
    | none => .error .valueError
    | some n => do
      let f ← floatOfInt n
      match value.num? with
      | some x => pure (decide (x = f))
      | none => pure false

/-- `in_range_check(...)(value)`, pyangbind/lib/yangtypes.py:275-295. -/
def rangeCheck (ts : List Chk) (value : PyVal) : Except Err Bool := do
  let rs ← ts.mapM (Chk.run value)
  pure (rs.contains true)

/-- How the generator turns the YANG `range`/`length` argument into the list given
to `RestrictedClassType`, pyangbind/plugin/pybind.py:1237-1249. -/
def genSpecs (arg : Str) : List Str :=
  if '|' ∈ arg then (splitOn '|' arg).map (replaceBy ' ' []) else [arg]

end Pyb
