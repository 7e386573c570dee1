import Verif.Py.Str

/-! # Regular expressions

The patterns of YANG are the regular expressions of XML Schema (W3C XML Schema Part 2,
appendix F; RFC 6020, 9.4.6), those of the code are handed to the third-party module
`regex`.  The two share most of their syntax; what is here is a common reading of a
pattern text, with the differences that matter:

* `^` and `$` are ordinary characters in XML Schema and anchors in `regex`;
* `.` excludes `\n` and `\r` in XML Schema, only `\n` in `regex`;
* the sets `\d`, `\w`, `\p{L}`, ... are parameters (`\w` differs in `_`, for instance);
* XML Schema has no escape `\$`.

A text outside this common part (class subtraction, `\i`, `\c`, lazy quantifiers, `(?...)`,
unescaped `]` or `}`, ...) has no reading here: `parseRx` gives `none`. -/

namespace Spec
open Py

/-- A member of a class `[...]`. -/
inductive Item where
  | chr (c : Char)
  | range (a b : Char)
  | set (name : Str)
  deriving DecidableEq, Repr

/-- A regular expression. -/
inductive Rx where
  | lit (c : Char)
  | any
  | cls (neg : Bool) (items : List Item)
  | set (name : Str)
  | start
  | fin
  | eps
  | cat (a b : Rx)
  | alt (a b : Rx)
  | rep (r : Rx) (lo : Nat) (hi : Option Nat)
  deriving DecidableEq, Repr

/-- Whose regular expressions? -/
inductive Flavour where
  | xsd
  | py
  deriving DecidableEq, Repr

/-! ## Reading a text -/

inductive Tok where
  | lit (c : Char)
  | any
  | cls (neg : Bool) (items : List Item)
  | set (name : Str)
  | lp
  | rp
  | bar
  | quant (lo : Nat) (hi : Option Nat)
  | caret
  | dollar
  deriving DecidableEq, Repr

/-- A class being read: `last` may be the beginning of a range, `dash` says it was followed
by `-`. -/
structure Cls where
  neg : Bool := false
  items : List Item := []
  last : Option Char := none
  dash : Bool := false

/-- Where in the text? -/
inductive LexSt where
  | norm
  | esc
  | prop (k : Option Cls) (neg : Bool) (name : Option Str)
  | open_
  | cls (k : Cls)
  | clsEsc (k : Cls)
  | lo (digits : Str)
  | hi (lo : Nat) (digits : Str)

/-- A character in a class. -/
def Cls.char (k : Cls) (c : Char) : Option Cls :=
  match k.last, k.dash with
  | some a, true => if a.toNat ≤ c.toNat then some { k with items := k.items ++ [.range a c], last := none, dash := false } else none
  | some a, false => some { k with items := k.items ++ [.chr a], last := some c }
  | none, _ => some { k with last := some c }

/-- A set in a class. -/
def Cls.set (k : Cls) (name : Str) : Option Cls :=
  match k.last, k.dash with
  | _, true => none
  | some a, false => some { k with items := k.items ++ [.chr a, .set name], last := none }
  | none, false => some { k with items := k.items ++ [.set name] }

/-- The members, at the end. -/
def Cls.done (k : Cls) : List Item :=
  k.items ++ (match k.last with | some a => [.chr a] | none => []) ++ (if k.dash then [.chr '-'] else [])

/-- What a character after a backslash stands for. -/
def escChar (fl : Flavour) (c : Char) : Option Char :=
  if c = 'n' then some '\n' else if c = 'r' then some '\r' else if c = 't' then some '\t'
  else if c ∈ ['\\', '|', '.', '?', '*', '+', '(', ')', '{', '}', '-', '[', ']', '^'] then some c
  else if c = '$' ∧ fl = .py then some c else none

def escSet (c : Char) : Bool := c ∈ ['d', 'D', 'w', 'W', 's', 'S']

/-- One character in a class. -/
def clsStep (k : Cls) (c : Char) : Option (LexSt × List Tok) :=
  if c = ']' then if k.done = [] then none else some (.norm, [.cls k.neg k.done])
  else if c = '[' then none
  else if c = '\\' then some (.clsEsc k, [])
  else if c = '-' ∧ k.last ≠ none ∧ k.dash = false then some (.cls { k with dash := true }, [])
  else (k.char c).map fun k => (.cls k, [])

/-- One character. -/
def lexStep (fl : Flavour) : LexSt → Char → Option (LexSt × List Tok)
  | .norm, c =>
    if c = '\\' then some (.esc, [])
    else if c = '[' then some (.open_, [])
    else if c = '{' then some (.lo [], [])
    else if c = '(' then some (.norm, [.lp])
    else if c = ')' then some (.norm, [.rp])
    else if c = '|' then some (.norm, [.bar])
    else if c = '*' then some (.norm, [.quant 0 none])
    else if c = '+' then some (.norm, [.quant 1 none])
    else if c = '?' then some (.norm, [.quant 0 (some 1)])
    else if c = '.' then some (.norm, [.any])
    else if c = '^' then some (.norm, [.caret])
    else if c = '$' then some (.norm, [.dollar])
    else if c = ']' ∨ c = '}' then none
    else some (.norm, [.lit c])
  | .esc, c =>
    if c = 'p' ∨ c = 'P' then some (.prop none (c = 'P') none, [])
    else if escSet c then some (.norm, [.set [c]])
    else (escChar fl c).map fun c => (.norm, [.lit c])
  | .prop k neg none, c => if c = '{' then some (.prop k neg (some []), []) else none
  | .prop k neg (some name), c =>
    if c = '}' then
      match k with
      | none => some (.norm, [.set ((if neg then 'P' else 'p') :: name)])
      | some k => (k.set ((if neg then 'P' else 'p') :: name)).map fun k => (.cls k, [])
    else if c.isAlphanum then some (.prop k neg (some (name ++ [c])), [])
    else none
  | .open_, c => if c = '^' then some (.cls { neg := true }, []) else clsStep {} c
  | .cls k, c => clsStep k c
  | .clsEsc k, c =>
    if c = 'p' ∨ c = 'P' then some (.prop (some k) (c = 'P') none, [])
    else if escSet c then (k.set [c]).map fun k => (.cls k, [])
    else (escChar fl c).bind fun c => (k.char c).map fun k => (.cls k, [])
  | .lo ds, c =>
    if c.isDigit then some (.lo (ds ++ [c]), [])
    else if ds = [] then none
    else if c = ',' then some (.hi (natOfDigits ds) [], [])
    else if c = '}' then some (.norm, [.quant (natOfDigits ds) (some (natOfDigits ds))])
    else none
  | .hi n ds, c =>
    if c.isDigit then some (.hi n (ds ++ [c]), [])
    else if c = '}' then
      if ds = [] then some (.norm, [.quant n none])
      else if n ≤ natOfDigits ds then some (.norm, [.quant n (some (natOfDigits ds))]) else none
    else none
where
  /-- The number written with the digits. -/
  natOfDigits (ds : Str) : Nat := ds.foldl (fun n c => 10 * n + (c.toNat - 48)) 0

/-- The tokens of a text. -/
def lexRx (fl : Flavour) : LexSt → Str → Option (List Tok)
  | .norm, [] => some []
  | _, [] => none
  | st, c :: cs => (lexStep fl st c).bind fun x => (lexRx fl x.1 cs).map fun ts => x.2 ++ ts

/-- A group being read: the branches before the last `|`, and the parts of the branch
after it, last first (the `Bool` says whether a quantifier may follow). -/
structure Group where
  alts : Option Rx := none
  cur : List (Rx × Bool) := []

/-- The parts of a branch, one after the other. -/
def branchOf : List (Rx × Bool) → Rx
  | [] => .eps
  | x :: xs => .cat (branchOf xs) x.1

def Group.close (g : Group) : Rx :=
  match g.alts with
  | none => branchOf g.cur
  | some a => .alt a (branchOf g.cur)

def Group.push (g : Group) (r : Rx) (q : Bool) : Group := { g with cur := (r, q) :: g.cur }

/-- One token: the group being read and those around it. -/
def tokStep (fl : Flavour) (g : Group) (around : List Group) : Tok → Option (Group × List Group)
  | .lit c => some (g.push (.lit c) true, around)
  | .any => some (g.push .any true, around)
  | .cls neg items => some (g.push (.cls neg items) true, around)
  | .set name => some (g.push (.set name) true, around)
  | .caret => some (if fl = .py then g.push .start false else g.push (.lit '^') true, around)
  | .dollar => some (if fl = .py then g.push .fin false else g.push (.lit '$') true, around)
  | .bar => some ({ alts := some g.close, cur := [] }, around)
  | .lp => some ({}, g :: around)
  | .rp =>
    match around with
    | [] => none
    | h :: around => some (h.push g.close true, around)
  | .quant lo hi =>
    match g.cur with
    | (r, true) :: rest => some ({ g with cur := (.rep r lo hi, false) :: rest }, around)
    | _ => none

def parseToks (fl : Flavour) : Group → List Group → List Tok → Option Rx
  | g, [], [] => some g.close
  | _, _ :: _, [] => none
  | g, around, t :: ts => (tokStep fl g around t).bind fun x => parseToks fl x.1 x.2 ts

/-- The expression a text stands for. -/
def parseRx (fl : Flavour) (text : Str) : Option Rx := (lexRx fl .norm text).bind fun ts => parseToks fl {} [] ts

/-! ## Meaning -/

/-- What the sets and `.` contain. -/
structure Sets where
  dot : Char → Bool
  set : Str → Char → Bool

def Item.has (S : Sets) : Item → Char → Bool
  | .chr a, c => a = c
  | .range a b, c => decide (a.toNat ≤ c.toNat) && decide (c.toNat ≤ b.toNat)
  | .set name, c => S.set name c

/-- The words of the language of an expression; the anchors have none. -/
inductive InLang (S : Sets) : Rx → Str → Prop where
  | lit (c) : InLang S (.lit c) [c]
  | any (c) : S.dot c = true → InLang S .any [c]
  | cls (neg items c) : (items.any fun i => i.has S c) ≠ neg → InLang S (.cls neg items) [c]
  | set (name c) : S.set name c = true → InLang S (.set name) [c]
  | eps : InLang S .eps []
  | cat {a b u v} : InLang S a u → InLang S b v → InLang S (.cat a b) (u ++ v)
  | altl {a b u} : InLang S a u → InLang S (.alt a b) u
  | altr {a b u} : InLang S b u → InLang S (.alt a b) u
  | rep0 {r hi} : InLang S (.rep r 0 hi) []
  | rep1 {r lo hi u v} : hi ≠ some 0 → InLang S r u → InLang S (.rep r (lo - 1) (hi.map (· - 1))) v → InLang S (.rep r lo hi) (u ++ v)

/-- `Match S r pre w post`: with `pre` before and `post` after it, `w` is a match in the
sense of `regex`: `^` matches at the beginning, `$` at the end and before a newline at
the end. -/
inductive Match (S : Sets) : Rx → Str → Str → Str → Prop where
  | lit (c pre post) : Match S (.lit c) pre [c] post
  | any (c pre post) : S.dot c = true → Match S .any pre [c] post
  | cls (neg items c pre post) : (items.any fun i => i.has S c) ≠ neg → Match S (.cls neg items) pre [c] post
  | set (name c pre post) : S.set name c = true → Match S (.set name) pre [c] post
  | start (post) : Match S .start [] [] post
  | fin (pre post) : post = [] ∨ post = ['\n'] → Match S .fin pre [] post
  | eps (pre post) : Match S .eps pre [] post
  | cat {a b pre u v post} : Match S a pre u (v ++ post) → Match S b (pre ++ u) v post → Match S (.cat a b) pre (u ++ v) post
  | altl {a b pre u post} : Match S a pre u post → Match S (.alt a b) pre u post
  | altr {a b pre u post} : Match S b pre u post → Match S (.alt a b) pre u post
  | rep0 {r hi} (pre post) : Match S (.rep r 0 hi) pre [] post
  | rep1 {r lo hi pre u v post} : hi ≠ some 0 → Match S r pre u (v ++ post) → Match S (.rep r (lo - 1) (hi.map (· - 1))) (pre ++ u) v post →
      Match S (.rep r lo hi) pre (u ++ v) post

/-- `rx` behaves like `regex.match` on the texts that have a reading: it finds a match that
begins at the beginning if there is one. -/
def IsRegexMatch (S : Sets) (rx : Str → Str → Bool) : Prop :=
  ∀ text r v, parseRx .py text = some r → (rx text v = true ↔ ∃ w post, v = w ++ post ∧ Match S r [] w post)

/-- No `^` outside a class, unescaped. -/
def NoCaret (p : Str) : Prop := ∀ ts, lexRx .xsd .norm p = some ts → Tok.caret ∉ ts

/-- More than one branch, outside of parentheses. -/
def Rx.isAlt : Rx → Bool
  | .alt _ _ => true
  | _ => false

/-- The sets the expression mentions. -/
def setsOf : Rx → List Str
  | .set name => [name]
  | .cls _ items => items.filterMap fun i => match i with | .set name => some name | _ => none
  | .cat a b => setsOf a ++ setsOf b
  | .alt a b => setsOf a ++ setsOf b
  | .rep r _ _ => setsOf r
  | _ => []

/-- XML Schema and `regex` agree on the sets of an expression, and on `.`, for the
characters of a text. -/
def Agree (X P : Sets) (r : Rx) (s : Str) : Prop :=
  ∀ c ∈ s, X.dot c = P.dot c ∧ ∀ name ∈ setsOf r, X.set name c = P.set name c

end Spec
