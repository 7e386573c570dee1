import Verif.Model.XPath

/-! # Data paths and the registry

Only the input formats (the text of a list entry's step, the objects) are shared with the
model. -/

namespace Spec
open Py Pyb

/-- Letters, digits, `-` and `_`. -/
def PlainChar (c : Char) : Prop := (c.isAlphanum = true ∨ c = '-' ∨ c = '_')

/-- A YANG identifier: letters, digits, `-`, `_` and `.`, the first a letter or `_`. -/
def Identifier (s : Str) : Prop :=
  (∀ c ∈ s, PlainChar c ∨ c = '.') ∧ ∃ c cs, s = c :: cs ∧ (c.isAlpha = true ∨ c = '_')

/-- A part of a text. -/
def Contains (s t : Str) : Prop := ∃ a b, s = a ++ t ++ b

/-- A key value the helper can take: not empty, without space, `^`, quotes, `]`, `|` and
characters that XML does not allow (control characters, U+FFFE and U+FFFF), and without
`current()`. -/
def GoodValue (v : Str) : Prop :=
  v ≠ [] ∧ (∀ c ∈ v, c ≠ ' ' ∧ c ≠ '^' ∧ c ≠ '\'' ∧ c ≠ '"' ∧ c ≠ ']' ∧ c ≠ '|' ∧ 32 ≤ c.toNat ∧
    c.toNat ≠ 0xFFFE ∧ c.toNat ≠ 0xFFFF) ∧ ¬ Contains v py!"current()"

/-- A step the helper can take: key names are identifiers without `.`, different from each
other and not `obj_ptr`. -/
structure PStep.Good (s : PStep) : Prop where
  tag : Identifier s.tag
  names : ∀ k ∈ s.keys, Identifier k.1 ∧ '.' ∉ k.1 ∧ k.1 ≠ py!"obj_ptr"
  nodup : (s.keys.map (·.1)).Nodup
  values : ∀ k ∈ s.keys, GoodValue k.2

/-- The names of the nodes of a path. -/
def tags (p : List PStep) : List Str := p.map PStep.tag

/-- The path fits a schema: `K` says for each node (by the names down to it) which keys
its entries have, in which order; none for a node that is not a list. -/
inductive Conforms (K : List Str → List Str) : List Str → List PStep → Prop where
  | nil (q) : Conforms K q []
  | cons (q s p) : s.keys.map (·.1) = K (q ++ [s.tag]) → Conforms K (q ++ [s.tag]) p → Conforms K q (s :: p)

/-- The registry: which object is at which path. -/
abbrev Registry := List PStep → Option XObj

/-- Can the operation be done: an object needs its parent, and only what is there can be
taken out. -/
def OpAllowed (m : Registry) : RegOp → Prop
  | .register p _ => (m p).isSome = true ∨ p.length = 1 ∨ (m p.dropLast).isSome = true
  | .unregister p => (m p).isSome = true

instance (m : Registry) (op : RegOp) : Decidable (OpAllowed m op) := by
  cases op <;> unfold OpAllowed <;> infer_instance

/-- The effect of an operation that can be done. -/
def effect (m : Registry) : RegOp → Registry
  | .register p o => fun q => if q = p then some o else m q
  | .unregister p => fun q => if p.isPrefixOf q then none else m q

/-- One operation. -/
def regStep (m : Registry) (op : RegOp) : Registry := if OpAllowed m op then effect m op else m

/-- A history, from an empty registry. -/
def registryAfter (ops : List RegOp) : Registry := ops.foldl regStep fun _ => none

/-- A history without leaks: all that is done can be done, and only objects with nothing below
them are taken out. -/
def Tidy : Registry → List RegOp → Prop
  | _, [] => True
  | m, op :: ops =>
    OpAllowed m op ∧ (∀ p, op = .unregister p → ∀ q, p <+: q → q ≠ p → m q = none) ∧ Tidy (regStep m op) ops

/-! ## The text of a path -/

/-- The parts of a step: characters, texts in double quotes, predicates. -/
inductive SPart where
  | chars (s : Str)
  | quoted (s : Str)
  | pred (ps : List SPart)

/-- How they are written. -/
def SPart.text : SPart → Str
  | .chars s => s
  | .quoted s => '"' :: s ++ ['"']
  | .pred ps => '[' :: go ps ++ [']']
where
  go : List SPart → Str
    | [] => []
    | p :: ps => p.text ++ go ps

/-- A part inside a predicate: no predicate in it, and outside quotes no quote and bracket.
Inside quotes there is no quote. -/
def InnerPart : SPart → Prop
  | .chars s => ∀ c ∈ s, c ≠ '"' ∧ c ≠ '[' ∧ c ≠ ']'
  | .quoted s => '"' ∉ s
  | .pred _ => False

/-- A part of a step: outside quotes and predicates there is no `/` either. -/
def OuterPart : SPart → Prop
  | .chars s => ∀ c ∈ s, c ≠ '"' ∧ c ≠ '[' ∧ c ≠ ']' ∧ c ≠ '/'
  | .quoted s => '"' ∉ s
  | .pred ps => ∀ p ∈ ps, InnerPart p

/-- A quoted text has no brackets. -/
def NoQuotedBrackets : SPart → Prop
  | .chars _ => True
  | .quoted s => '[' ∉ s ∧ ']' ∉ s
  | .pred ps => ∀ p ∈ ps, ∀ s, p = .quoted s → '[' ∉ s ∧ ']' ∉ s

def stepText (ps : List SPart) : Str := SPart.text.go ps

/-- The steps with `/` between them. -/
def joinSlash : List Str → Str
  | [] => []
  | [s] => s
  | s :: t :: r => s ++ '/' :: joinSlash (t :: r)

end Spec
