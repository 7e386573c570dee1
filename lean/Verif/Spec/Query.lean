import Verif.Spec.XPath

/-! # The paths of leafrefs

The paths of RFC 7950, 9.9.2 (`path-arg`): absolute or relative, names with or without prefix,
predicates that compare keys with the value of another node (`current()/../name`) or with
literals.  Which nodes such a path selects is said here for a registry, without any text. -/

namespace Spec
open Py Pyb

/-- A name, with the prefix of a module or without. -/
structure QName where
  pfx : Option Str := none
  name : Str

def QName.text (n : QName) : Str :=
  match n.pfx with
  | none => n.name
  | some p => p ++ ':' :: n.name

/-- A step after `current()`: to the parent or to a child. -/
inductive RStep where
  | up
  | name (n : QName)

def RStep.text : RStep → Str
  | .up => py!".."
  | .name n => n.text

/-- What a key is compared with: a literal between quotes, or the value of a node reached from
the leaf that has the path. -/
inductive QVal where
  | lit (quote : Char) (v : Str)
  | current (steps : List RStep)

def QVal.text : QVal → Str
  | .lit q v => q :: v ++ [q]
  | .current rs => py!"current()" ++ rs.flatMap fun r => '/' :: r.text

/-- A comparison, with the numbers of spaces before and after `=`, and whether it has the `@` of
XPath attributes before the name. -/
structure QComp where
  name : QName
  val : QVal
  before : Nat := 0
  after : Nat := 0
  sign : Bool := false

def QComp.text (c : QComp) : Str :=
  (if c.sign then ['@'] else []) ++ c.name.text ++ List.replicate c.before ' ' ++ '=' :: List.replicate c.after ' ' ++ c.val.text

/-- Comparisons with `and` between them. -/
def compsText : List QComp → Str
  | [] => []
  | [c] => c.text
  | c :: d :: r => c.text ++ py!" and " ++ compsText (d :: r)

/-- A step of a path: to the parent, or to children with predicates. -/
inductive QPart where
  | up
  | step (n : QName) (preds : List (List QComp))

def QPart.text : QPart → Str
  | .up => py!".."
  | .step n preds => n.text ++ preds.flatMap fun cs => '[' :: compsText cs ++ [']']

/-- A path. -/
structure Query where
  absolute : Bool
  parts : List QPart

def Query.text (q : Query) : Str := (if q.absolute then ['/'] else []) ++ joinSlash (q.parts.map QPart.text)

/-! ## Which nodes are selected -/

/-- The nodes a path selects in a registry, from a node on.  `val` says what the values in
predicates stand for. -/
inductive Selects (m : Registry) (val : QVal → Str → Prop) : List QPart → List PStep → List PStep → Prop where
  | done (p) : Selects m val [] p p
  | up {ps p s r} : Selects m val ps p r → Selects m val (.up :: ps) (p ++ [s]) r
  | step {n preds ps p s r} : (m (p ++ [s])).isSome = true → s.tag = n.name →
      (∀ cs ∈ preds, ∀ c ∈ cs, ∃ v, val c.val v ∧ (c.name.name, v) ∈ s.keys) →
      Selects m val ps (p ++ [s]) r → Selects m val (.step n preds :: ps) p r

/-- A step after `current()` as a step of a path. -/
def RStep.part : RStep → QPart
  | .up => .up
  | .name n => .step n []

/-- The nodes reached from the leaf. -/
def Reaches (m : Registry) (rs : List RStep) (leaf r : List PStep) : Prop := Selects m (fun _ _ => False) (rs.map RStep.part) leaf r

/-- What a value stands for: the literal, or the text of a node reached from the leaf. -/
def ValueOf (m : Registry) (leaf : Option (List PStep)) : QVal → Str → Prop
  | .lit _ v, w => w = v
  | .current rs, w => ∃ l r o, leaf = some l ∧ Reaches m rs l r ∧ m r = some o ∧ o.text = w

/-- The nodes selected: an absolute path starts at the root, a relative one at the leaf. -/
def Query.Selected (m : Registry) (leaf : Option (List PStep)) (q : Query) (r : List PStep) : Prop :=
  if q.absolute then Selects m (ValueOf m leaf) q.parts [] r
  else ∃ l, leaf = some l ∧ Selects m (ValueOf m leaf) q.parts l r

/-! ## The paths considered -/

structure QName.Good (n : QName) : Prop where
  pfx : ∀ p, n.pfx = some p → Identifier p
  name : Identifier n.name

/-- The names of keys: no `.`, and not the attribute the helper uses itself. -/
structure QName.GoodKey (n : QName) : Prop extends n.Good where
  pfxDot : ∀ p, n.pfx = some p → '.' ∉ p
  dot : '.' ∉ n.name
  ptr : n.name ≠ py!"obj_ptr"

/-- The steps after `current()`: at least one, the last a name. -/
def GoodCurrent (rs : List RStep) : Prop :=
  (∀ n, .name n ∈ rs → QName.Good n) ∧ ∃ i n, rs = i ++ [.name n]

def QVal.Good : QVal → Prop
  | .lit q v => (q = '\'' ∨ q = '"') ∧ GoodValue v
  | .current rs => GoodCurrent rs

def QPart.Good : QPart → Prop
  | .up => True
  | .step n preds => n.Good ∧ (∀ cs ∈ preds, cs ≠ []) ∧ (∀ cs ∈ preds, ∀ c ∈ cs, c.name.GoodKey ∧ c.val.Good) ∧
    (preds.flatten.map fun c => c.name.name).Nodup

/-- The path is well formed: it ends with a name, and a relative path begins with `..`. -/
structure Query.Good (q : Query) : Prop where
  parts : ∀ p ∈ q.parts, p.Good
  last : ∃ i n preds, q.parts = i ++ [.step n preds]
  start : q.absolute = true ∨ ∃ ps, q.parts = .up :: ps

/-- The nodes `current()` leads to: there is exactly one, and its text has no `'`. -/
def UniqueNode (m : Registry) (leaf : Option (List PStep)) (rs : List RStep) : Prop :=
  ∃ l r o, leaf = some l ∧ Reaches m rs l r ∧ (∀ r', Reaches m rs l r' → r' = r) ∧ m r = some o ∧ '\'' ∉ o.text

/-- The parent of the leaf is in the registry, or it is the root. -/
def ParentThere (m : Registry) (l : List PStep) : Prop := l.dropLast = [] ∨ (m l.dropLast).isSome = true

/-- All `current()` of the path. -/
def Query.Currents (q : Query) (rs : List RStep) : Prop :=
  ∃ n preds, .step n preds ∈ q.parts ∧ ∃ cs ∈ preds, ∃ c ∈ cs, c.val = .current rs

end Spec
