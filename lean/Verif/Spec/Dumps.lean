import Verif.Model.Dumps
import Verif.Spec.Get

/-! # Specification vocabulary for `dumps` -/

namespace Spec
open Py Pyb

/-- What is at a place, without what is below. -/
inductive Part where
  | leaf (v : PyVal)
  | vals (vs : List PyVal)
  | dict
  | arr (xs : List PTree)

def part : PTree → Part
  | .leaf v => .leaf v
  | .vals vs => .vals vs
  | .dict _ => .dict
  | .arr xs => .arr xs

/-- What is at the place with the given names, if anything: by the name of the child, by
the key of the entry. -/
def partAt : PTree → List Str → Option Part
  | t, [] => some (part t)
  | .dict items, p :: ps =>
    match items.find? fun x => pyEq x.1 (.str p) with
    | some x => partAt x.2 ps
    | none => none
  | _, _ :: _ => none

/-- The keys of each dict differ. -/
inductive Apart : PTree → Prop where
  | leaf (v) : Apart (.leaf v)
  | vals (vs) : Apart (.vals vs)
  | arr (xs) : Apart (.arr xs)
  | dict (items : List (PyVal × PTree)) : (items.map Prod.fst).Pairwise (fun a b => pyEq a b = false) →
      (∀ x ∈ items, Apart x.2) → Apart (.dict items)

/-- What is left of the paths that begin with a key, without the key. -/
def below (ps : List (List Str)) (k : PyVal) : List (List Str) :=
  ps.filterMap fun p => match p with
    | a :: r => if pyEq k (.str a) then some r else none
    | [] => none

mutual
/-- The tree without what is at the given paths. -/
def without (ps : List (List Str)) : PTree → PTree
  | .dict items => .dict (withoutItems ps items)
  | t => t
def withoutItems (ps : List (List Str)) : List (PyVal × PTree) → List (PyVal × PTree)
  | [] => []
  | x :: xs =>
    if [] ∈ below ps x.1 then withoutItems ps xs else (x.1, without (below ps x.1) x.2) :: withoutItems ps xs
end

/-- A path, seen from an object. -/
def relTo (o p : List Str) : Option (List Str) := if o <+: p then some (p.drop o.length) else none

/-- The text of a path: `/a/b`. -/
def pathText (p : List Str) : Str := (p.map fun s => '/' :: s).flatten

/-- A component of an object's path without its attributes: `name[key='v']` is `name`. -/
def bareName (s : Str) : Str := s.takeWhile (· ≠ '[')

/-- No place above the one with the given names is a leaf or an array. -/
def Reachable (t : PTree) (p : List Str) : Prop :=
  ∀ r, r <+: p → r ≠ p → partAt t r = none ∨ partAt t r = some .dict

/-- The text of a leaf below an entry. -/
def leafText (n : Inst) (p : Path) : Option Str :=
  match nodeAt n p with
  | some (.leaf v _) => some v.toStr
  | _ => none

/-- Names have no `:`. -/
def PlainNames (S : Schema) : Prop :=
  ∀ p pres kids, schemaAt S p = some (.cont pres kids) → ∀ k ∈ kids, ':' ∉ k.1.name

/-- The names on the way to a node below an entry, through containers. -/
def namesTo : Schema → Path → Option (List Str)
  | _, [] => some []
  | .cont _ kids, .field i :: p =>
    match kids[i]? with
    | some k => (namesTo k.2 p).map fun r => k.1.name :: r
    | none => none
  | _, _ => none

/-- The name of a leaf in `select`: the names on the way, with dots between. -/
def dotted (S : Schema) (p : Path) : Str := join ['.'] ((namesTo S p).getD [])

/-- Each selected leaf of the entry has the wanted text. -/
def Wanted (sel : List (Path × Str)) (n : Inst) : Prop := ∀ s ∈ sel, leafText n s.1 = some s.2

instance (sel : List (Path × Str)) (n : Inst) : Decidable (Wanted sel n) := by unfold Wanted; infer_instance

/-- The path goes from an entry through containers to a leaf, by names without dots. -/
def Selectable (kids : List (Meta × Schema)) (p : Path) : Prop :=
  ∃ names L, namesTo (.cont false kids) p = some names ∧ schemaAt (.cont false kids) p = some (.leaf L) ∧ ∀ s ∈ names, '.' ∉ s

end Spec
