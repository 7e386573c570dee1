import Verif.Model.Tree

/-! # Specification vocabulary for instance trees

Only the data types (`Schema`, `Inst`, `Path`) and `pyEq` (equality of keys) are taken
from the model. -/

namespace Spec
open Py Pyb

/-- The object found by following a path. -/
def nodeAt : Inst → Path → Option Inst
  | n, [] => some n
  | .cont _ _ ns, .field i :: p =>
    match ns[i]? with
    | some c => nodeAt c p
    | none => none
  | .list _ es, .key k :: p =>
    match es.find? fun q => pyEq q.1 k with
    | some q => nodeAt q.2 p
    | none => none
  | _, _ => none

/-- The class of the object at a path. -/
def schemaAt : Schema → Path → Option Schema
  | S, [] => some S
  | .cont _ kids, .field i :: p =>
    match kids[i]? with
    | some k => schemaAt k.2 p
    | none => none
  | .list _ kids, .key _ :: p => schemaAt (.cont false kids) p
  | _, _ => none

/-- `m` is the object `n` or one below it. -/
inductive Within (m : Inst) : Inst → Prop where
  | here : Within m m
  | field {ch pr ns c} : c ∈ ns → Within m c → Within m (.cont ch pr ns)
  | entry {ch es k e} : (k, e) ∈ es → Within m e → Within m (.list ch es)

/-- A leaf that is set (and was not unset since), somewhere at or below the object. -/
def HasSet (n : Inst) : Prop := ∃ v, Within (.leaf v true) n

/-- The object itself counts as data: a set leaf, a leaf-list with values, a container
marked present, or a list with entries. -/
def IsDatum : Inst → Prop
  | .leaf _ ch => ch = true
  | .leafList vs _ => vs ≠ []
  | .cont _ pr _ => pr = true
  | .list _ es => es ≠ []

/-- There is data at or below the object. -/
def HasData (n : Inst) : Prop := ∃ m, Within m n ∧ IsDatum m

/-- Two children belong to different cases of the same choice. -/
def Rivals (a b : Meta) : Prop :=
  ∃ c d, a.choice = some c ∧ b.choice = some d ∧ c.name = d.name ∧ c.case_ ≠ d.case_

/-- `p` leads to or above the object at `q`. -/
def Covers : Path → Path → Prop
  | [], _ => True
  | .field i :: p, .field j :: q => i = j ∧ Covers p q
  | .key k :: p, .key k' :: q => pyEq k k' = true ∧ Covers p q
  | _, _ => False

/-- The paths part at children in different cases of the same choice. -/
def Competes : Schema → Path → Path → Prop
  | .cont _ kids, .field i :: p, .field j :: q =>
    (∃ a b, kids[i]? = some a ∧ kids[j]? = some b ∧ Rivals a.1 b.1) ∨
    (i = j ∧ ∃ k, kids[i]? = some k ∧ Competes k.2 p q)
  | .list _ kids, .key k :: p, .key k' :: q => pyEq k k' = true ∧ Competes (.cont false kids) p q
  | _, _, _ => False

/-- The names of the choices the children belong to. -/
def choiceNames (kids : List (Meta × Schema)) : List Str :=
  kids.filterMap fun k => k.1.choice.map Choice.name

mutual
/-- No two choices with the same name one above the other; if `strict`, also no choice
within a case of another choice.  `above` are the names of the choices in the containers
above, `own` the case this class is in (the generator hands it on to the children). -/
def Choices (strict : Bool) : List Str → Option Choice → Schema → Prop
  | _, _, .leaf _ => True
  | _, _, .leafList _ => True
  | above, own, .cont _ kids => ChoicesKids strict above own (choiceNames kids ++ above) kids
  | above, own, .list _ kids => ChoicesKids strict above own (choiceNames kids ++ above) kids
def ChoicesKids (strict : Bool) : List Str → Option Choice → List Str → List (Meta × Schema) → Prop
  | _, _, _, [] => True
  | above, own, here, k :: ks =>
    (k.1.choice = own ∨ ((strict = true → own = none) ∧ ∀ c, k.1.choice = some c → c.name ∉ above)) ∧
    Choices strict here k.1.choice k.2 ∧ ChoicesKids strict above own here ks
end

/-- Each top-level child of a module meets the condition. -/
def ChoicesRoot (strict : Bool) (kids : List (Meta × Schema)) : Prop := ∀ k ∈ kids, Choices strict [] k.1.choice k.2

/-- No two choices with the same name one above the other. -/
abbrev ApartRoot (kids : List (Meta × Schema)) : Prop := ChoicesRoot false kids

/-- No two choices with the same name one above the other, no choice within a case of
another. -/
abbrev FlatRoot (kids : List (Meta × Schema)) : Prop := ChoicesRoot true kids

/-- Of every choice in every container at or below the object, at most one case holds
data. -/
def Exclusive (S : Schema) (n : Inst) : Prop :=
  ∀ p pres kids ch pr ns, schemaAt S p = some (.cont pres kids) → nodeAt n p = some (.cont ch pr ns) →
    ∀ (i j : Nat) a b x y, kids[i]? = some a → kids[j]? = some b → ns[i]? = some x → ns[j]? = some y →
      Rivals a.1 b.1 → ¬ (HasData x ∧ HasData y)

/-- A binding: `clsAt` and `objAt` follow a path from the object of the module's class,
whose children are given. -/
def clsAt (kids : List (Meta × Schema)) (p : Path) : Option Schema := schemaAt (.cont false kids) p
def objAt (ns : List Inst) (p : Path) : Option Inst := nodeAt (.cont false false ns) p

/-- The paths part at children in different cases of the same choice, below the top
level. -/
def CompetesBelow (kids : List (Meta × Schema)) : Path → Path → Prop
  | .field i :: p, .field j :: q => i = j ∧ ∃ k, kids[i]? = some k ∧ Competes k.2 p q
  | _, _ => False

/-- The data held by a leaf or leaf-list. -/
def leafData : Inst → Option ((PyVal ⊕ List PyVal) × Bool)
  | .leaf v ch => some (.inl v, ch)
  | .leafList vs ch => some (.inr vs, ch)
  | _ => none

/-- The leaf data at a path of a binding with the children `ns`. -/
def dataAt (ns : List Inst) (p : Path) : Option ((PyVal ⊕ List PyVal) × Bool) :=
  (objAt ns p).bind leafData

end Spec
