import Verif.Model.BitsTree
import Verif.Spec.Tree
import Verif.Spec.JsonTypes
import Verif.Spec.Session

/-! # Bits leaves changed in place -/

namespace Spec
open Py Pyb

/-- The declaration of the bits: names are identifiers; names and positions are different
(RFC 7950, 9.7.4). -/
def BitsDecl (allowed : List (Str × Str)) : Prop :=
  (∀ a ∈ allowed, a.1 ≠ [] ∧ ∀ c ∈ a.1, isSpace c = false) ∧ (allowed.map Prod.fst).Nodup ∧ (allowed.map Prod.snd).Nodup

/-- What bits there are after the call, if there were the bits `s` before. -/
def After (s : List Str) : BitCall → Str → Prop
  | .add x, b => b ∈ s ∨ b = x
  | .discard x, b => b ∈ s ∧ b ≠ x
  | .clear, _ => False
  | .remove x, b => b ∈ s ∧ b ≠ x
  | .pop x, b => b ∈ s ∧ b ≠ x
  | .update xs, b => b ∈ s ∨ b ∈ xs

/-- The part of an object that is not in the objects it holds. -/
inductive Shell where
  | leaf (v : PyVal) (changed : Bool)
  | leafList (vs : List PyVal) (changed : Bool)
  | cont (changed present : Bool) (kids : Nat)
  | list (changed : Bool) (keys : List PyVal)

def shell : Inst → Shell
  | .leaf v ch => .leaf v ch
  | .leafList vs ch => .leafList vs ch
  | .cont ch pr ns => .cont ch pr ns.length
  | .list ch es => .list ch (es.map Prod.fst)

/-- The case the object at a path is directly in, if any (an entry is in none; `own` is the
case of the object the path starts from). -/
def caseAt (own : Option Choice) : Schema → Path → Option Choice
  | _, [] => own
  | .cont _ kids, .field i :: p =>
    match kids[i]? with
    | some k => caseAt k.1.choice k.2 p
    | none => none
  | .list _ kids, .key _ :: p => caseAt none (.cont false kids) p
  | _, _ => none

/-- What is done to a binding: an action of a session, or a call on the value of the leaf at a
path, which has the given declared bits. -/
inductive BitAct where
  | act (a : Act)
  | call (p : Path) (allowed : List (Str × Str)) (c : BitCall)

def bitAct (kids : List (Meta × Schema)) (helper : Bool) (ns : List Inst) : BitAct → List Inst
  | .act a => act kids ns a
  | .call p allowed c => (bitsRoot kids allowed helper ns p c).1

/-- The binding after a session with such calls; exceptions are caught. -/
def bitSession (kids : List (Meta × Schema)) (helper : Bool) (ns : List Inst) (acts : List BitAct) : List Inst :=
  acts.foldl (bitAct kids helper) ns

/-- The leaf at the path is a bits leaf with these bits declared. -/
def BitsAt (rx : Str → Str → Bool) (kids : List (Meta × Schema)) (p : Path) (allowed : List (Str × Str)) : Prop :=
  BitsDecl allowed ∧ ∃ name d, clsAt kids p = some (.leaf ((YTy.ext name (.bits allowed)).cls rx d))

end Spec
