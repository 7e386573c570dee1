import Verif.Spec.Tree

/-! # Specification vocabulary for copying containers -/

namespace Spec
open Py Pyb

mutual
/-- A class made of containers and leaves only. -/
def LeavesOnly : Schema → Prop
  | .leaf _ => True
  | .leafList _ => False
  | .cont _ kids => LeavesOnlyKids kids
  | .list _ _ => False
def LeavesOnlyKids : List (Meta × Schema) → Prop
  | [] => True
  | k :: ks => LeavesOnly k.2 ∧ LeavesOnlyKids ks
end

/-- `n` has exactly the set data of `v`: the same leaves are set, to the values `v` has
(as converted by the leaf's type), and the same presence containers below are present. -/
def Copied (S : Schema) (v n : Inst) : Prop :=
  (∀ q L x, schemaAt S q = some (.leaf L) → nodeAt v q = some (.leaf x true) →
    ∃ w, L.set x = .ok w ∧ nodeAt n q = some (.leaf w true)) ∧
  (∀ q L w, schemaAt S q = some (.leaf L) → nodeAt n q = some (.leaf w true) →
    ∃ x, nodeAt v q = some (.leaf x true)) ∧
  (∀ q ks, q ≠ [] → schemaAt S q = some (.cont true ks) →
    ((∃ ch ns, nodeAt v q = some (.cont ch true ns)) ↔ ∃ ch ns, nodeAt n q = some (.cont ch true ns)))

end Spec
