import Verif.Model.Config

/-! # Specification of config inheritance (RFC 6020, 7.19.1) -/

namespace Spec
open Py Pyb

/-- `DataNode f p cs`: the forest `f` has a data node at path `p`, and `cs` lists
the `config` statements of the node and of everything enclosing it, choices
included, outermost first (`none` = no statement). -/
inductive DataNode : List SNode → List Str → List (Option Bool) → Prop where
  | leaf {f n c} : SNode.leaf n c ∈ f → DataNode f [n] [c]
  | here {f n c ch} : SNode.inner n c ch ∈ f → DataNode f [n] [c]
  | sub {f n c ch p cs} : SNode.inner n c ch ∈ f → DataNode ch p cs → DataNode f (n :: p) (c :: cs)
  | choice {f n c cases p cs} : SNode.choice n c cases ∈ f → DataNode cases p cs →
      DataNode f p (c :: cs)
  | case {f n ch p cs} : SNode.case n ch ∈ f → DataNode ch p cs → DataNode f p cs

mutual
/-- Some choice in the tree carries `config false`. -/
def choiceConfigFalse : SNode → Bool
  | .leaf _ _ => false
  | .inner _ _ ch => choiceConfigFalseL ch
  | .choice _ c cs => c == some false || choiceConfigFalseL cs
  | .case _ ch => choiceConfigFalseL ch
def choiceConfigFalseL : List SNode → Bool
  | [] => false
  | x :: xs => choiceConfigFalse x || choiceConfigFalseL xs
end

end Spec
