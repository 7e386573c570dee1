import Verif.Spec.Session
import Verif.Spec.Reg
import Verif.Model.Calls

/-! # Documents and calls -/

namespace Spec
open Py Pyb

/-- The operations of a history that raise. -/
def raised (kids : List (Meta × Schema)) : List Inst → List (Path × Op) → List Op
  | _, [] => []
  | ns, (p, op) :: ops =>
    match (runRoot kids ns p op).2 with
    | none => raised kids (runRoot kids ns p op).1 ops
    | some _ => op :: raised kids (runRoot kids ns p op).1 ops

/-- The keys of every list at or below the class are leaves of its entries. -/
def KeyLeaves (S : Schema) : Prop := ∀ p info kids, schemaAt S p = some (.list info kids) →
  ∀ j ∈ info.keys, ∃ m L, kids[j]? = some (m, .leaf L)

/-- The calls that fill a binding: a leaf is set, a leaf-list is assigned, appended to or has a
value removed, a container is made present, an entry is added; and a list is assigned, which
empties it, or a container is set to something that is none, which raises. -/
def Fills : Op → Prop
  | .set _ _ => True
  | .ll (.assign _) => True
  | .ll (.append _) => True
  | .ll (.remove _) => True
  | .present b => b = true
  | .add _ => True
  | .addNamed _ => True
  | .addAnon _ => True
  | .assign v => v = .list false [] ∨ v = .leaf .none false
  | _ => False

/-! ## Sessions -/

/-- The calls of an action. -/
def actCalls (kids : List (Meta × Schema)) (ns : List Inst) : Act → List (Path × Op)
  | .api p op => [(p, op)]
  | .ietf g doc => ietfCalls g kids ns doc
  | .native g doc => nativeCalls g kids ns doc
  | .xml infer doc => xmlCalls infer kids ns doc

/-- The calls of a session. -/
def sessionCalls (kids : List (Meta × Schema)) : List Inst → List Act → List (Path × Op)
  | _, [] => []
  | ns, a :: as => actCalls kids ns a ++ sessionCalls kids (act kids ns a) as

/-- A document is loaded without `overwrite`. -/
def Plainly : Act → Prop
  | .api _ _ => True
  | .ietf g _ => g.over = false
  | .native g _ => g.over = false
  | .xml _ _ => True

/-- A document is loaded without an exception. -/
def Loads (kids : List (Meta × Schema)) (ns : List Inst) : Act → Prop
  | .api p op => (runRoot kids ns p op).2 = none
  | .ietf g doc => (ietfLoad g kids ns doc).2 = none
  | .native g doc => (nativeLoad g kids ns doc).2 = none
  | .xml infer doc => (xmlLoad infer kids ns doc).2 = none

/-- The last call raises nothing, or not late. -/
def EndOk (kids : List (Meta × Schema)) (ns : List Inst) (cs : List (Path × Op)) : Prop :=
  ∀ before p op, cs = before ++ [(p, op)] → StepOk kids (history kids ns before) p op

end Spec
