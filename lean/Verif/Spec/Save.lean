import Verif.Spec.Gen
import Verif.Spec.Session
import Verif.Spec.JsonTypes

/-! # Specification vocabulary: modules and data that survive being saved -/

namespace Spec
open Py Pyb

/-- Types whose leaves always hold a value of the type, whatever they are set to: integers, with
any ranges as long as zero is in them; strings without restriction; enumerations; booleans. -/
inductive SafeTy : YTy → Prop where
  | int (name : Str) (t : IntTy) (chain : List (List WrittenPart)) (lo hi : Int) (ha : TypeArg t.name name)
      (hb : builtinBounds t.name = some (lo, hi)) (hl : LegalChain (chain ++ [[⟨.span (some lo) (some hi), 0, 0, 0, 0⟩]]))
      (h0 : InType chain 0) : SafeTy (.int name t (chain.map rangeText))
  | str (name : Str) (ha : TypeArg py!"string" name) : SafeTy (.str name (.base .str))
  | enum (name : Str) (names : List Str) (ha : TypeArg py!"enumeration" name) (hat : ∀ n ∈ names, startsWith n py!"@" = false) :
      SafeTy (.str name (enumTy names))
  | bool (name : Str) (ha : TypeArg py!"boolean" name) : SafeTy (.bool name)

mutual
/-- The names of the data nodes a statement stands for: its own, or those in the cases of a
choice. -/
def nodeNames : YNode → List Str
  | .leaf s _ => [s.name]
  | .leafList s _ => [s.name]
  | .cont s _ _ => [s.name]
  | .list s _ _ _ => [s.name]
  | .choice _ cases => casesNames cases
  | .case _ _ => []
/-- The names of the data nodes with the same parent. -/
def dataNames : List YNode → List Str
  | [] => []
  | d :: ds => nodeNames d ++ dataNames ds
/-- Those of a case. -/
def caseNames : YNode → List Str
  | .case _ kids => dataNames kids
  | _ => []
/-- Those of the cases of a choice. -/
def casesNames : List YNode → List Str
  | [] => []
  | d :: ds => caseNames d ++ casesNames ds
end

/-- Name, namespace and module of a data node. -/
def srcOf : YNode → Option Src
  | .leaf s _ => some s
  | .leafList s _ => some s
  | .cont s _ _ => some s
  | .list s _ _ _ => some s
  | _ => none

/-- Modules of which everything can be saved.  The first three conditions are those of RFC 7950
(6.2.1, 6.2, 7.8.2), but for attributes that get the same name; the others leave out the modules
for which choices do not work (C79). -/
structure Supported (f : List YNode) : Prop where
  /-- the attributes of the data nodes with the same parent have different names -/
  names : ∀ g, (g = f ∨ ∃ d, Inside d f ∧ Inner d ∧ stmts d = g) → ((dataNames g).map safeName).Nodup
  /-- identifiers -/
  idents : ∀ d s, Inside d f → srcOf d = some s → ':' ∉ s.name ∧ '@' ∉ s.name ∧ '@' ∉ s.module_
  /-- lists have keys: leaves of the list, in its namespace -/
  keys : ∀ s keys o kids, Inside (.list s keys o kids) f →
    keys ≠ [] ∧ keys.Nodup ∧ ∀ k ∈ keys, ∃ s' L, YNode.leaf s' L ∈ kids ∧ s'.name = k ∧ s'.ns = s.ns
  nesting : NoNesting f
  shadow : NoShadow f

/-- What is asked of the data, at each object of the tree:

* a leaf or leaf-list is of a safe type, or holds values of its type
* a leaf-list has no value twice (RFC 7950, 7.7)
* the keys of a list are of safe types, or hold values of their types in every entry
* the entries of a list have different keys (RFC 7950, 7.8.2).  With one key: it is not the empty
  string.  With several: their texts, joined with spaces, differ, and the last one is not empty and
  does not end with a space. -/
def Kept (rx : Str → Str → Bool) (m : Meta) : Schema → Inst → Prop
  | .leaf L, .leaf v ch => ch = true → (∃ t d, L = YTy.cls rx t d ∧ SafeTy t) ∨ LeafHolds rx L v
  | .leafList L, .leafList vs _ => vs ≠ [] → ((∃ t u tx, L = YTy.llCls rx t u tx ∧ SafeTy t) ∨ ElemsHold rx L vs) ∧
      vs.Pairwise fun a b => pyEq a b = false
  | .cont _ _, .cont _ _ _ => True
  | .list info kids, .list _ es =>
      (∀ i ∈ info.keys, (∃ mi t d, kids[i]? = some (mi, .leaf (t.cls rx d)) ∧ SafeTy t) ∨ KeyLeaf rx m.ns kids es i) ∧
      (∀ i, info.keys = [i] → (∀ q ∈ es, valAt q.2.kids i ≠ .str []) ∧
        es.Pairwise fun a b => pyEq (valAt a.2.kids i) (valAt b.2.kids i) = false) ∧
      (2 ≤ info.keys.length →
        (∀ q ∈ es, ∃ s c, ((info.keys.map (valAt q.2.kids)).map PyVal.toStr).getLastD [] = s ++ [c] ∧ c ≠ ' ') ∧
        es.Pairwise fun a b => Spec.keyText (info.keys.map (valAt a.2.kids)) ≠ Spec.keyText (info.keys.map (valAt b.2.kids)))
  | _, _ => False

/-- A module of leaves of safe types, in containers and choices. -/
def SafeLeaves (rx : Str → Str → Bool) (f : List YNode) : Prop :=
  ∀ d, Inside d f → match d with
    | .leaf _ L => ∃ t dv, L = YTy.cls rx t dv ∧ SafeTy t
    | .leafList _ _ => False
    | .list _ _ _ _ => False
    | _ => True

/-- A program uses the binding: API calls and IETF and XML documents, in any order.  It does not
take back the presence of containers that hold data, or add to lists without key, does not unset or
`load=True` key leaves, and loads no documents in the default encoding, which sets key leaves
after the fact (C75). -/
def Proper (kids : List (Meta × Schema)) (acts : List Act) : Prop :=
  (∀ p op, Act.api p op ∈ acts → Plain op ∧ SparesKeys kids p op) ∧ ∀ g doc, Act.native g doc ∉ acts

end Spec
