import Verif.Spec.Tree
import Verif.Spec.XPath
import Verif.Spec.ListErr
import Verif.Model.Reg

/-! # What is in the tree at a data path

Only the classes and objects, and the texts of keys, are shared with the model. -/

namespace Spec
open Py Pyb

/-- The child of that name, with its class. -/
def kidNamed (t : Str) : List (Meta × Schema) → List Inst → Option (Schema × Inst)
  | k :: ks, n :: ns => if k.1.name = t then some (k.2, n) else kidNamed t ks ns
  | _, _ => none

/-- The names of a list's keys, with the texts of their values in an entry's key. -/
def entryKeys (info : ListInfo) (kids : List (Meta × Schema)) (k : PyVal) : List (Str × Str) :=
  (entryKeyNames info kids).zip (entryTexts info.keys.length k)

/-- What is at a data path, below an object with the given children: a leaf with its value, a
leaf-list, a container or a list entry.  A list itself is at no path. -/
def regAt : List PStep → List (Meta × Schema) → List Inst → Option XObj
  | [], _, _ => none
  | s :: r, kids, ns =>
    match kidNamed s.tag kids ns with
    | some (.leaf _, .leaf v _) => if s.keys = [] ∧ r = [] then some (leafObj v) else none
    | some (.leafList _, .leafList _ _) => if s.keys = [] ∧ r = [] then some llObj else none
    | some (.cont _ kids', .cont _ _ ns') => if s.keys = [] then (if r = [] then some contObj else regAt r kids' ns') else none
    | some (.list info kids', .list _ es) =>
      match es.find? fun e => entryKeys info kids' e.1 = s.keys with
      | some (_, .cont _ _ ns') => if r = [] then some contObj else regAt r kids' ns'
      | _ => none
    | _ => none

/-! ## Classes whose objects can all be found -/

/-- No lists at or below. -/
inductive NoLists : Schema → Prop where
  | leaf (L) : NoLists (.leaf L)
  | leafList (L) : NoLists (.leafList L)
  | cont (pres kids) : (∀ k ∈ kids, NoLists k.2) → NoLists (.cont pres kids)

/-- Children with different names, which are identifiers; no lists in the cases of choices. -/
structure Named (kids : List (Meta × Schema)) : Prop where
  nodup : (kids.map fun k => k.1.name).Nodup
  ident : ∀ k ∈ kids, Identifier k.1.name
  cases_ : ∀ k ∈ kids, k.1.choice ≠ none → NoLists k.2

/-- The same all the way down; lists have keys, which are different leaves with names the
helper can take. -/
inductive Addressable : Schema → Prop where
  | leaf (L) : Addressable (.leaf L)
  | leafList (L) : Addressable (.leafList L)
  | cont (pres kids) : Named kids → (∀ k ∈ kids, Addressable k.2) → Addressable (.cont pres kids)
  | list (info kids) : Named kids → (∀ k ∈ kids, Addressable k.2) → info.keys ≠ [] → info.keys.Nodup →
      (∀ j ∈ info.keys, ∃ m L, kids[j]? = some (m, .leaf L) ∧ '.' ∉ m.name ∧ m.name ≠ py!"obj_ptr") → Addressable (.list info kids)

/-- A key text the helper can take, also when the entry is deleted. -/
def KeyText (v : Str) : Prop := GoodValue v ∧ v.getLast? ≠ some '['

/-- A data path of the classes: names of children, and for a list entry its keys. -/
def PathOk : List PStep → List (Meta × Schema) → Prop
  | [], _ => True
  | s :: r, kids => ∃ k ∈ kids, k.1.name = s.tag ∧
    match k.2 with
    | .leaf _ => s.keys = [] ∧ r = []
    | .leafList _ => s.keys = [] ∧ r = []
    | .cont _ kids' => s.keys = [] ∧ PathOk r kids'
    | .list info kids' => s.keys.map (·.1) = entryKeyNames info kids' ∧ (∀ x ∈ s.keys, KeyText x.2) ∧ PathOk r kids'

/-! ## Histories that are followed -/

/-- Keys that are told apart by their texts: two that are `==`, or have the same text, are the
same. -/
def ToldApart (K : PyVal → Prop) : Prop := ∀ a b, K a → K b → (pyEq a b = true ∨ a.toStr = b.toStr) → a = b

/-- What is done to an object of a class: keys are from `K` with texts the helper can take, what
is unset has no lists below it, and nothing is copied. -/
def OpOk (K : PyVal → Prop) : Schema → Op → Prop
  | _, .set _ _ => True
  | _, .ll _ => True
  | _, .present _ => True
  | S, .unset => NoLists S
  | .list info _, .add k => K k ∧ ∀ v ∈ entryTexts info.keys.length k, KeyText v
  | .list _ _, .delete k => K k
  | .list _ _, .addNamed raws => ∀ rs, allGiven raws = .ok rs → K (namedKey rs) ∧ ∀ r ∈ rs, KeyText r.toStr
  | _, .add _ => True
  | _, .delete _ => True
  | _, .addNamed _ => True
  | _, _ => False

/-- If the operation on that object raises, then it may do so after a new object was registered:
the `__init__` of a leaf's type refuses the value; a leaf-list is assigned, or extended with
`+=`; a new entry, whose key leaves may not take their values. -/
def Late : Schema → Inst → Op → Prop
  | .leaf L, _, .set v _ => ∃ e, L.set v = .marked e
  | .leafList _, _, .ll (.assign _) => True
  | .leafList _, _, .ll (.iadd _) => True
  | .list info _, .list _ es, .add k => ¬ Unhashable k ∧ k ≠ .none ∧ ¬ Present es k ∧ ∃ raws, Writes info.keys.length k raws
  | .list info _, .list _ es, .addNamed raws =>
    ∃ rs : List PyVal, raws = rs.map some ∧ rs.length = info.keys.length ∧ ¬ Present es (.str (join py!" " (rs.map PyVal.toStr)))
  | _, _, _ => False

/-- Nothing is raised, or not as late as that. -/
def StepOk (kids : List (Meta × Schema)) (ns : List Inst) (p : Path) (op : Op) : Prop :=
  (runRoot kids ns p op).2 = none ∨ ∀ S n, clsAt kids p = some S → objAt ns p = some n → ¬ Late S n op

/-- This holds of each operation of a history. -/
def HistOk (K : PyVal → Prop) (kids : List (Meta × Schema)) : List Inst → List (Path × Op) → Prop
  | _, [] => True
  | ns, (p, op) :: ops =>
    (∀ S, clsAt kids p = some S → OpOk K S op) ∧ StepOk kids ns p op ∧
    HistOk K kids (runRoot kids ns p op).1 ops

end Spec
