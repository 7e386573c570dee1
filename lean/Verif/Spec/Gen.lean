import Verif.Model.Gen
import Verif.Spec.Tree

/-! # Specification of the data nodes of a YANG module (RFC 7950, 7.5, 7.8, 7.9)

Only the statement trees (`YNode`) and the data types of instance trees are taken from the
model. -/

namespace Spec
open Py Pyb

/-- The statements directly below a statement. -/
def stmts : YNode → List YNode
  | .cont _ _ kids => kids
  | .list _ _ _ kids => kids
  | .choice _ cases => cases
  | .case _ kids => kids
  | _ => []

/-- The name of a data node (choices and cases are not data nodes). -/
def dataName : YNode → Option Str
  | .leaf s _ => some s.name
  | .leafList s _ => some s.name
  | .cont s _ _ => some s.name
  | .list s _ _ _ => some s.name
  | _ => none

/-- Containers and lists: the nodes of a data tree that have children. -/
def Inner : YNode → Prop
  | .cont .. => True
  | .list .. => True
  | _ => False

/-- `DataIn f ch d`: `d` is a data node whose parent is the one with the statements `f`;
`ch` are the choices and cases it is in, outermost first. -/
inductive DataIn : List YNode → List (Str × Str) → YNode → Prop where
  | here {f d n} : d ∈ f → dataName d = some n → DataIn f [] d
  | via {f n cs c kids ch d} : YNode.choice n cs ∈ f → YNode.case c kids ∈ cs → DataIn kids ch d → DataIn f ((n, c) :: ch) d

/-- `d` is among the statements `f` or somewhere below them. -/
inductive Inside (d : YNode) : List YNode → Prop where
  | here {f} : d ∈ f → Inside d f
  | deep {f e} : e ∈ f → Inside d (stmts e) → Inside d f

/-- `Node f p d`: `d` is the data node with the path of names `p`. -/
inductive Node : List YNode → List Str → YNode → Prop where
  | here {f ch d n} : DataIn f ch d → dataName d = some n → Node f [n] d
  | deep {f ch e n p d} : DataIn f ch e → Inner e → dataName e = some n → Node (stmts e) p d → Node f (n :: p) d

/-- `Attr kids p m S`: following the attributes with the names `p` in a binding leads to the
class `S`, with arguments `m`. -/
inductive Attr : List (Meta × Schema) → List Str → Meta → Schema → Prop where
  | here {kids m S} : (m, S) ∈ kids → Attr kids [m.name] m S
  | cont {kids m pres ks p m' S} : (m, Schema.cont pres ks) ∈ kids → Attr ks p m' S → Attr kids (m.name :: p) m' S
  | list {kids m info ks p m' S} : (m, Schema.list info ks) ∈ kids → Attr ks p m' S → Attr kids (m.name :: p) m' S

/-- The data node can have data: a leaf or leaf-list, a container or list with children, or
a presence container (which the binding has only if asked to: `genPres`). -/
def Useful (genPres : Bool) : YNode → Prop
  | .leaf .. => True
  | .leafList .. => True
  | .cont _ pres kids => kids ≠ [] ∨ (genPres = true ∧ pres = true)
  | .list _ _ _ kids => kids ≠ []
  | _ => False

/-- The class is of the kind of the data node, has its name, namespace and module, and, for
a list, the keys of the `key` statement. -/
def Suits (genPres : Bool) : YNode → Meta → Schema → Prop
  | .leaf s L, m, .leaf L' => (m.name, m.ns, m.module_) = (s.name, s.ns, s.module_) ∧ L' = L
  | .leafList s L, m, .leafList L' => (m.name, m.ns, m.module_) = (s.name, s.ns, s.module_) ∧ L' = L
  | .cont s pres _, m, .cont pres' _ => (m.name, m.ns, m.module_) = (s.name, s.ns, s.module_) ∧ pres' = (genPres && pres)
  | .list s keys ordered kids, m, .list info ks =>
    (m.name, m.ns, m.module_) = (s.name, s.ns, s.module_) ∧ info.ordered = ordered ∧
      ((∀ k ∈ keys, ∃ s L, YNode.leaf s L ∈ kids ∧ s.name = k) → info.keys.map (fun i => (ks[i]?).map fun m => m.1.name) = keys.map some)
  | _, _, _ => False

/-- Two data nodes are in different cases of the same choice: the choices and cases around
them agree up to a choice, of which they are in different cases. -/
def Conflict : List (Str × Str) → List (Str × Str) → Prop
  | (n, c) :: p, (n', c') :: q => n = n' ∧ (c ≠ c' ∨ Conflict p q)
  | _, _ => False

/-- The data nodes with the same parent have different names (RFC 7950, 6.2.1). -/
def NamesOnce (f : List YNode) : Prop :=
  ∀ g, (g = f ∨ ∃ d, Inside d f ∧ Inner d ∧ stmts d = g) →
    ∀ ch d ch' d', DataIn g ch d → DataIn g ch' d' → dataName d = dataName d' → ch = ch' ∧ d = d'

/-- No choice within a case of another. -/
def NoNesting (f : List YNode) : Prop :=
  ∀ n cs c kids, Inside (.choice n cs) f → .case c kids ∈ cs → ∀ n' cs', ¬ Inside (.choice n' cs') kids

/-- No choice with the name of a choice in an enclosing container or list. -/
def NoShadow (f : List YNode) : Prop :=
  ∀ d, Inside d f → Inner d → ∀ n cs, .choice n cs ∈ stmts d →
    ∀ ch e, DataIn (stmts d) ch e → Inner e → ∀ cs', ¬ Inside (.choice n cs') (stmts e)

/-- Every list has a key, made of leaves of the list. -/
def KeyStmts (f : List YNode) : Prop :=
  ∀ s keys o kids, Inside (.list s keys o kids) f → keys ≠ [] ∧ ∀ k ∈ keys, ∃ s L, YNode.leaf s L ∈ kids ∧ s.name = k

/-- `Along f kids q g ks`: the path `q` leads through the class with the children `kids`, made
for the statements `f`, to a class with the children `ks`, that of the container or list
with the statements `g`. -/
inductive Along : List YNode → List (Meta × Schema) → Path → List YNode → List (Meta × Schema) → Prop where
  | nil {f kids} : Along f kids [] f kids
  | cont {f kids ch s pres g0 i m pres' ks0 q g ks} : DataIn f ch (.cont s pres g0) → kids[i]? = some (m, .cont pres' ks0) →
      m.name = s.name → Along g0 ks0 q g ks → Along f kids (.field i :: q) g ks
  | entry {f kids ch s keys o g0 i m info ks0 k q g ks} : DataIn f ch (.list s keys o g0) → kids[i]? = some (m, .list info ks0) →
      m.name = s.name → Along g0 ks0 q g ks → Along f kids (.field i :: .key k :: q) g ks

end Spec
