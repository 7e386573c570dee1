import Verif.Model.Get
import Verif.Spec.Tree

/-! # Specification vocabulary for `get` -/

namespace Spec
open Py Pyb

/-- The item found by following a path through nested dicts: by the YANG name of the
child, by the key of the entry. -/
def itemAt : Schema → DVal → Path → Option DVal
  | _, d, [] => some d
  | .cont _ kids, .dict items, .field i :: p =>
    match kids[i]? with
    | some k =>
      match items.find? fun x => x.1 == k.1.name with
      | some x => itemAt k.2 x.2 p
      | none => none
    | none => none
  | .list _ kids, .odict items, .key k :: p =>
    match items.find? fun x => pyEq x.1 k with
    | some x => itemAt (.cont false kids) x.2 p
    | none => none
  | _, _, _ => none

/-- The object is data, or has some below: a set leaf, a leaf-list with values, a list
with entries, a presence container that is present, or a container with such a child. -/
inductive Visible : Schema → Inst → Prop where
  | leaf {L v} : Visible (.leaf L) (.leaf v true)
  | leafList {L vs ch} : vs ≠ [] → Visible (.leafList L) (.leafList vs ch)
  | list {info kids ch es} : es ≠ [] → Visible (.list info kids) (.list ch es)
  | present {kids ch ns} : Visible (.cont true kids) (.cont ch true ns)
  | child {pres kids ch pr ns} {i : Nat} {k : Meta × Schema} {c} : kids[i]? = some k → ns[i]? = some c →
      Visible k.2 c → Visible (.cont pres kids) (.cont ch pr ns)

/-- Siblings have different names. -/
def DistinctNames (S : Schema) : Prop :=
  ∀ p pres kids, schemaAt S p = some (.cont pres kids) → (kids.map fun k => k.1.name).Nodup

/-- The path leads to an entry of a list. -/
def EndsInKey (p : Path) : Prop := ∃ k, p.getLast? = some (.key k)

end Spec
