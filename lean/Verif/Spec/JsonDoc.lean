import Verif.Spec.Json

/-! # Specification vocabulary: what is where in a document -/

namespace Spec
open Py Pyb

/-- A step from an object to one below: a child of a container, or an entry of a list. -/
inductive Pos where
  | child (i : Nat)
  | elem (i : Nat)
  deriving DecidableEq

/-- The object at a position, with its class and what the class was told (nothing for
the object of the module; the entries of a list are told the same as the list). -/
def treeAt : Option Meta → Schema → Inst → List Pos → Option (Option Meta × Schema × Inst)
  | pm, S, n, [] => some (pm, S, n)
  | _, .cont _ kids, .cont _ _ ns, .child i :: p =>
    match kids[i]?, ns[i]? with
    | some k, some c => treeAt (some k.1) k.2 c p
    | _, _ => none
  | pm, .list _ kids, .list _ es, .elem i :: p =>
    match es[i]? with
    | some q => treeAt pm (.cont false kids) q.2 p
    | none => none
  | _, _, _, _ => none

/-- The name of a member (RFC 7951, 4): qualified at the top level, and if the namespace
is not that of the parent. -/
def rfcName (pm : Option Meta) (m : Meta) : Str :=
  match pm with
  | none => m.module_ ++ ':' :: m.name
  | some p => if p.ns = m.ns then m.name else m.module_ ++ ':' :: m.name

/-- What a document has at a position. -/
def docAt : Option Meta → Schema → J → List Pos → Option J
  | _, _, j, [] => some j
  | pm, .cont _ kids, .obj ms, .child i :: p =>
    match kids[i]? with
    | some k =>
      match jget ms (rfcName pm k.1) with
      | some j => docAt (some k.1) k.2 j p
      | none => none
    | none => none
  | pm, .list _ kids, .arr xs, .elem i :: p =>
    match xs[i]? with
    | some j => docAt pm (.cont false kids) j p
    | none => none
  | _, _, _, _ => none

/-- The object is the child of a container. -/
def EndsInChild (p : List Pos) : Prop := ∃ i, p.getLast? = some (.child i)

/-- The object is data or has some below: a set leaf, a changed leaf-list, a list with
entries, a container marked as present, or a container with such a child. -/
inductive Shown : Schema → Inst → Prop where
  | leaf {L v} : Shown (.leaf L) (.leaf v true)
  | leafList {L vs} : Shown (.leafList L) (.leafList vs true)
  | list {info kids ch es} : es ≠ [] → Shown (.list info kids) (.list ch es)
  | present {pres kids ch ns} : Shown (.cont pres kids) (.cont ch true ns)
  | child {pres kids ch pr ns} {i : Nat} {k : Meta × Schema} {c} : kids[i]? = some k → ns[i]? = some c →
      Shown k.2 c → Shown (.cont pres kids) (.cont ch pr ns)

/-- The same, with conditions on the leaves and leaf-lists that are wanted. -/
inductive Incl (lf : LeafCls → PyVal → Bool → Bool) (ll : Bool → Bool) : Schema → Inst → Prop where
  | leaf {L v ch} : lf L v ch = true → Incl lf ll (.leaf L) (.leaf v ch)
  | leafList {L vs ch} : ll ch = true → Incl lf ll (.leafList L) (.leafList vs ch)
  | list {info kids ch es} : es ≠ [] → Incl lf ll (.list info kids) (.list ch es)
  | present {pres kids ch ns} : Incl lf ll (.cont pres kids) (.cont ch true ns)
  | child {pres kids ch pr ns} {i : Nat} {k : Meta × Schema} {c} : kids[i]? = some k → ns[i]? = some c →
      Incl lf ll k.2 c → Incl lf ll (.cont pres kids) (.cont ch pr ns)

mutual
/-- The names of siblings are in order, at all levels. -/
def AllNames : Schema → Prop
  | .cont _ kids => GoodNames kids ∧ AllNamesKids kids
  | .list _ kids => GoodNames kids ∧ AllNamesKids kids
  | _ => True
def AllNamesKids : List (Meta × Schema) → Prop
  | [] => True
  | k :: ks => AllNames k.2 ∧ AllNamesKids ks
end

end Spec
