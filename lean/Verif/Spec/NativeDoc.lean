import Verif.Spec.JsonDoc
import Verif.Model.Native

/-! # Specification vocabulary: what is where in a native JSON document -/

namespace Spec
open Py Pyb

/-- The name of the member for the entry with a key (RFC 8259: names are texts). -/
def memberText : PyVal → Option Str
  | .str s => some s
  | .int n => some (intStr n)
  | .bool true => some py!"true"
  | .bool false => some py!"false"
  | .none => some py!"null"
  | .seq _ _ => none
  | .obj (.float _ r) => some r
  | .obj _ => none

/-- The JSON value for an integer, a boolean or a text; a decimal is the nearest floating
point number, octets are base64, a set of bits is the names separated by spaces. -/
inductive PlainJson : PyVal → J → Prop where
  | num (n : Int) : PlainJson (.int n) (.num n)
  | bool (b : Bool) : PlainJson (.bool b) (.bool b)
  | str (s : Str) : PlainJson (.str s) (.str s)
  | dec (x : Dec) : PlainJson (.obj (.dec x)) (.float (floatOfDec x))
  | bytes (b : List Nat) : PlainJson (.obj (.bytes b)) (.str (b64encode b))
  | bits (ns : List Str) : PlainJson (.obj (.bits ns)) (.str (join [' '] ns))

/-- What a native document has at a position of a tree: children are found by their
names, entries by the texts of their keys. -/
def nDocAt : Schema → Inst → J → List Pos → Option J
  | _, _, j, [] => some j
  | .cont _ kids, .cont _ _ ns, .obj ms, .child i :: p =>
    match kids[i]?, ns[i]? with
    | some k, some c =>
      match jget ms k.1.name with
      | some j => nDocAt k.2 c j p
      | none => none
    | _, _ => none
  | .list _ kids, .list _ es, .obj ms, .elem i :: p =>
    match es[i]? with
    | some q =>
      match memberText q.1 with
      | some s =>
        match jget ms s with
        | some j => nDocAt (.cont false kids) q.2 j p
        | none => none
      | none => none
    | none => none
  | _, _, _, _ => none

/-- The object is data or has some below: a set leaf, a leaf-list with values, a list with
entries, a presence container that is present, or a container with such a child. -/
inductive NShown : Schema → Inst → Prop where
  | leaf {L v} : NShown (.leaf L) (.leaf v true)
  | leafList {L vs ch} : vs ≠ [] → NShown (.leafList L) (.leafList vs ch)
  | list {info kids ch es} : es ≠ [] → NShown (.list info kids) (.list ch es)
  | present {kids ch ns} : NShown (.cont true kids) (.cont ch true ns)
  | child {pres kids ch pr ns} {i : Nat} {k : Meta × Schema} {c} : kids[i]? = some k → ns[i]? = some c →
      NShown k.2 c → NShown (.cont pres kids) (.cont ch pr ns)

/-- No two entries of a list have keys with the same text. -/
def TextsApart (n : Inst) : Prop := ∀ ch es, Within (.list ch es) n → (es.map fun q => memberText q.1).Nodup

mutual
/-- No child of the entries of a user-ordered list is called `__yang_order`. -/
def NoOrderName : Schema → Prop
  | .cont _ kids => NoOrderNames kids
  | .list info kids => (info.ordered = true → ∀ k ∈ kids, k.1.name ≠ py!"__yang_order") ∧ NoOrderNames kids
  | _ => True
def NoOrderNames : List (Meta × Schema) → Prop
  | [] => True
  | k :: ks => NoOrderName k.2 ∧ NoOrderNames ks
end

end Spec
