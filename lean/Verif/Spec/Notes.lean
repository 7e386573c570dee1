import Verif.Model.Notes
import Verif.Spec.Loaded

/-! # What an annotated document says (RFC 7952) -/

namespace Spec
open Py Pyb

/-- The document `j` for an object of class `S` gives the annotation `name` of the object at
`p` the value `v`.

The annotations of a leaf are an object beside it, whose name is that of the leaf with `@`
in front; those of a container or entry are a member `@` in it.  The library also takes an
object beside a container, and one beside a list, which it uses for all entries.  `beside`
is the value of the member with `@` in front of its name. -/
inductive Annotates (repr : J → Str) : Schema → J → Option J → Path → Str → J → Prop where
  | inside {S ms beside o name v} : (['@'], .obj o) ∈ ms → (name, v) ∈ o → Annotates repr S (.obj ms) beside [] name v
  | beside {S j o name v} : (name, v) ∈ o → (∀ xs, j = .arr xs → xs ≠ [] ∧ ∀ info kids, S ≠ .list info kids) →
      Annotates repr S j (some (.obj o)) [] name v
  | field {pres kids ms beside} {x : Str × J} {i k p name v} : x ∈ ms → IsFor kids x.1 i → kids[i]? = some k →
      Annotates repr k.2 x.2 (ms.lookup ('@' :: x.1)) p name v → Annotates repr (.cont pres kids) (.obj ms) beside (.field i :: p) name v
  | entry {info kids xs beside x k' k p name v} : x ∈ xs → docKey repr info kids x = some k' → pyEq k' k = true →
      Annotates repr (.cont false kids) x beside p name v → Annotates repr (.list info kids) (.arr xs) beside (.key k :: p) name v

/-- Somewhere an annotation of a node in the document is no object. -/
inductive BadNote : Schema → J → Option J → Prop where
  | inside {S ms beside j} : (['@'], j) ∈ ms → (∀ o, j ≠ .obj o) → BadNote S (.obj ms) beside
  | beside {S j o} : (∀ o', o ≠ .obj o') → (∀ xs, j = .arr xs → xs ≠ []) → BadNote S j (some o)
  | field {pres kids ms beside} {x : Str × J} {i k} : x ∈ ms → IsFor kids x.1 i → kids[i]? = some k →
      BadNote k.2 x.2 (ms.lookup ('@' :: x.1)) → BadNote (.cont pres kids) (.obj ms) beside
  | entry {info kids xs beside x} : x ∈ xs → BadNote (.cont false kids) x beside → BadNote (.list info kids) (.arr xs) beside

/-- The top-level object of the document is annotated. -/
def RootNoted (doc : J) : Prop := ∃ ms j, doc = .obj ms ∧ (['@'], j) ∈ ms ∧ j ≠ .obj []

mutual
/-- The document without annotations. -/
def unnoted : Schema → J → J
  | .cont _ kids, .obj ms => .obj (unnotedMembers kids ms)
  | .list _ kids, .arr xs => .arr (unnotedElems kids xs)
  | _, j => j
def unnotedMembers (kids : List (Meta × Schema)) : List (Str × J) → List (Str × J)
  | [] => []
  | m :: ms =>
    if '@' ∈ m.1 then unnotedMembers kids ms
    else match memberOf kids m.1 with
      | some k => (m.1, unnoted k.2 m.2) :: unnotedMembers kids ms
      | none => m :: unnotedMembers kids ms
def unnotedElems (kids : List (Meta × Schema)) : List J → List J
  | [] => []
  | x :: xs => unnoted (.cont false kids) x :: unnotedElems kids xs
end

end Spec
