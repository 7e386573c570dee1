import Verif.Model.YList
import Verif.Spec.LeafList

/-! # Specification vocabulary for YANG lists

Only the interface `EntryCls` and the type of histories are taken from the model. -/

namespace Spec
open Py Pyb

/-- What setting a key leaf means: the leaf then holds the converted value, and the
other key leaves are as before. -/
structure LawfulKeys {E : Type} (C : EntryCls E) (conv : Nat → PyVal → Except Err PyVal) : Prop where
  set_get : ∀ e i v e', C.setKey e i v = .ok e' → conv i v = .ok (C.getKey e' i)
  set_other : ∀ e i v e' j, C.setKey e i v = .ok e' → j ≠ i → C.getKey e' j = C.getKey e j

/-- The key leaves `vals` are those of the key `k`: `k` was written as the raw values
`raws`, and each leaf holds the conversion of its raw value.  With one key the key is
(equal to) the raw value itself (or its text, when given by keyword); with several it is their
texts separated by single spaces. -/
def KeyHolds (conv : Nat → PyVal → Except Err PyVal) (n : Nat) (k : PyVal) (vals : Nat → PyVal) : Prop :=
  ∃ raws : List PyVal, raws.length = n ∧
    (∀ i (h : i < raws.length), conv i raws[i] = .ok (vals i)) ∧
    ((n = 1 ∧ ∃ r, raws = [r] ∧ (pyEq k r = true ∨ k = .str r.toStr)) ∨
     (n ≠ 1 ∧ k = .str (join py!" " (raws.map PyVal.toStr))))

/-- An edit of an entry in place that leaves its key leaves alone (the generated
setters of key leaves refuse to work inside a list). -/
def KeepsKeys {E : Type} (C : EntryCls E) (f : E → E) : Prop :=
  ∀ e i, C.getKey (f e) i = C.getKey e i

/-- No two entries have the same tuple of key leaf values. -/
def DistinctKeyLeaves {E : Type} (C : EntryCls E) (n : Nat) (ms : List (PyVal × E)) : Prop :=
  ∀ i j (hi : i < ms.length) (hj : j < ms.length),
    (∀ a < n, C.getKey ms[i].2 a = C.getKey ms[j].2 a) → i = j

/-- A key value, as written, that the key leaf stores as an equal value. -/
def CanonKey (conv : Nat → PyVal → Except Err PyVal) (i : Nat) (r : PyVal) : Prop :=
  ∀ w, conv i r = .ok w → pyEq r w = true

/-- A key value, as written, that the key leaf stores as a value with the same text. -/
def CanonText (conv : Nat → PyVal → Except Err PyVal) (i : Nat) (r : PyVal) : Prop :=
  ∀ w, conv i r = .ok w → w.toStr = r.toStr

/-- Operations of a list with one key that give it in the canonical form, never by
keyword. -/
def PositionalCanon {E : Type} (C : EntryCls E) (conv : Nat → PyVal → Except Err PyVal) : LOp E → Prop
  | .add k => CanonKey conv 0 k
  | .setitem k _ => CanonKey conv 0 k
  | .append e => CanonKey conv 0 (C.getKey e 0)
  | .addNamed _ _ => False
  | .edit _ f => KeepsKeys C f
  | _ => True

/-- The words of a compound key are canonical. -/
def CanonWords (conv : Nat → PyVal → Except Err PyVal) (k : PyVal) : Prop :=
  ∀ words : List Str, k = .str (join py!" " words) → (∀ w ∈ words, ' ' ∉ w) →
    ∀ i (h : i < words.length), CanonText conv i (.str words[i])

/-- Operations of a list with several keys that write every key value canonically:
given by keyword, or as a text of canonical words; an appended entry's values have
canonical texts without spaces. -/
def TextCanon {E : Type} (C : EntryCls E) (conv : Nat → PyVal → Except Err PyVal) (n : Nat) : LOp E → Prop
  | .add k => CanonWords conv k
  | .setitem k _ => CanonWords conv k
  | .append e => ∀ i < n, ' ' ∉ (C.getKey e i).toStr ∧ (C.getKey e i).toStr ≠ [] ∧
      CanonText conv i (.str (C.getKey e i).toStr)
  | .addNamed raws _ => ∀ i r, raws[i]? = some (some r) → CanonText conv i r
  | .edit _ f => KeepsKeys C f
  | _ => True

end Spec
