import Verif.Spec.Tree
import Verif.Spec.Json
import Verif.Model.Native
import Verif.Model.Xml

/-! # Histories with documents

What a program does with a binding: operations of the API, and documents loaded into it,
in any order.  Exceptions are caught by the caller. -/

namespace Spec
open Py Pyb

/-- An action on a binding. -/
inductive Act where
  | api (p : Path) (op : Op)
  | ietf (g : LoadOpt) (doc : J)
  | native (g : LoadOpt) (doc : J)
  | xml (infer : Str → PyVal) (doc : Xml)

/-- One action. -/
def act (kids : List (Meta × Schema)) (ns : List Inst) : Act → List Inst
  | .api p op => (runRoot kids ns p op).1
  | .ietf g doc => (ietfLoad g kids ns doc).1
  | .native g doc => (nativeLoad g kids ns doc).1
  | .xml infer doc => (xmlLoad infer kids ns doc).1

/-- The binding after some actions. -/
def session (kids : List (Meta × Schema)) (ns : List Inst) (acts : List Act) : List Inst :=
  acts.foldl (act kids) ns

/-- Every list at or below the class has a key. -/
def Keyed (S : Schema) : Prop := ∀ p info kids, schemaAt S p = some (.list info kids) → info.keys ≠ []

/-! ## Keys and key leaves -/

/-- The key leaf at position `j` of the entry `e` is set to what its class makes of `r`. -/
def HoldsKey (kids : List (Meta × Schema)) (e : Inst) (j : Nat) (r : PyVal) : Prop :=
  ∃ m L v, kids[j]? = some (m, .leaf L) ∧ nodeAt e [.field j] = some (.leaf v true) ∧ L.set r = .ok v

/-- `k` is the key written as the values `raws`: with one key the value itself, or its text;
with several their texts, separated by single spaces. -/
def WrittenAs (k : PyVal) (raws : List PyVal) : Prop :=
  (∃ r, raws = [r] ∧ (pyEq k r = true ∨ k = .str r.toStr)) ∨
  (raws.length ≠ 1 ∧ k = .str (join py!" " (raws.map PyVal.toStr)))

/-- The key leaves of the entry `e` hold the values its key `k` is written as. -/
def KeyAgrees (info : ListInfo) (kids : List (Meta × Schema)) (k : PyVal) (e : Inst) : Prop :=
  ∃ raws : List PyVal, raws.length = info.keys.length ∧ WrittenAs k raws ∧
    ∀ (i : Nat) j r, info.keys[i]? = some j → raws[i]? = some r → HoldsKey kids e j r

/-- The keys of every list at or below the class are different leaves of its entries, and
in no choice of the entries. -/
def KeysPlain (S : Schema) : Prop := ∀ p info kids, schemaAt S p = some (.list info kids) → info.keys.Nodup ∧
  ∀ j ∈ info.keys, ∃ m L, kids[j]? = some (m, .leaf L) ∧ (m.choice = none ∨ ∀ k ∈ kids, k.1.choice = m.choice)

/-- Not an `_unset_` of a key leaf of an entry, and not a call of its setter with
`load=True`, which is meant for the library itself. -/
def SparesKeys (kids : List (Meta × Schema)) (p : Path) (op : Op) : Prop :=
  ∀ q k j info lk, p = q ++ [.key k, .field j] → clsAt kids q = some (.list info lk) → j ∈ info.keys →
    op ≠ .unset ∧ ∀ v, op ≠ .set v true

end Spec
