import Verif.Spec.YList

/-! # Specification vocabulary for the refusals of lists -/

namespace Spec
open Py Pyb

/-- The key leaves of a class accept and refuse values as `conv` says, whatever the
entry held before, and refuse them with `ValueError`; an entry that cannot be copied is
refused with `ValueError` too. -/
structure ExactKeys {E : Type} (C : EntryCls E) (conv : Nat → PyVal → Except Err PyVal) : Prop where
  accepts : ∀ e i v w, conv i v = .ok w → ∃ e', C.setKey e i v = .ok e'
  refuses : ∀ e i v x, conv i v = .error x → C.setKey e i v = .error .valueError
  copies : ∀ e x, C.copy e = .error x → x = .valueError

/-- Lists, sets and dicts cannot be keys of a dict. -/
def Unhashable (k : PyVal) : Prop := (∃ r n, k = .seq r n) ∨ ∃ ns, k = .obj (.bits ns)

/-- An entry is stored under a key equal to `k`. -/
def Present {E : Type} (ms : List (PyVal × E)) (k : PyVal) : Prop := ∃ p ∈ ms, pyEq p.1 k = true

/-- `k` writes the key values `raws` of a list with `n` keys: with one key it is any
value but the empty text; with several it is a text of `n` words between single
spaces. -/
def Writes (n : Nat) (k : PyVal) (raws : List PyVal) : Prop :=
  (n = 1 ∧ k ≠ .str [] ∧ raws = [k]) ∨
  (n ≠ 1 ∧ ∃ words : List Str, words ≠ [] ∧ words.length = n ∧ (∀ w ∈ words, ' ' ∉ w) ∧
    k = .str (join py!" " words) ∧ raws = words.map PyVal.str)

/-- Every key leaf takes its value. -/
def Taken (conv : Nat → PyVal → Except Err PyVal) (raws : List PyVal) : Prop :=
  ∀ i (h : i < raws.length), ∃ w, conv i raws[i] = .ok w

/-- Several keys, and the key is no text. -/
def NotText (n : Nat) (k : PyVal) : Prop := n ≠ 1 ∧ ∀ s, k ≠ .str s

end Spec
