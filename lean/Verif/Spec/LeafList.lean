import Verif.Py.Val

/-! # Specification vocabulary for leaf-lists -/

namespace Spec
open Py

/-- No two items at different positions are equal (`==`). -/
def Distinct (xs : List PyVal) : Prop :=
  ∀ i j (hi : i < xs.length) (hj : j < xs.length), pyEq xs[i] xs[j] = true → i = j

/-- A value that, if the type takes it at all, is stored as an equal value. -/
def Canonical (conv : PyVal → Option PyVal) (v : PyVal) : Prop :=
  ∀ w, conv v = some w → pyEq v w = true

/-- `ys` is `xs` with `v` put in at one position. -/
def InsertedAt (xs : List PyVal) (p : Nat) (v : PyVal) (ys : List PyVal) : Prop :=
  ∃ l r, xs = l ++ r ∧ l.length = p ∧ ys = l ++ v :: r

/-- `ys` is `xs` without the item at position `p`. -/
def RemovedAt (xs : List PyVal) (p : Nat) (ys : List PyVal) : Prop :=
  ∃ l x r, xs = l ++ x :: r ∧ l.length = p ∧ ys = l ++ r

end Spec
