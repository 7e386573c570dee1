import Verif.Props.ExtDoc
import Verif.Props.DecRange

/-! # Assigning to decimal64 leaves (C17) -/

namespace Spec
open Py Pyb

/-- The number a Python value stands for: a truth value, an integer, a text, a decimal or a
float `m * 2 ^ e`. -/
inductive NumberOf : PyVal → Dec → Prop where
  | bool (b : Bool) : NumberOf (.bool b) ⟨if b then 1 else 0, 0⟩
  | int (n : Int) : NumberOf (.int n) ⟨n, 0⟩
  | text (l : DecLit) : l.Ok → NumberOf (.str l.text) l.value
  | dec (x : Dec) : NumberOf (.obj (.dec x)) x
  | whole (m : Int) (e : Nat) (s : Str) : NumberOf (.obj (.float (m, e) s)) ⟨m * 2 ^ e, 0⟩
  /-- `2 ^ -e` is `5 ^ e * 10 ^ -e` -/
  | fraction (m : Int) (e : Nat) (s : Str) : e ≠ 0 → NumberOf (.obj (.float (m, -e) s)) ⟨m * 5 ^ e, -e⟩

end Spec

namespace Pyb
open Py Spec

theorem toDecimal_number {v : PyVal} {x : Dec} (h : NumberOf v x) : toDecimal v = .ok x := by
  cases h with
  | bool b => rfl
  | int n => rfl
  | text l hl => exact decOfStr_lit hl
  | dec x => rfl
  | whole m e s => simp [toDecimal, decOfFloat]
  | fraction m e s he =>
    have : ¬ (0 : Int) ≤ -(e : Int) := by omega
    simp [toDecimal, decOfFloat, this, he]

/-- C17: whatever stands for a number, assigned to a `decimal64` leaf, is stored rounded to
the fraction digits, ties to even, or refused if that has more than 28 digits.

Missing: leaves with a range, for which it is false (`C17_range_refuted`). -/
theorem C17_assign_partial (rx : Str → Str → Bool) (name : Str) (fd : Nat) (d : Option PyVal) (v : PyVal) (x : Dec) (h : NumberOf v x) :
    (∃ k, ((YTy.ext name (.dec fd)).cls rx d).set v = .ok (.obj (.dec ⟨k, -fd⟩)) ∧ NearestEven k fd x.coef x.exp) ∨
    (∃ e k, ((YTy.ext name (.dec fd)).cls rx d).set v = .refused e ∧ NearestEven k fd x.coef x.exp ∧ 10 ^ 28 ≤ k.natAbs) := by
  have key := C17_rounding_partial fd x
  simp only [setDecimal] at key
  rcases key with ⟨k, h1, h2⟩ | ⟨h1, k, h2, h3⟩
  · refine .inl ⟨k, ext_set (w := .obj (.dec ⟨k, -fd⟩)) ?_, h2⟩
    simp only [ExtTy.call, toDecimal_number h, bind, Except.bind, h1]
  · refine .inr ⟨setterErr .invalidOperation, k, ?_, h2, h3⟩
    show (ExtTy.dec fd).build v = _
    simp only [ExtTy.build, ExtTy.dyn, ExtTy.call, toDecimal_number h, bind, Except.bind, h1]

/-- 2.675 as a float is a little less. -/
example : NumberOf (.obj (.float (6023508493227622, -51) py!"2.675")) ⟨6023508493227622 * 5 ^ 51, -51⟩ := .fraction 6023508493227622 51 _ (by decide)
example : ((YTy.ext py!"decimal64" (.dec 2)).cls noRx).set (.obj (.float (6023508493227622, -51) py!"2.675")) = .ok (.obj (.dec ⟨267, -2⟩)) := rfl
example : ((YTy.ext py!"decimal64" (.dec 2)).cls noRx).set (.str py!"2.675") = .ok (.obj (.dec ⟨268, -2⟩)) := rfl
example : ((YTy.ext py!"decimal64" (.dec 2)).cls noRx).set (.bool true) = .ok (.obj (.dec ⟨100, -2⟩)) := rfl

/-- C17 is false of values that are no numbers: `None` is taken, and stored as 0, without
fraction digits. -/
theorem C17_none_refuted (rx : Str → Str → Bool) (name : Str) (fd : Nat) (d : Option PyVal) :
    ((YTy.ext name (.dec fd)).cls rx d).set .none = .ok (.obj (.dec ⟨0, 0⟩)) := rfl

end Pyb
