import Verif.Spec.IntegerPart
import Verif.Props.Restricted

/-! # C12: decimals and floats given to integer leaves -/

namespace Pyb
open Py Spec

theorem pow10_pos (k : Nat) : (0 : Int) < 10 ^ k := Int.pow_pos (by decide)

/-- `int()` drops the fraction. -/
theorem trunc_integerPart (x : Dec) (n : Int) : IntegerPart x n ↔ x.trunc = n := by
  unfold IntegerPart numerator denominator Dec.trunc
  by_cases h : 0 ≤ x.exp
  · have e : (-x.exp).toNat = 0 := by omega
    rw [if_pos h, e]
    generalize x.coef * 10 ^ x.exp.toNat = m
    simp only [Int.pow_zero, Int.mul_one]
    omega
  · have e : x.exp.toNat = 0 := by omega
    rw [if_neg h, e]
    have hp := pow10_pos (-x.exp).toNat
    generalize (10 : Int) ^ (-x.exp).toNat = d at hp ⊢
    generalize x.coef = m
    simp only [Int.pow_zero, Int.mul_one]
    have pos : ∀ a n : Int, (n * d ≤ a ∧ a < (n + 1) * d) ↔ a / d = n := by
      intro a n
      rw [← Int.le_ediv_iff_mul_le hp, ← Int.ediv_lt_iff_lt_mul hp]
      omega
    by_cases hm : 0 ≤ m
    · rw [Int.tdiv_eq_ediv_of_nonneg hm, ← pos]
      constructor
      · exact fun h => h.1 hm
      · refine fun h => ⟨fun _ => h, fun h0 => ?_⟩
        have : m = 0 := by omega
        subst this
        have hn : n = 0 := by
          have := (pos 0 n).1 h
          simpa using this.symm
        subst hn
        simp
        exact hp
    · have e2 : m.tdiv d = -((-m) / d) := by
        rw [← Int.tdiv_eq_ediv_of_nonneg (by omega), Int.neg_tdiv, Int.neg_neg]
      have e3 := pos (-m) (-n)
      rw [e2]
      have e4 : (-n + 1) * d = -((n - 1) * d) := by rw [← Int.neg_mul]; congr 1; omega
      have e5 : -n * d = -(n * d) := Int.neg_mul ..
      rw [e4, e5] at e3
      generalize (n - 1) * d = u at *
      generalize n * d = w at *
      generalize (n + 1) * d = z at *
      generalize (-m) / d = q at *
      constructor
      · intro hh
        have := e3.1 (by omega)
        omega
      · intro hh
        have := e3.2 (by omega)
        omega

/-- Every decimal has an integer part. -/
theorem integerPart_exists (x : Dec) : ∃ n, IntegerPart x n := ⟨_, (trunc_integerPart x _).2 rfl⟩

/-- C12 for a decimal other than zero given to a leaf of a built-in integer type: the leaf holds its integer part, or the
assignment raises since that is out of the bounds of the type. -/
theorem C12_decimal_integer (rx : Str → Str → Bool) (t : IntTy) (lo hi : Int) (hb : builtinBounds t.name = some (lo, hi))
    (x : Dec) (h0 : x.coef ≠ 0) (n : Int) (hn : IntegerPart x n) :
    setLeaf rx t.rty (.obj (.dec x)) = if lo ≤ n ∧ n ≤ hi then .ok (.int n) else .error .valueError := by
  have hv : IsNum (.obj (.dec x)) n := by
    refine ⟨?_, .inl ?_⟩
    · rw [← (trunc_integerPart x n).1 hn]; rfl
    · simp [PyVal.truthy, PyObj.truthy, h0]
  rw [builtin_tower]
  have hin : InType [[builtinPart t]] n ↔ lo ≤ n ∧ n ≤ hi := by
    rw [← builtin_allowed hb]; simp [InType]
  split
  · next h => exact setLeaf_tower_ok rx _ (builtin_legal t) _ n hv (hin.2 h)
  · next h => exact setLeaf_tower_reject rx _ (builtin_legal t) _ n hv (fun h' => h (hin.1 h')) (fun x hx => by simp at hx)

/-- The same for a float other than zero (its text does not matter). -/
theorem C12_float_integer (rx : Str → Str → Bool) (t : IntTy) (lo hi : Int) (hb : builtinBounds t.name = some (lo, hi))
    (m e : Int) (r : Str) (h0 : m ≠ 0) (n : Int) (hn : IntegerPart (decOfFloat (m, e)) n) :
    setLeaf rx t.rty (.obj (.float (m, e) r)) = if lo ≤ n ∧ n ≤ hi then .ok (.int n) else .error .valueError := by
  have hv : IsNum (.obj (.float (m, e) r)) n := by
    refine ⟨?_, .inl ?_⟩
    · rw [← (trunc_integerPart _ n).1 hn]; rfl
    · simp [PyVal.truthy, PyObj.truthy, h0]
  rw [builtin_tower]
  have hin : InType [[builtinPart t]] n ↔ lo ≤ n ∧ n ≤ hi := by
    rw [← builtin_allowed hb]; simp [InType]
  split
  · next h => exact setLeaf_tower_ok rx _ (builtin_legal t) _ n hv (hin.2 h)
  · next h => exact setLeaf_tower_reject rx _ (builtin_legal t) _ n hv (fun h' => h (hin.1 h')) (fun x hx => by simp at hx)

example : IntegerPart ⟨-29, -1⟩ (-2) := by unfold IntegerPart; decide
example : setLeaf (fun _ _ => true) IntTy.int8.rty (.obj (.dec ⟨-29, -1⟩)) = .ok (.int (-2)) :=
  C12_decimal_integer _ .int8 _ _ rfl _ (by decide) (-2) (by unfold IntegerPart; decide)
example : setLeaf (fun _ _ => true) IntTy.uint8.rty (.obj (.dec ⟨3, 2⟩)) = .error .valueError :=
  C12_decimal_integer _ .uint8 _ _ rfl _ (by decide) 300 (by unfold IntegerPart; decide)
example : setLeaf (fun _ _ => true) IntTy.int8.rty (.obj (.float (-5, -1) py!"-2.5")) = .ok (.int (-2)) :=
  C12_float_integer _ .int8 _ _ rfl _ _ _ (by decide) (-2) (by unfold IntegerPart; decide)

end Pyb
