import Verif.Model.DecDoc
import Verif.Lemmas.DecNum
import Verif.Props.Scalar

/-! # Floats near decimals -/

namespace Pyb
open Py Spec

/-- The float of a decimal, `m * 2 ^ e`, is within half a unit of its last place, and that
is no more than a 2^52th of the decimal. -/
theorem floatOfDec_near (k : Int) (fd : Nat) (hk : k ≠ 0) :
    let f := floatOfDec ⟨k, -fd⟩
    let D : Int := 10 ^ fd * 2 ^ f.2.toNat
    let N : Int := k * 2 ^ (-f.2).toNat
    2 * (f.1 * D - N).natAbs ≤ D ∧ 2 ^ 52 * D ≤ N.natAbs := by
  have hn : k.natAbs ≠ 0 := by omega
  have hd : 10 ^ fd ≠ 0 := Nat.ne_of_gt (Nat.pow_pos (by decide))
  have e1 : (-(fd : Int)).toNat = 0 := by omega
  have e2 : (- -(fd : Int)).toNat = fd := by omega
  simp only [floatOfDec, e1, e2, Nat.pow_zero, Nat.mul_one, hn, if_false]
  generalize he0 : (k.natAbs.log2 : Int) - (10 ^ fd : Nat).log2 - 53 = e0
  generalize he : (if 2 ^ 53 * (10 ^ fd * 2 ^ e0.toNat) ≤ k.natAbs * 2 ^ (-e0).toNat then e0 + 1 else e0) = e
  have hlow := chosen_lower k.natAbs (10 ^ fd) hn hd e0 e he0.symm he.symm
  have hD : 0 < 10 ^ fd * 2 ^ e.toNat := Nat.mul_pos (Nat.pow_pos (by decide)) (Nat.pow_pos (by decide))
  have hs := divHalfEven_spec (k.natAbs * 2 ^ (-e).toNat : Nat) (10 ^ fd * 2 ^ e.toNat) hD
  generalize hm : divHalfEven (k.natAbs * 2 ^ (-e).toNat : Nat) (10 ^ fd * 2 ^ e.toNat) = m at hs ⊢
  have hND : (k * 2 ^ (-e).toNat).natAbs = k.natAbs * 2 ^ (-e).toNat := by
    rw [Int.natAbs_mul, Int.natAbs_pow]; rfl
  have hDc : (10 ^ fd * 2 ^ e.toNat : Int) = ((10 ^ fd * 2 ^ e.toNat : Nat) : Int) := by
    push_cast; rfl
  rw [hND, hDc]
  generalize (10 ^ fd * 2 ^ e.toNat : Nat) = D at *
  have hNs : (k * 2 ^ (-e).toNat) = if k < 0 then -((k.natAbs * 2 ^ (-e).toNat : Nat) : Int) else ((k.natAbs * 2 ^ (-e).toNat : Nat) : Int) := by
    have : (0 : Int) < 2 ^ (-e).toNat := Int.pow_pos (by decide)
    split
    · next h =>
      push_cast
      rw [show ((k.natAbs : Nat) : Int) = -k by omega, Int.neg_mul, Int.neg_neg]
    · next h =>
      push_cast
      rw [show ((k.natAbs : Nat) : Int) = k by omega]
  rw [hNs]
  generalize (k.natAbs * 2 ^ (-e).toNat : Nat) = N at *
  refine ⟨?_, by exact_mod_cast hlow⟩
  by_cases h : k < 0
  · simp only [h, if_true, Int.neg_mul]
    have := hs.1
    omega
  · simp only [h, if_false]
    have := hs.1
    omega

theorem decOfFloat_scale (m e : Int) (s : Nat) (hs : 0 ≤ (decOfFloat (m, e)).exp + s) :
    (decOfFloat (m, e)).coef * 10 ^ ((decOfFloat (m, e)).exp + s).toNat * 2 ^ (-e).toNat =
      m * 2 ^ e.toNat * 10 ^ s := by
  by_cases h : 0 ≤ e
  · have a : (-e).toNat = 0 := by omega
    simp only [decOfFloat, h, if_true, a, Int.pow_zero, Int.mul_one, Int.zero_add, Int.toNat_natCast]
  · have a : e.toNat = 0 := by omega
    simp only [decOfFloat, h, if_false, a, Int.pow_zero, Int.mul_one] at hs ⊢
    obtain ⟨j, rfl⟩ : ∃ j : Nat, e = -(j : Int) := ⟨(-e).toNat, by omega⟩
    have b : (- -(j : Int)).toNat = j := by omega
    have c : (-(j : Int) + s).toNat = s - j := by omega
    rw [b, c]
    have hj : s = j + (s - j) := by omega
    conv => rhs; rw [hj, Int.pow_add, show (10 : Int) = 5 * 2 from rfl, Int.mul_pow]
    rw [show (10 : Int) = 5 * 2 from rfl]
    ac_rfl

theorem nearest_strict (k k' C U : Int) (hU : 0 < U) (h1 : 2 * ((C - k * U).natAbs : Int) < U)
    (h2 : 2 * ((C - k' * U).natAbs : Int) ≤ U) : k' = k := by
  have h3 : ((k' - k) * U).natAbs < U.natAbs * 1 := by
    rw [Int.sub_mul]; omega
  rw [Int.natAbs_mul, Nat.mul_comm] at h3
  have := Nat.lt_of_mul_lt_mul_left h3
  omega

/-- The float of a decimal of up to 15 digits, rounded again. -/
theorem quantize_float (fd : Nat) (k : Int) (hk : k.natAbs < 2 ^ 52) :
    quantize (decOfFloat (floatOfDec ⟨k, -fd⟩)) fd = .ok ⟨k, -fd⟩ := by
  by_cases h0 : k = 0
  · subst h0
    have : decOfFloat (floatOfDec ⟨0, -fd⟩) = ⟨0, 0⟩ := by simp [floatOfDec, decOfFloat]
    rw [this]
    simp [quantize]
  obtain ⟨k', hk', hq⟩ := quantize_result (decOfFloat (floatOfDec ⟨k, -fd⟩)) fd
  have hnear := floatOfDec_near k fd h0
  generalize floatOfDec ⟨k, -fd⟩ = f at *
  obtain ⟨m, e⟩ := f
  dsimp only at hnear
  obtain ⟨s, hs1, hs2, hs3, -⟩ := hk'
  have hscale := decOfFloat_scale m e s hs2
  generalize hC : (decOfFloat (m, e)).coef * 10 ^ ((decOfFloat (m, e)).exp + s).toNat = C at *
  have hU : (0 : Int) < 10 ^ (s - fd) := Int.pow_pos (by decide)
  have hP : (0 : Int) < 2 ^ (-e).toNat := Int.pow_pos (by decide)
  have hQ : (0 : Int) < 2 ^ e.toNat := Int.pow_pos (by decide)
  have hd : (0 : Int) < 10 ^ fd := Int.pow_pos (by decide)
  have hsd : (10 : Int) ^ s = 10 ^ (s - fd) * 10 ^ fd := by rw [← Int.pow_add]; congr 1; omega
  rw [hsd] at hscale
  generalize (10 : Int) ^ (s - fd) = U at *
  generalize (10 : Int) ^ fd = d at *
  generalize (2 : Int) ^ (-e).toNat = P at *
  generalize (2 : Int) ^ e.toNat = Q at *
  obtain ⟨n1, n2⟩ := hnear
  have hDP : d * Q < P := by
    have e1 : ((k * P).natAbs : Int) = k.natAbs * P := by
      rw [Int.natAbs_mul]; push_cast; rw [show ((P.natAbs : Nat) : Int) = P by omega]
    have e2 : (k.natAbs : Int) * P < 2 ^ 52 * P := Int.mul_lt_mul_of_pos_right (by omega) hP
    rw [e1] at n2
    omega
  have hkey : (C - k * U) * P = U * (m * (d * Q) - k * P) := by
    rw [Int.sub_mul, Int.mul_sub, hscale]
    congr 1 <;> ac_rfl
  have hlt : 2 * ((C - k * U).natAbs : Int) < U := by
    have e1 : ((C - k * U).natAbs : Int) * P = U * (m * (d * Q) - k * P).natAbs := by
      have := congrArg Int.natAbs hkey
      rw [Int.natAbs_mul, Int.natAbs_mul] at this
      have := congrArg (Nat.cast (R := Int)) this
      push_cast at this
      rw [show ((P.natAbs : Nat) : Int) = P by omega, show ((U.natAbs : Nat) : Int) = U by omega] at this
      simpa using this
    have e2 : 2 * ((C - k * U).natAbs : Int) * P ≤ U * (d * Q) := by
      rw [Int.mul_assoc, e1, ← Int.mul_assoc, Int.mul_comm 2 U, Int.mul_assoc]
      exact Int.mul_le_mul_of_nonneg_left n1 (Int.le_of_lt hU)
    have e3 : U * (d * Q) < U * P := Int.mul_lt_mul_of_pos_left hDP hU
    exact Int.lt_of_mul_lt_mul_right (Int.lt_of_le_of_lt e2 e3) (Int.le_of_lt hP)
  have := nearest_strict k k' C U hU hlt hs3
  subst this
  rw [hq, if_pos (by omega)]

end Pyb
