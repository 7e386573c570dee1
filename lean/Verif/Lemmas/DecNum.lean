import Verif.Lemmas.DecRange

/-! # Comparing decimals and floats -/

namespace Pyb
open Py Spec

/-- Numerator and denominator of a decimal. -/
def decN (x : Dec) : Int := x.coef * 10 ^ x.exp.toNat
def decD (x : Dec) : Int := 10 ^ (-x.exp).toNat

theorem decD_pos (x : Dec) : 0 < decD x := Int.pow_pos (by decide)

theorem scale_one (e t : Int) (h : 0 ≤ e - t) :
    (10 : Int) ^ (e - t).toNat * 10 ^ (-e).toNat * 10 ^ t.toNat = 10 ^ e.toNat * 10 ^ (-t).toNat := by
  rw [← Int.pow_add, ← Int.pow_add, ← Int.pow_add]
  congr 1
  omega

theorem cmp_scale (x y : Dec) (t : Int) (hx : 0 ≤ x.exp - t) (hy : 0 ≤ y.exp - t) :
    (x.coef * 10 ^ (x.exp - t).toNat < y.coef * 10 ^ (y.exp - t).toNat) ↔ decN x * decD y < decN y * decD x := by
  have hp : (0 : Int) < 10 ^ t.toNat := Int.pow_pos (by decide)
  have hq : (0 : Int) < 10 ^ (-t).toNat := Int.pow_pos (by decide)
  have h1 := scale_one x.exp t hx
  have h2 := scale_one y.exp t hy
  have hM : 0 < decD x * decD y * 10 ^ t.toNat := Int.mul_pos (Int.mul_pos (decD_pos x) (decD_pos y)) hp
  have e1 : x.coef * 10 ^ (x.exp - t).toNat * (decD x * decD y * 10 ^ t.toNat)
      = decN x * decD y * 10 ^ (-t).toNat := by
    calc _ = x.coef * (10 ^ (x.exp - t).toNat * 10 ^ (-x.exp).toNat * 10 ^ t.toNat) * decD y := by
            simp only [decD]; ac_rfl
      _ = _ := by rw [h1]; simp only [decN]; ac_rfl
  have e2 : y.coef * 10 ^ (y.exp - t).toNat * (decD x * decD y * 10 ^ t.toNat)
      = decN y * decD x * 10 ^ (-t).toNat := by
    calc _ = y.coef * (10 ^ (y.exp - t).toNat * 10 ^ (-y.exp).toNat * 10 ^ t.toNat) * decD x := by
            simp only [decD]; ac_rfl
      _ = _ := by rw [h2]; simp only [decN]; ac_rfl
  constructor
  · intro h
    have := Int.mul_lt_mul_of_pos_right h hM
    rw [e1, e2] at this
    exact Int.lt_of_mul_lt_mul_right this (Int.le_of_lt hq)
  · intro h
    have := Int.mul_lt_mul_of_pos_right h hq
    rw [← e1, ← e2] at this
    exact Int.lt_of_mul_lt_mul_right this (Int.le_of_lt hM)

theorem decLe_iff (x y : Dec) : DecLe x y ↔ decN x * decD y ≤ decN y * decD x := by
  have key : ∀ K : Nat, 0 ≤ x.exp + K → 0 ≤ y.exp + K →
      ((y.coef * 10 ^ (y.exp + K).toNat < x.coef * 10 ^ (x.exp + K).toNat) ↔ decN y * decD x < decN x * decD y) := by
    intro K h1 h2
    have := cmp_scale y x (-(K : Int)) (by omega) (by omega)
    rw [Int.sub_neg, Int.sub_neg] at this
    exact this
  constructor
  · intro h
    have := h (x.exp.natAbs + y.exp.natAbs) (by omega) (by omega)
    have k := key (x.exp.natAbs + y.exp.natAbs) (by omega) (by omega)
    rw [← Int.not_lt] at this ⊢
    exact fun c => this (k.2 c)
  · intro h K h1 h2
    rw [← Int.not_lt] at h ⊢
    exact fun c => h ((key K h1 h2).1 c)

theorem decLt_iff (x y : Dec) : decLt x y = true ↔ ¬ DecLe y x := by
  rw [decLe_iff, Int.not_le]
  simp only [decLt, decide_eq_true_eq]
  exact cmp_scale x y (min x.exp y.exp) (by omega) (by omega)

/-! ## Floats -/

theorem natAbs_pow10 (c : Int) (n : Nat) : (c * 10 ^ n).natAbs = c.natAbs * 10 ^ n := by
  rw [Int.natAbs_mul, Int.natAbs_pow]; rfl

/-- The first guess of the exponent gives a quotient of at least 52 bits. -/
theorem guess_lower (n d : Nat) (hn : n ≠ 0) (hd : d ≠ 0) (e : Int) (he : e = (n.log2 : Int) - d.log2 - 53) :
    2 ^ 52 * (d * 2 ^ e.toNat) ≤ n * 2 ^ (-e).toNat := by
  have h1 : 2 ^ n.log2 ≤ n := Nat.log2_self_le hn
  have h2 : d < 2 ^ (d.log2 + 1) := Nat.lt_log2_self
  calc 2 ^ 52 * (d * 2 ^ e.toNat) ≤ 2 ^ 52 * (2 ^ (d.log2 + 1) * 2 ^ e.toNat) :=
        Nat.mul_le_mul_left _ (Nat.mul_le_mul_right _ (Nat.le_of_lt h2))
    _ = 2 ^ (52 + (d.log2 + 1 + e.toNat)) := by rw [Nat.pow_add 2 52, Nat.pow_add 2 (d.log2 + 1)]
    _ = 2 ^ (n.log2 + (-e).toNat) := by congr 1; omega
    _ = 2 ^ n.log2 * 2 ^ (-e).toNat := Nat.pow_add ..
    _ ≤ _ := Nat.mul_le_mul_right _ h1

theorem chosen_lower (n d : Nat) (hn : n ≠ 0) (hd : d ≠ 0) (e0 e : Int) (he0 : e0 = (n.log2 : Int) - d.log2 - 53)
    (he : e = if 2 ^ 53 * (d * 2 ^ e0.toNat) ≤ n * 2 ^ (-e0).toNat then e0 + 1 else e0) :
    2 ^ 52 * (d * 2 ^ e.toNat) ≤ n * 2 ^ (-e).toNat := by
  by_cases c : 2 ^ 53 * (d * 2 ^ e0.toNat) ≤ n * 2 ^ (-e0).toNat
  · rw [if_pos c] at he
    subst he
    by_cases hpos : 0 ≤ e0
    · have a1 : (e0 + 1).toNat = e0.toNat + 1 := by omega
      have a2 : (-e0).toNat = 0 := by omega
      have a3 : (-(e0 + 1)).toNat = 0 := by omega
      rw [a1, a3, show (2 : Nat) ^ (e0.toNat + 1) = 2 ^ e0.toNat * 2 from Nat.pow_succ ..]
      rw [a2] at c
      have : d * (2 ^ e0.toNat * 2) = d * 2 ^ e0.toNat * 2 := by ac_rfl
      rw [this]
      omega
    · have a1 : (e0 + 1).toNat = 0 := by omega
      have a2 : (-e0).toNat = (-(e0 + 1)).toNat + 1 := by omega
      have a3 : e0.toNat = 0 := by omega
      rw [a1]
      rw [a2, a3, show (2 : Nat) ^ ((-(e0 + 1)).toNat + 1) = 2 ^ (-(e0 + 1)).toNat * 2 from Nat.pow_succ ..] at c
      have : n * (2 ^ (-(e0 + 1)).toNat * 2) = n * 2 ^ (-(e0 + 1)).toNat * 2 := by ac_rfl
      rw [this] at c
      omega
  · rw [if_neg c] at he
    subst he
    exact guess_lower n d hn hd e he0

/-- A quotient of a 53-bit integer and a power of two has no remainder. -/
theorem dyadic_divides (n d k j : Nat) (hd : d ≠ 0) (hk : k < 2 ^ 53) (h : n * 2 ^ j = k * d) (e : Int)
    (hlow : 2 ^ 52 * (d * 2 ^ e.toNat) ≤ n * 2 ^ (-e).toNat) :
    (d * 2 ^ e.toNat) ∣ (n * 2 ^ (-e).toNat) := by
  have hdp : 0 < d := Nat.pos_of_ne_zero hd
  by_cases hpos : 0 ≤ e
  · have a3 : (-e).toNat = 0 := by omega
    rw [a3, Nat.pow_zero, Nat.mul_one] at hlow ⊢
    -- 2^52 * d * 2^e * 2^j ≤ n * 2^j = k * d < 2^53 * d
    have h1 : 2 ^ 52 * (d * 2 ^ e.toNat) * 2 ^ j ≤ k * d := by rw [← h]; exact Nat.mul_le_mul_right _ hlow
    have h2 : k * d < 2 ^ 53 * d := Nat.mul_lt_mul_of_pos_right hk hdp
    have h3 : 2 ^ (e.toNat + j) < 2 := by
      have : 2 ^ 52 * d * 2 ^ (e.toNat + j) < 2 ^ 52 * d * 2 := by
        rw [Nat.pow_add]
        calc 2 ^ 52 * d * (2 ^ e.toNat * 2 ^ j) = 2 ^ 52 * (d * 2 ^ e.toNat) * 2 ^ j := by ac_rfl
          _ ≤ k * d := h1
          _ < 2 ^ 53 * d := h2
          _ = 2 ^ 52 * d * 2 := by omega
      exact Nat.lt_of_mul_lt_mul_left this
    have h4 : e.toNat + j = 0 := by
      cases hq : e.toNat + j with
      | zero => rfl
      | succ q =>
        rw [hq, Nat.pow_succ] at h3
        have : 0 < 2 ^ q := Nat.pow_pos (by decide)
        omega
    have h5 : e.toNat = 0 := by omega
    have h6 : j = 0 := by omega
    rw [h5, Nat.pow_zero, Nat.mul_one]
    rw [h6, Nat.pow_zero, Nat.mul_one] at h
    exact ⟨k, by rw [h]; ac_rfl⟩
  · have a1 : e.toNat = 0 := by omega
    rw [a1, Nat.pow_zero, Nat.mul_one] at hlow ⊢
    by_cases hj : j ≤ (-e).toNat
    · obtain ⟨r, hr⟩ : ∃ r, (-e).toNat = j + r := ⟨(-e).toNat - j, by omega⟩
      rw [hr, Nat.pow_add]
      refine ⟨k * 2 ^ r, ?_⟩
      calc n * (2 ^ j * 2 ^ r) = n * 2 ^ j * 2 ^ r := by ac_rfl
        _ = k * d * 2 ^ r := by rw [h]
        _ = _ := by ac_rfl
    · exfalso
      obtain ⟨r, hr⟩ : ∃ r, j = (-e).toNat + (r + 1) := ⟨j - (-e).toNat - 1, by omega⟩
      have h1 : 2 ^ 52 * d * 2 ^ (r + 1) ≤ k * d := by
        rw [← h, hr, Nat.pow_add 2 (-e).toNat]
        generalize 2 ^ (r + 1) = R
        calc 2 ^ 52 * d * R ≤ n * 2 ^ (-e).toNat * R := Nat.mul_le_mul_right _ hlow
          _ = _ := by ac_rfl
      have h2 : k * d < 2 ^ 53 * d := Nat.mul_lt_mul_of_pos_right hk hdp
      have h3 : 2 ^ 52 * d * 2 ^ (r + 1) < 2 ^ 52 * d * 2 := by omega
      have h4 := Nat.lt_of_mul_lt_mul_left h3
      rw [Nat.pow_succ] at h4
      have : 0 < 2 ^ r := Nat.pow_pos (by decide)
      omega

theorem divHalfEven_exact (N D : Nat) (hD : D ≠ 0) (h : D ∣ N) : divHalfEven (N : Nat) D * (D : Int) = N := by
  obtain ⟨q, rfl⟩ := h
  have hr : ((D * q : Nat) : Int) % (D : Int) = 0 := by
    rw [Int.natCast_mul]; exact Int.mul_emod_right ..
  have hq : ((D * q : Nat) : Int) / (D : Int) = q := by
    rw [Int.natCast_mul]; exact Int.mul_ediv_cancel_left _ (by omega)
  unfold divHalfEven
  simp only [hr, hq]
  rw [if_pos (by omega)]
  rw [Int.natCast_mul]; ac_rfl

/-- `float` of a 53-bit binary fraction is exact. -/
theorem floatOfDec_exact (v : Dec) (h : BinaryFraction v) : decEqFloat v (floatOfDec v) = true := by
  obtain ⟨k, j, hk, hkj⟩ := h
  simp only [decEqFloat, decide_eq_true_eq]
  unfold floatOfDec
  simp only
  by_cases h0 : v.coef.natAbs * 10 ^ v.exp.toNat = 0
  · rw [if_pos h0]
    have : v.coef = 0 := by
      rcases Nat.mul_eq_zero.1 h0 with h | h
      · exact Int.natAbs_eq_zero.1 h
      · have : 0 < 10 ^ v.exp.toNat := Nat.pow_pos (by decide)
        omega
    simp [this]
  · rw [if_neg h0]
    generalize hn : v.coef.natAbs * 10 ^ v.exp.toNat = n at h0
    generalize hd : 10 ^ (-v.exp).toNat = d
    have hd0 : d ≠ 0 := by
      rw [← hd]; exact Nat.pos_iff_ne_zero.1 (Nat.pow_pos (by decide))
    generalize he0 : (n.log2 : Int) - d.log2 - 53 = e0
    generalize he : (if 2 ^ 53 * (d * 2 ^ e0.toNat) ≤ n * 2 ^ (-e0).toNat then e0 + 1 else e0) = e
    have hlow := chosen_lower n d h0 hd0 e0 e he0.symm he.symm
    have hnk : n * 2 ^ j = k.natAbs * d := by
      have := congrArg Int.natAbs hkj
      rw [Int.natAbs_mul, Int.natAbs_mul, Int.natAbs_mul, Int.natAbs_pow, Int.natAbs_pow, Int.natAbs_pow] at this
      rw [← hn, ← hd]
      exact this
    have hdiv := dyadic_divides n d k.natAbs j hd0 hk hnk e hlow
    have hD0 : d * 2 ^ e.toNat ≠ 0 := by
      have : 0 < d * 2 ^ e.toNat := Nat.mul_pos (Nat.pos_of_ne_zero hd0) (Nat.pow_pos (by decide))
      omega
    have hex := divHalfEven_exact (n * 2 ^ (-e).toNat) (d * 2 ^ e.toNat) hD0 hdiv
    generalize divHalfEven ((n * 2 ^ (-e).toNat : Nat) : Int) (d * 2 ^ e.toNat) = m at hex
    have hdI : (10 : Int) ^ (-v.exp).toNat = (d : Int) := by rw [← hd]; simp
    have hnI : (v.coef.natAbs : Int) * 10 ^ v.exp.toNat = (n : Int) := by rw [← hn]; simp
    have hex' : (n : Int) * 2 ^ (-e).toNat = m * 2 ^ e.toNat * d := by
      have : ((n * 2 ^ (-e).toNat : Nat) : Int) = (n : Int) * 2 ^ (-e).toNat := by simp
      rw [this] at hex
      have h2 : ((d * 2 ^ e.toNat : Nat) : Int) = (d : Int) * 2 ^ e.toNat := by simp
      rw [h2] at hex
      rw [← hex]; ac_rfl
    rw [hdI]
    by_cases hneg : v.coef < 0
    · rw [if_pos hneg]
      have hc : v.coef = -(v.coef.natAbs : Int) := by omega
      rw [hc, Int.neg_mul, hnI, Int.neg_mul, hex', Int.neg_mul, Int.neg_mul]
    · rw [if_neg hneg]
      have hc : v.coef = (v.coef.natAbs : Int) := by omega
      rw [hc, hnI, hex']

/-- Being equal to the float of a binary fraction is being equal to it. -/
theorem decEqFloat_iff (x v : Dec) (h : BinaryFraction v) :
    decEqFloat x (floatOfDec v) = true ↔ DecLe v x ∧ DecLe x v := by
  have hv := floatOfDec_exact v h
  generalize floatOfDec v = f at hv
  simp only [decEqFloat, decide_eq_true_eq] at hv ⊢
  rw [decLe_iff, decLe_iff]
  have hA : (0 : Int) < 2 ^ (-f.2).toNat := Int.pow_pos (by decide)
  have hVd := decD_pos v
  have hXd := decD_pos x
  change decN v * 2 ^ (-f.2).toNat = f.1 * 2 ^ f.2.toNat * decD v at hv
  change decN x * 2 ^ (-f.2).toNat = f.1 * 2 ^ f.2.toNat * decD x ↔ _
  generalize (2 : Int) ^ (-f.2).toNat = A at hv hA ⊢
  generalize f.1 * 2 ^ f.2.toNat = B at hv ⊢
  have e1 : decN v * decD x * A = B * decD x * decD v := by
    calc _ = decN v * A * decD x := by ac_rfl
      _ = _ := by rw [hv]; ac_rfl
  constructor
  · intro hx
    have e2 : decN x * decD v * A = B * decD x * decD v := by
      calc _ = decN x * A * decD v := by ac_rfl
        _ = _ := by rw [hx]
    have : decN v * decD x = decN x * decD v := Int.eq_of_mul_eq_mul_right (by omega) (e1.trans e2.symm)
    omega
  · intro ⟨h1, h2⟩
    have h3 : decN v * decD x = decN x * decD v := by omega
    rw [h3] at e1
    apply Int.eq_of_mul_eq_mul_right (a := decD v) (by omega)
    calc decN x * A * decD v = decN x * decD v * A := by ac_rfl
      _ = _ := e1

/-- A float is a binary fraction: no other decimal is equal to one. -/
theorem decEqFloat_dyadic (x : Dec) (f : Int × Int) (h : NoBinaryFraction x) : decEqFloat x f = false := by
  cases hc : decEqFloat x f with
  | false => rfl
  | true =>
    simp only [decEqFloat, decide_eq_true_eq] at hc
    exact absurd hc (h (f.1 * 2 ^ f.2.toNat) _)

end Pyb
