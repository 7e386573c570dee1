import Verif.Spec.GenValue
import Verif.Lemmas.GenValue
import Verif.Lemmas.DecRange
import Verif.Lemmas.DecNum

/-! # Values in the generated program (C90) -/

namespace Pyb
open Py Spec

/-- C90: restrictions, the bits and enumerations of a type, choices and extensions are
written as nested lists and dicts: Python reads the value there was, followed as it is by a
comma or a bracket. -/
theorem C90_values (names : Str → Option Char) (printable : Char → Bool) (v : Lit) (c : Char) (hc : c ∈ [',', ')', ']', '}']) (rest : Str) :
    ∃ n, ∀ f ≥ n, readVal names f (srcNewlines (v.repr printable ++ c :: rest)) = some (v, srcNewlines (c :: rest)) := by
  refine ⟨v.size, fun f hf => ?_⟩
  obtain ⟨c0, r0, e0, -⟩ := Lit.repr_head printable v
  have : srcNewlines (v.repr printable ++ c :: rest) = v.repr printable ++ srcNewlines (c :: rest) :=
    srcNl_ordinary _ _ (Lit.repr_line printable v) (by simp [e0]) false
  rw [this]
  refine readVal_repr names printable v f _ hf ⟨c, srcNewlines rest, ?_, hc⟩
  have h : c ≠ '\n' ∧ c ≠ '\r' := by
    simp only [List.mem_cons, List.not_mem_nil, or_false] at hc
    rcases hc with rfl | rfl | rfl | rfl <;> decide
  simp [srcNewlines, srcNl, h.1, h.2]

/-- The dict of a pattern with a length. -/
def patternDict : Lit := .dict (.cons py!"pattern" (.str py!"it's \\d+") (.cons py!"length" (.list (.cons (.str py!"1..10") .nil)) .nil))

example : patternDict.repr (fun _ => true) = py!"{'pattern': \"it's \\\\d+\", 'length': ['1..10']}" := rfl

theorem readInt_signed (sign : NumSign) (b rest : Str) (hb : ∀ c ∈ b, numChar c = true) (hn : b ≠ []) :
    readInt (srcNewlines (intDefault (sign.text ++ b) ++ ')' :: rest)) = (readNat b).map fun n : Nat => (sign.apply n, ')' :: srcNewlines rest) := by
  have hnum : ∀ c : Char, numChar c = true → c ≠ '\n' ∧ c ≠ '\r' ∧ c ≠ '-' ∧ c ≠ '+' := by
    intro c h
    refine ⟨?_, ?_, ?_, ?_⟩ <;> rintro rfl <;> exact absurd h (by decide)
  have hs : ∀ c ∈ sign.text, c ≠ '\n' ∧ c ≠ '\r' := by
    cases sign <;> intro c hc <;> simp only [NumSign.text, List.mem_singleton, List.not_mem_nil] at hc <;> subst hc <;> decide
  have hline : ∀ c ∈ sign.text ++ b, c ≠ '\n' ∧ c ≠ '\r' := by
    intro c hc
    rcases List.mem_append.1 hc with hc | hc
    · exact hs c hc
    · exact ⟨(hnum c (hb c hc)).1, (hnum c (hb c hc)).2.1⟩
  have e : srcNewlines (intDefault (sign.text ++ b) ++ ')' :: rest) = sign.text ++ (b ++ ')' :: srcNewlines rest) := by
    unfold srcNewlines intDefault
    rw [srcNl_ordinary _ _ hline (by simp [hn]) false, List.append_assoc]
    simp [srcNl]
  have hr : ∀ c r, (')' :: srcNewlines rest) = c :: r → numChar c = false := by
    intro c r h
    simp only [List.cons.injEq] at h
    rw [← h.1]; decide
  obtain ⟨h1, h2⟩ := takeWhile_num numChar b (')' :: srcNewlines rest) hb hr
  rw [e]
  cases sign with
  | none =>
    have hh : ∀ d : Char, (d = '-' ∨ d = '+') → (b ++ ')' :: srcNewlines rest).head? ≠ some d := by
      intro d hd
      cases b with
      | nil => exact absurd rfl hn
      | cons c b =>
        have := hnum c (hb c (by simp))
        rcases hd with rfl | rfl
        · simpa using this.2.2.1
        · simpa using this.2.2.2
    rw [NumSign.text, List.nil_append, readInt_bare (hh _ (.inl rfl)) (hh _ (.inr rfl)), h1, h2]
    rfl
  | plus => rw [NumSign.text, List.singleton_append, readInt_pos, h1, h2]; rfl
  | minus => rw [NumSign.text, List.singleton_append, readInt_neg, h1, h2]; rfl

theorem hexVal_hexOf {c : Char} (h : isHexDigit c = true) : hexVal c = some (hexOf c) ∧ numChar c = true := by
  simp only [isHexDigit, isDigit, Bool.or_eq_true, Bool.and_eq_true, decide_eq_true_eq] at h
  constructor
  · unfold hexVal hexOf
    rcases h with (h | h) | h
    · rw [if_pos h, if_pos h.2]
    · rw [if_neg (by omega), if_neg (by omega), if_pos h, if_neg (by omega), if_pos h.2]
    · rw [if_neg (by omega), if_pos h, if_neg (by omega), if_neg (by omega)]
  · simp only [numChar, isDigit, Bool.or_eq_true, Bool.and_eq_true, decide_eq_true_eq]
    rcases h with (h | h) | h
    · exact .inl (.inl (.inl (.inl h)))
    · exact .inl (.inl (.inl (.inr ⟨h.1, by omega⟩)))
    · exact .inl (.inl (.inr ⟨h.1, by omega⟩))

theorem hexNat_digits : ∀ (ds : Str) (a : Nat), (∀ c ∈ ds, isHexDigit c = true) → hexNat a ds = some (ds.foldl (fun a c => a * 16 + hexOf c) a)
  | [], a, _ => rfl
  | c :: ds, a, h => by
    rw [hexNat, (hexVal_hexOf (h c (by simp))).1]
    exact hexNat_digits ds _ fun c hc => h c (by simp [hc])

/-- C90: the default of an integer, if the module writes it in decimal or hexadecimal:
Python reads that number. -/
theorem C90_number_partial (sign : NumSign) (s : Str) (n : Nat) (h : NumBody s n) (rest : Str) :
    readInt (srcNewlines (intDefault (sign.text ++ s) ++ ')' :: rest)) = some (sign.apply n, ')' :: srcNewlines rest) := by
  cases h with
  | dec ds h1 h2 h3 =>
    rw [readInt_signed sign s rest (fun c hc => numChar_digit (h2 c hc)) h1]
    have : readNat s = some (number s) := by
      cases s with
      | nil => exact absurd rfl h1
      | cons c r =>
        by_cases h0 : c = '0'
        · subst h0
          have := h3 rfl
          simp only [List.cons.injEq, true_and] at this
          subst this
          rfl
        · have hall : (c :: r).all isDigit = true := List.all_eq_true.2 h2
          rw [readNat, if_neg (fun h => h0 h.1), if_neg (fun h => h0 h.1), if_pos hall]
          rfl
    rw [this]
    rfl
  | hex ds h1 h2 =>
    have hb : ∀ c ∈ py!"0x" ++ ds, numChar c = true := by
      intro c hc
      rcases List.mem_append.1 hc with hc | hc
      · have : ∀ c ∈ py!"0x", numChar c = true := by decide
        exact this c hc
      · exact (hexVal_hexOf (h2 c hc)).2
    rw [readInt_signed sign _ rest hb (by simp)]
    have : readNat (py!"0x" ++ ds) = some (ds.foldl (fun a c => a * 16 + hexOf c) 0) := by
      change readNat ('0' :: 'x' :: ds) = _
      rw [readNat, if_pos ⟨rfl, .inl rfl⟩, List.tail_cons, if_neg h1, hexNat_digits ds 0 h2]
    rw [this]
    rfl

example : NumBody py!"42" 42 := .dec py!"42" (by decide) (by decide) (by decide)
example : NumBody py!"0xFf" 255 := .hex py!"Ff" (by decide) (by decide)
example : readInt (srcNewlines (intDefault py!"-0x1f" ++ py!")\n")) = some (-31, py!")\n") := rfl

/-- C90: in octal it is a `SyntaxError` of the whole program. -/
theorem C90_octal_refuted (sign : NumSign) (s : Str) (h : IsOctal s) (rest : Str) :
    readInt (srcNewlines (intDefault (sign.text ++ s) ++ ')' :: rest)) = none := by
  obtain ⟨ds, rfl, h1, c, hc, h2⟩ := h
  have hd : ∀ c ∈ ds, isDigit c = true := by
    intro c hc
    have := h1 c hc
    simp [isDigit]
    omega
  have hb : ∀ c ∈ '0' :: ds, numChar c = true := by
    intro c hc
    rcases List.mem_cons.1 hc with rfl | hc
    · decide
    · exact numChar_digit (hd c hc)
  rw [readInt_signed sign _ rest hb (by simp)]
  have hx : ¬ (ds.head? = some 'x' ∨ ds.head? = some 'X') := by
    rintro (h | h) <;> have := hd _ (List.mem_of_mem_head? h) <;> exact absurd this (by decide)
  have hany : (ds.any fun c => c != '0') = true := List.any_eq_true.2 ⟨c, hc, by simpa using h2⟩
  rw [readNat, if_neg (fun h => hx h.2), if_pos ⟨rfl, hany⟩]
  rfl

example : IsOctal py!"010" := ⟨py!"10", rfl, by decide, '1', by decide, by decide⟩

/-! ## Defaults of decimal64 -/

theorem decOfFloat_eq (x : Dec) (f : Int × Int) : decEqFloat x f = true ↔ DecLe x (decOfFloat f) ∧ DecLe (decOfFloat f) x := by
  obtain ⟨m, e⟩ := f
  rw [decLe_iff, decLe_iff]
  simp only [decEqFloat, decide_eq_true_eq]
  change decN x * 2 ^ (-e).toNat = m * 2 ^ e.toNat * decD x ↔ _
  by_cases he : 0 ≤ e
  · have e1 : decOfFloat (m, e) = ⟨m * 2 ^ e.toNat, 0⟩ := by simp [decOfFloat, he]
    have e2 : (-e).toNat = 0 := by omega
    rw [e1, e2]
    simp only [decN, decD, Int.neg_zero, Int.toNat_zero, Int.pow_zero, Int.mul_one]
    omega
  · have e1 : decOfFloat (m, e) = ⟨m * 5 ^ (-e).toNat, e⟩ := by simp [decOfFloat, he]
    have e2 : e.toNat = 0 := by omega
    rw [e1, e2]
    generalize hk : (-e).toNat = k
    have h10 : (10 : Int) ^ k = 5 ^ k * 2 ^ k := by rw [← Int.mul_pow]; rfl
    have hp : (5 : Int) ^ k ≠ 0 := Int.ne_of_gt (Int.pow_pos (by decide))
    have a1 : decN (⟨m * 5 ^ k, e⟩ : Dec) = m * 5 ^ k := by simp [decN, e2]
    have a2 : decD (⟨m * 5 ^ k, e⟩ : Dec) = 10 ^ k := by simp [decD, hk]
    rw [a1, a2, h10]
    simp only [Int.pow_zero, Int.mul_one]
    constructor
    · intro h
      have : decN x * (5 ^ k * 2 ^ k) = m * 5 ^ k * decD x := by
        rw [show decN x * (5 ^ k * 2 ^ k) = 5 ^ k * (decN x * 2 ^ k) by ac_rfl, h]; ac_rfl
      omega
    · rintro ⟨h, h'⟩
      have : decN x * (5 ^ k * 2 ^ k) = m * 5 ^ k * decD x := by omega
      refine Int.eq_of_mul_eq_mul_left hp ?_
      rw [show (5 : Int) ^ k * (decN x * 2 ^ k) = decN x * (5 ^ k * 2 ^ k) by ac_rfl, this]; ac_rfl

theorem decimalDefault_point (l : DecLit) (h : l.Ok) (hp : l.fp ≠ []) :
    decimalDefault l.text = some (decOfFloat (floatOfDec l.value)) := by
  have hd : '.' ∈ l.text := by simp [DecLit.text, hp]
  rw [decimalDefault, if_pos hd, decOfBare_lit h]

/-- C90: the default of a decimal64, if it is a fraction of 53 binary digits: `Decimal` is
given that number. -/
theorem C90_decimal_partial (l : DecLit) (h : l.Ok) (hp : l.fp ≠ []) (hb : BinaryFraction l.value) :
    ∃ y, decimalDefault l.text = some y ∧ DecLe y l.value ∧ DecLe l.value y := by
  refine ⟨_, decimalDefault_point l h hp, ?_⟩
  have := (decOfFloat_eq _ _).1 (floatOfDec_exact l.value hb)
  exact ⟨this.2, this.1⟩

example : (⟨true, py!"2", py!"625"⟩ : DecLit).Ok := ⟨by decide, by decide, by decide⟩
example : BinaryFraction (⟨true, py!"2", py!"625"⟩ : DecLit).value := ⟨-21, 3, by decide, by decide⟩

/-- C90: otherwise it is a different number. -/
theorem C90_decimal_refuted (l : DecLit) (h : l.Ok) (hp : l.fp ≠ []) (hb : NoBinaryFraction l.value) :
    ∃ y, decimalDefault l.text = some y ∧ ¬ (DecLe y l.value ∧ DecLe l.value y) := by
  refine ⟨_, decimalDefault_point l h hp, fun hh => ?_⟩
  have h1 := (decOfFloat_eq _ _).2 ⟨hh.2, hh.1⟩
  rw [decEqFloat_dyadic _ _ hb] at h1
  exact absurd h1 (by decide)

example : NoBinaryFraction (⟨false, py!"0", py!"1"⟩ : DecLit).value := by
  intro k j h
  have hv : (DecLit.mk false py!"0" py!"1").value = ⟨1, -1⟩ := by decide
  rw [hv] at h
  simp only [show ((-1 : Int)).toNat = 0 from rfl, show (-(-1 : Int)).toNat = 1 from rfl] at h
  have h' : (2 : Int) ^ j = k * 10 := by simpa using h
  have hmod : ∀ j : Nat, ((2 : Int) ^ j) % 5 ≠ 0 := by
    intro j
    induction j with
    | zero => decide
    | succ j ih => rw [Int.pow_succ]; omega
  apply hmod j
  rw [h']; omega

example : decimalDefault py!"0.1" = some (decOfFloat (7205759403792794, -56)) := by
  set_option maxRecDepth 8000 in rfl

end Pyb
