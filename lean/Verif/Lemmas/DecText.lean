import Verif.Model.DecText
import Verif.Lemmas.Str

namespace Pyb
open Py

theorem takeWhile_append_of {α} {p : α → Bool} {a b : List α} (ha : ∀ x ∈ a, p x = true) (hb : ∀ x, b.head? = some x → p x = false) :
    (a ++ b).takeWhile p = a ∧ (a ++ b).dropWhile p = b := by
  induction a with
  | nil => cases b with
    | nil => simp
    | cons x b => simp [hb x rfl]
  | cons x a ih =>
    have h1 := ha x (by simp)
    have h2 := ih (fun y hy => ha y (by simp [hy]))
    simp [h1, h2]

theorem decVal_zeros (k : Nat) (s : Str) : decVal (List.replicate k '0' ++ s) = decVal s := by
  induction k with
  | zero => rfl
  | succ k ih =>
    rw [List.replicate_succ, List.cons_append]
    simpa [decVal] using ih

theorem digit_ne {c d : Char} (h : isDigit c = true) (hd : isDigit d = false) : c ≠ d := by
  rintro rfl; rw [h] at hd; simp at hd

theorem parseSigned_signed (n : Int) : parseSigned (signedStr n) = some n := by
  unfold signedStr
  split
  · exact parseSigned_intStr n
  · rename_i h
    cases n with
    | ofNat n => simp [parseSigned, intStr, parseDigits_natStr]
    | negSucc n => exact absurd (Int.negSucc_lt_zero n) h

/-- Reading a text made of digits, possibly a point and digits, possibly an exponent. -/
theorem decOfUnsigned_parts {ip fp : Str} {pt : Bool} {ex : Str} {n : Int} (hip : ∀ c ∈ ip, isDigit c = true)
    (hfp : ∀ c ∈ fp, isDigit c = true) (hne : ip ≠ []) (hpt : pt = false → fp = [])
    (hex : (ex = [] ∧ n = 0) ∨ ex = 'E' :: signedStr n) :
    decOfUnsigned (ip ++ ((if pt then '.' :: fp else []) ++ ex)) = .ok (decVal (ip ++ fp), n - fp.length) := by
  have hE : ∀ c, isDigit c = true ∨ c = '.' → (c ≠ 'E' && c ≠ 'e') = true := by
    intro c hc
    rcases hc with hc | rfl
    · simp [digit_ne hc (show isDigit 'E' = false by decide), digit_ne hc (show isDigit 'e' = false by decide)]
    · decide
  have hm : ∀ c ∈ ip ++ (if pt then '.' :: fp else []), (c ≠ 'E' && c ≠ 'e') = true := by
    intro c hc
    apply hE
    rcases List.mem_append.1 hc with hc | hc
    · exact .inl (hip c hc)
    · cases pt with
      | false => simp at hc
      | true =>
        simp only [if_true, List.mem_cons] at hc
        rcases hc with rfl | hc
        · exact .inr rfl
        · exact .inl (hfp c hc)
  have hh : ∀ x, ex.head? = some x → (x ≠ 'E' && x ≠ 'e') = false := by
    intro x hx
    rcases hex with ⟨rfl, _⟩ | rfl
    · simp at hx
    · simp at hx; subst hx; decide
  obtain ⟨t1, d1⟩ := takeWhile_append_of hm hh
  have t2 : (ip ++ (if pt then '.' :: fp else [])).takeWhile (· ≠ '.') = ip ∧
      (ip ++ (if pt then '.' :: fp else [])).dropWhile (· ≠ '.') = (if pt then '.' :: fp else []) := by
    apply takeWhile_append_of
    · intro c hc; simpa using digit_ne (hip c hc) (show isDigit '.' = false by decide)
    · intro x hx; cases pt <;> simp at hx; subst hx; decide
  have tl : (if pt then '.' :: fp else []).tail = fp := by
    cases pt with
    | true => rfl
    | false => rw [hpt rfl]; rfl
  rw [← List.append_assoc]
  simp only [decOfUnsigned, t1, d1, t2.1, t2.2, tl]
  rw [if_neg]
  · rcases hex with ⟨rfl, rfl⟩ | rfl
    · simp
    · simp [parseSigned_signed]
  · simp only [not_or]
    refine ⟨by simp [hne], ?_⟩
    simp only [Bool.not_eq_true', Bool.not_eq_false, List.all_eq_true]
    intro c hc
    rcases List.mem_append.1 hc with hc | hc
    · exact hip c hc
    · exact hfp c hc

/-- The text of a number without its sign, in parts. -/
theorem decStr_parts (x : Dec) : ∃ ip fp pt ex n, (∀ c ∈ ip, isDigit c = true) ∧ (∀ c ∈ fp, isDigit c = true) ∧ ip ≠ [] ∧
    (pt = false → fp = []) ∧ ((ex = [] ∧ n = 0) ∨ ex = 'E' :: signedStr n) ∧
    decStr x = (if x.coef < 0 then ['-'] else []) ++ (ip ++ ((if pt then '.' :: fp else []) ++ ex)) ∧
    decVal (ip ++ fp) = x.coef.natAbs ∧ n - fp.length = x.exp ∧
    (x.exp ≤ 0 → -6 < x.exp + (natStr x.coef.natAbs).length → ex = []) ∧ (pt = true → fp ≠ []) := by
  have hd := natStr_digits x.coef.natAbs
  have hne := natStr_ne_nil x.coef.natAbs
  have hv : decVal (natStr x.coef.natAbs) = x.coef.natAbs := natStr_value _
  simp only [decStr]
  generalize natStr x.coef.natAbs = ds at *
  have hl : 0 < ds.length := List.length_pos_iff.2 hne
  by_cases hA : x.exp ≤ 0 ∧ x.exp + ds.length > -6
  · simp only [if_pos hA, if_true]
    by_cases h0 : x.exp + ds.length ≤ 0
    · refine ⟨['0'], List.replicate (-(x.exp + ds.length)).toNat '0' ++ ds, true, [], 0, by decide, ?_, by simp, by simp, .inl ⟨rfl, rfl⟩, ?_, ?_, ?_,
        fun _ _ => rfl, by simp [hne]⟩
      · intro c hc
        rcases List.mem_append.1 hc with hc | hc
        · rw [List.eq_of_mem_replicate hc]; decide
        · exact hd c hc
      · simp [if_pos h0]
      · have := decVal_zeros ((-(x.exp + ds.length)).toNat + 1) ds
        rw [List.replicate_succ, List.cons_append] at this
        rw [List.singleton_append, this, hv]
      · simp only [List.length_append, List.length_replicate]; omega
    · rw [if_neg h0]
      by_cases h1 : x.exp + ds.length ≥ ds.length
      · refine ⟨ds, [], false, [], 0, hd, by simp, hne, by simp, .inl ⟨rfl, rfl⟩, ?_, by simpa using hv, ?_, fun _ _ => rfl, by simp⟩
        · rw [if_pos h1, show (x.exp + ds.length - ds.length).toNat = 0 by omega]; simp
        · simp; omega
      · rw [if_neg h1]
        refine ⟨ds.take (x.exp + ds.length).toNat, ds.drop (x.exp + ds.length).toNat, true, [], 0, fun c hc => hd c (List.mem_of_mem_take hc),
          fun c hc => hd c (List.mem_of_mem_drop hc), ?_, by simp, .inl ⟨rfl, rfl⟩, by simp, ?_, ?_, fun _ _ => rfl, ?_⟩
        · intro e; have := congrArg List.length e; simp only [List.length_take, List.length_nil] at this; omega
        · rw [List.take_append_drop, hv]
        · simp only [List.length_drop]; omega
        · intro _ e; have := congrArg List.length e; simp only [List.length_drop, List.length_nil] at this; omega
  · have hex : ∀ k : Int, ((if x.exp + ds.length = 1 then [] else 'E' :: signedStr (x.exp + ds.length - 1)) = [] ∧ x.exp + ds.length - 1 = 0) ∨
        (if x.exp + ds.length = 1 then [] else 'E' :: signedStr (x.exp + ds.length - 1)) = 'E' :: signedStr (x.exp + ds.length - 1) := by
      intro _
      by_cases h : x.exp + ds.length = 1
      · left; simp [h]
      · right; simp [h]
    simp only [if_neg hA]
    rw [if_neg (show ¬ (1 : Int) ≤ 0 by omega)]
    by_cases h1 : (1 : Int) ≥ ds.length
    · refine ⟨ds, [], false, _, x.exp + ds.length - 1, hd, by simp, hne, by simp, hex 0, ?_, by simpa using hv, ?_, ?_, by simp⟩
      · rw [if_pos h1, show ((1 : Int) - ds.length).toNat = 0 by omega]; simp
      · simp; omega
      · intro a b; exact absurd ⟨a, b⟩ hA
    · rw [if_neg h1]
      refine ⟨ds.take 1, ds.drop 1, true, _, x.exp + ds.length - 1, fun c hc => hd c (List.mem_of_mem_take hc),
          fun c hc => hd c (List.mem_of_mem_drop hc), ?_, by simp, hex 0, by simp, ?_, ?_, ?_, ?_⟩
      · intro e; have := congrArg List.length e; simp only [List.length_take, List.length_nil] at this; omega
      · rw [List.take_append_drop, hv]
      · simp only [List.length_drop]; omega
      · intro a b; exact absurd ⟨a, b⟩ hA
      · intro _ e; have := congrArg List.length e; simp only [List.length_drop, List.length_nil] at this; omega

theorem strip_bare (s : Str) (h : ∀ c ∈ s, isSpace c = false) : strip s = s := by
  have key : ∀ t : Str, (∀ c ∈ t, isSpace c = false) → t.dropWhile isSpace = t := by
    intro t ht
    cases t with
    | nil => rfl
    | cons c t => simp [List.dropWhile, ht c (by simp)]
  rw [strip, rstripBy, lstripBy, key s h, key s.reverse (by simpa using h), List.reverse_reverse]

/-- Texts without spaces and underscores. -/
theorem decOfStr_bare (s : Str) (h : ∀ c ∈ s, isSpace c = false ∧ c ≠ '_') : decOfStr s = decOfBare s := by
  rw [decOfStr, strip_bare s (fun c hc => (h c hc).1), List.filter_eq_self.2 (fun c hc => by simpa using (h c hc).2)]

/-- `Decimal(str(x)) == x`. -/
theorem decOfBare_decStr (x : Dec) : decOfBare (decStr x) = .ok x := by
  obtain ⟨ip, fp, pt, ex, n, h1, h2, h3, h4, h5, h6, h7, h8, _⟩ := decStr_parts x
  have hr := decOfUnsigned_parts h1 h2 h3 h4 h5
  rw [h7, h8] at hr
  rw [h6]
  by_cases hn : x.coef < 0
  · simp only [if_pos hn, List.singleton_append, decOfBare, hr, Except.map]
    obtain ⟨c, e⟩ := x
    simp only [Except.ok.injEq, Dec.mk.injEq, and_true] at hn ⊢
    omega
  · rw [if_neg hn, List.nil_append]
    cases ip with
    | nil => exact absurd rfl h3
    | cons c ip =>
      have hc := h1 c (by simp)
      have e1 : c ≠ '-' := digit_ne hc (by decide)
      have e2 : c ≠ '+' := digit_ne hc (by decide)
      rw [List.cons_append] at hr ⊢
      unfold decOfBare
      split
      · rename_i heq; simp at heq; exact absurd heq.1 e1
      · rename_i heq; simp at heq; exact absurd heq.1 e2
      · rw [hr]
        obtain ⟨c, e⟩ := x
        simp only [Except.map, Except.ok.injEq, Dec.mk.injEq, and_true] at hn ⊢
        omega

theorem digit_bare {c : Char} (h : isDigit c = true) : isSpace c = false ∧ c ≠ '_' :=
  ⟨isSpace_of_isDigit h, digit_ne h (by decide)⟩

theorem signedStr_bare (n : Int) : ∀ c ∈ signedStr n, isSpace c = false ∧ c ≠ '_' := by
  intro c hc
  have hi : ∀ c ∈ intStr n, isSpace c = false ∧ c ≠ '_' := by
    intro c hc
    cases n with
    | ofNat n => exact digit_bare (natStr_digits n c hc)
    | negSucc n =>
      rcases List.mem_cons.1 hc with rfl | hc
      · decide
      · exact digit_bare (natStr_digits _ c hc)
  unfold signedStr at hc
  split at hc
  · exact hi c hc
  · rcases List.mem_cons.1 hc with rfl | hc
    · decide
    · exact hi c hc

theorem decStr_bare (x : Dec) : ∀ c ∈ decStr x, isSpace c = false ∧ c ≠ '_' := by
  obtain ⟨ip, fp, pt, ex, n, h1, h2, h3, h4, h5, h6, h7, h8, _⟩ := decStr_parts x
  intro c hc
  rw [h6] at hc
  simp only [List.mem_append] at hc
  rcases hc with hc | hc | hc | hc
  · split at hc
    · rw [List.mem_singleton.1 hc]; decide
    · simp at hc
  · exact digit_bare (h1 c hc)
  · split at hc
    · rcases List.mem_cons.1 hc with rfl | hc
      · decide
      · exact digit_bare (h2 c hc)
    · simp at hc
  · rcases h5 with ⟨rfl, _⟩ | rfl
    · simp at hc
    · rcases List.mem_cons.1 hc with rfl | hc
      · decide
      · exact signedStr_bare n c hc

theorem decOfStr_decStr (x : Dec) : decOfStr (decStr x) = .ok x := by
  rw [decOfStr_bare _ (decStr_bare x), decOfBare_decStr]


end Pyb
