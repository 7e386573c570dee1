import Verif.Py.Str

/-! # Lemmas about Python strings -/

namespace Py

theorem splitOn_ne_nil (sep : Char) (s : Str) : splitOn sep s ≠ [] := by
  induction s with
  | nil => simp [splitOn]
  | cons c cs ih =>
    simp only [splitOn]; split
    · simp
    · split <;> simp

theorem splitOn_of_not_mem {sep : Char} {s : Str} (h : sep ∉ s) : splitOn sep s = [s] := by
  induction s with
  | nil => simp [splitOn]
  | cons c cs ih =>
    simp only [List.mem_cons, not_or] at h
    simp [splitOn, ih h.2, Ne.symm h.1]

theorem splitOn_append_sep (sep : Char) (a b : Str) (h : sep ∉ a) :
    splitOn sep (a ++ sep :: b) = a :: splitOn sep b := by
  induction a with
  | nil => simp [splitOn]
  | cons c cs ih =>
    simp only [List.mem_cons, not_or] at h
    simp [splitOn, ih h.2, Ne.symm h.1]

/-- Splitting what was joined gives the parts back. -/
theorem splitOn_join (sep : Char) (ps : List Str) (hne : ps ≠ []) (h : ∀ p ∈ ps, sep ∉ p) :
    splitOn sep (join [sep] ps) = ps := by
  induction ps with
  | nil => exact absurd rfl hne
  | cons x r ih =>
    cases r with
    | nil => simpa [join] using splitOn_of_not_mem (h x (by simp))
    | cons y r =>
      have := ih (by simp) (fun p hp => h p (by simp [hp]))
      simp only [join, List.append_assoc, List.singleton_append]
      rw [splitOn_append_sep _ _ _ (h x (by simp)), this]

theorem not_mem_of_mem_splitOn (sep : Char) (s p : Str) (h : p ∈ splitOn sep s) : sep ∉ p := by
  induction s generalizing p with
  | nil => simp [splitOn] at h; simp [h]
  | cons c cs ih =>
    simp only [splitOn] at h
    split at h
    · rename_i hc
      simp at h; rcases h with rfl | h
      · simp
      · exact ih _ h
    · rename_i hc
      split at h
      · simp at h; simp [h, Ne.symm hc]
      · rename_i q qs heq
        simp only [List.mem_cons] at h
        rcases h with rfl | h
        · have := ih q (by simp [heq])
          simp [this, Ne.symm hc]
        · exact ih p (by simp [heq, h])

/-- Joining what was split gives the string back. -/
theorem join_splitOn (sep : Char) (s : Str) : join [sep] (splitOn sep s) = s := by
  induction s with
  | nil => simp [splitOn, join]
  | cons c cs ih =>
    simp only [splitOn]
    split
    · rename_i hc
      cases hs : splitOn sep cs with
      | nil => exact absurd hs (splitOn_ne_nil _ _)
      | cons p ps => rw [hs] at ih; simp [join, ih, hc]
    · cases hs : splitOn sep cs with
      | nil => exact absurd hs (splitOn_ne_nil _ _)
      | cons p ps =>
        rw [hs] at ih
        cases ps with
        | nil => simp [join] at ih ⊢; exact ih
        | cons q qs => simp [join] at ih ⊢; exact ih

theorem headD_splitOn_append (sep : Char) (a b : Str) (h : sep ∉ a) :
    (splitOn sep (a ++ sep :: b)).headD [] = a := by
  rw [splitOn_append_sep _ _ _ h]; rfl

theorem replaceChar_length (a b : Char) (s : Str) : (replaceChar a b s).length = s.length := by
  simp [replaceChar]

theorem replaceChar_of_not_mem {a b : Char} {s : Str} (h : a ∉ s) : replaceChar a b s = s := by
  induction s with
  | nil => rfl
  | cons c cs ih =>
    simp only [List.mem_cons, not_or] at h
    simp only [replaceChar, List.map_cons] at ih ⊢
    rw [ih h.2, if_neg (Ne.symm h.1)]

theorem not_mem_replaceChar {a b : Char} (hab : a ≠ b) (s : Str) : a ∉ replaceChar a b s := by
  simp only [replaceChar, List.mem_map, not_exists, not_and]
  intro c _; split
  · exact fun h => hab h.symm
  · assumption

theorem replaceChar_append (a b : Char) (s t : Str) :
    replaceChar a b (s ++ t) = replaceChar a b s ++ replaceChar a b t := by
  simp [replaceChar]

/-! ### Numerals -/

theorem digitChar_toNat {d : Nat} (h : d < 10) : (digitChar d).toNat = 48 + d := by
  have : d = 0 ∨ d = 1 ∨ d = 2 ∨ d = 3 ∨ d = 4 ∨ d = 5 ∨ d = 6 ∨ d = 7 ∨ d = 8 ∨ d = 9 := by omega
  rcases this with rfl|rfl|rfl|rfl|rfl|rfl|rfl|rfl|rfl|rfl <;> rfl

theorem isDigit_digitChar {d : Nat} (h : d < 10) : isDigit (digitChar d) = true := by
  simp [isDigit, digitChar_toNat h]; omega

theorem parseDigits_append (ds : Str) (acc : Nat) (pd : Bool) (t : Str)
    (h : ∀ c ∈ ds, isDigit c = true) :
    parseDigits acc pd (ds ++ t) =
      parseDigits (ds.foldl (fun a c => a * 10 + (c.toNat - 48)) acc)
        (if ds = [] then pd else true) t := by
  induction ds generalizing acc pd with
  | nil => simp
  | cons c cs ih =>
    have hc := h c (by simp)
    simp only [List.cons_append, parseDigits, hc, if_true, List.foldl_cons]
    rw [ih _ _ (fun d hd => h d (by simp [hd]))]
    simp

theorem parseDigits_digits (ds : Str) (hne : ds ≠ []) (h : ∀ c ∈ ds, isDigit c = true) :
    parseDigits 0 false ds = some (ds.foldl (fun a c => a * 10 + (c.toNat - 48)) 0) := by
  have := parseDigits_append ds 0 false [] h
  simpa [parseDigits, hne] using this

theorem natStrAux_spec (f n : Nat) (h : n < f) :
    natStrAux f n ≠ [] ∧ (∀ c ∈ natStrAux f n, isDigit c = true) ∧
      (natStrAux f n).foldl (fun a c => a * 10 + (c.toNat - 48)) 0 = n := by
  induction f generalizing n with
  | zero => omega
  | succ f ih =>
    simp only [natStrAux]
    split
    · rename_i h10
      refine ⟨by simp, ?_, ?_⟩
      · simpa using isDigit_digitChar h10
      · simp [digitChar_toNat h10]
    · rename_i h10
      obtain ⟨_, h2, h3⟩ := ih (n / 10) (by omega)
      refine ⟨by simp, ?_, ?_⟩
      · intro c hc
        simp only [List.mem_append, List.mem_singleton] at hc
        rcases hc with hc | rfl
        · exact h2 c hc
        · exact isDigit_digitChar (by omega)
      · rw [List.foldl_append, h3]
        simp [digitChar_toNat (show n % 10 < 10 by omega)]
        omega

theorem natStr_ne_nil (n : Nat) : natStr n ≠ [] := (natStrAux_spec _ _ (by omega)).1
theorem natStr_digits (n : Nat) : ∀ c ∈ natStr n, isDigit c = true :=
  (natStrAux_spec _ _ (by omega)).2.1
theorem natStr_value (n : Nat) :
    (natStr n).foldl (fun a c => a * 10 + (c.toNat - 48)) 0 = n :=
  (natStrAux_spec _ _ (by omega)).2.2

theorem parseDigits_natStr (n : Nat) : parseDigits 0 false (natStr n) = some n := by
  rw [parseDigits_digits _ (natStr_ne_nil n) (natStr_digits n), natStr_value]

theorem isSpace_of_isDigit {c : Char} (h : isDigit c = true) : isSpace c = false := by
  simp only [isDigit, Bool.and_eq_true, decide_eq_true_eq] at h
  have key : ∀ d : Char, (d.toNat < 48 ∨ 57 < d.toNat) → c ≠ d := by
    rintro d hd rfl; omega
  simp only [isSpace, Bool.or_eq_false_iff, decide_eq_false_iff_not]
  refine ⟨⟨⟨⟨⟨⟨⟨⟨⟨⟨⟨?_, ?_⟩, ?_⟩, ?_⟩, ?_⟩, ?_⟩, ?_⟩, ?_⟩, ?_⟩, ?_⟩, ?_⟩, ?_⟩ <;>
    exact key _ (by decide)

theorem dropWhile_eq_self {p : Char → Bool} {s : Str} (h : ∀ c, s.head? = some c → p c = false) :
    s.dropWhile p = s := by
  cases s with
  | nil => rfl
  | cons c cs => simp [h c rfl]

theorem strip_eq_self {s : Str} (h : ∀ c ∈ s, isSpace c = false) : strip s = s := by
  unfold strip lstripBy rstripBy
  rw [dropWhile_eq_self (s := s)]
  · rw [dropWhile_eq_self, List.reverse_reverse]
    intro c hc
    exact h c (by simpa using List.mem_of_mem_head? hc)
  · intro c hc; exact h c (List.mem_of_mem_head? hc)

theorem intStr_no_space (n : Int) : ∀ c ∈ intStr n, isSpace c = false := by
  intro c hc
  cases n with
  | ofNat n => exact isSpace_of_isDigit (natStr_digits n c hc)
  | negSucc n =>
    simp only [intStr, List.mem_cons] at hc
    rcases hc with rfl | hc
    · decide
    · exact isSpace_of_isDigit (natStr_digits _ c hc)

theorem parseSigned_intStr (n : Int) : parseSigned (intStr n) = some n := by
  cases n with
  | ofNat n =>
    have hd := natStr_digits n
    have hne := natStr_ne_nil n
    have hp := parseDigits_natStr n
    simp only [intStr]
    generalize natStr n = s at *
    cases s with
    | nil => exact absurd rfl hne
    | cons c cs =>
      have hc := hd c (by simp)
      have h1 : c ≠ '-' := by rintro rfl; simp [isDigit] at hc
      have h2 : c ≠ '+' := by rintro rfl; simp [isDigit] at hc
      simp [parseSigned, h1, h2, hp]
  | negSucc n =>
    simp only [intStr, parseSigned, parseDigits_natStr, Option.map_some]
    rfl

/-- `int(str(n)) == n`. -/
theorem intOfStr_intStr (n : Int) : intOfStr (intStr n) = .ok n := by
  unfold intOfStr
  rw [strip_eq_self (intStr_no_space n), parseSigned_intStr]

theorem intStr_injective {a b : Int} (h : intStr a = intStr b) : a = b := by
  have := intOfStr_intStr a
  rw [h, intOfStr_intStr b] at this
  exact (Except.ok.inj this).symm

theorem natStr_injective {a b : Nat} (h : natStr a = natStr b) : a = b := by
  have := parseDigits_natStr a
  rw [h, parseDigits_natStr b] at this
  exact (Option.some.inj this).symm

end Py
