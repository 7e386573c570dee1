import Verif.Spec.DecRange
import Verif.Lemmas.Range
import Verif.Lemmas.DecText
import Verif.Lemmas.Scalar

/-! # Reading the ranges of decimal64 types -/

namespace Pyb
open Py Spec

/-! ## Literals -/

/-- The digits and the point of a literal. -/
def litBody (l : DecLit) : Str := l.ip ++ if l.fp = [] then [] else '.' :: l.fp

theorem lit_text (l : DecLit) : l.text = (if l.neg then ['-'] else []) ++ litBody l := rfl

theorem litBody_mem {l : DecLit} (h : l.Ok) : ∀ c ∈ litBody l, isDigit c = true ∨ c = '.' := by
  intro c hc
  rcases List.mem_append.1 hc with hc | hc
  · exact .inl (h.ip_digits c hc)
  · by_cases hf : l.fp = []
    · simp [hf] at hc
    · simp only [hf, if_false, List.mem_cons] at hc
      rcases hc with rfl | hc
      · exact .inr rfl
      · exact .inl (h.fp_digits c hc)

theorem litBody_head {l : DecLit} (h : l.Ok) : ∃ c cs, litBody l = c :: cs ∧ isDigit c = true := by
  cases hi : l.ip with
  | nil => exact absurd hi h.some_digit
  | cons c cs =>
    refine ⟨c, cs ++ if l.fp = [] then [] else '.' :: l.fp, by simp [litBody, hi], h.ip_digits c (by simp [hi])⟩

theorem count_digits {s : Str} (h : ∀ c ∈ s, isDigit c = true) : s.count '.' = 0 := by
  rw [List.count_eq_zero]
  intro hm
  exact isDigit_ne (h _ hm) (by decide) rfl

theorem litBody_count {l : DecLit} (h : l.Ok) : (litBody l).count '.' ≤ 1 := by
  have h1 := count_digits h.ip_digits
  have h2 := count_digits h.fp_digits
  unfold litBody
  by_cases hf : l.fp = []
  · simp [hf, h1]
  · simp [hf, List.count_append, h1, h2]

theorem litText_count {l : DecLit} (h : l.Ok) : l.text.count '.' ≤ 1 := by
  have := litBody_count h
  rw [lit_text, List.count_append]
  cases l.neg <;> simp <;> omega

theorem lit_mem {l : DecLit} (h : l.Ok) : ∀ c ∈ l.text, isDigit c = true ∨ c = '.' ∨ c = '-' := by
  intro c hc
  rw [lit_text] at hc
  rcases List.mem_append.1 hc with hc | hc
  · simp at hc
    exact .inr (.inr hc.2)
  · rcases litBody_mem h c hc with h | h
    · exact .inl h
    · exact .inr (.inl h)

theorem lit_head {l : DecLit} (h : l.Ok) : ∃ c cs, l.text = c :: cs ∧ (isDigit c = true ∨ c = '-') := by
  obtain ⟨c, cs, h1, h2⟩ := litBody_head h
  rw [lit_text, h1]
  cases l.neg with
  | true => exact ⟨'-', _, rfl, .inr rfl⟩
  | false => exact ⟨c, cs, rfl, .inl h2⟩

theorem splitSign_lit {l : DecLit} (h : l.Ok) (t : Str) :
    splitSign (l.text ++ t) = (if l.neg then ['-'] else [], litBody l ++ t) := by
  obtain ⟨c, cs, h1, h2⟩ := litBody_head h
  rw [lit_text, h1]
  cases l.neg with
  | true => simp [splitSign]
  | false =>
    have : c ≠ '-' := isDigit_ne h2 (by decide)
    simp [splitSign, this]

theorem litBody_num {l : DecLit} (h : l.Ok) : ∀ c ∈ litBody l, isNumChar c = true := by
  intro c hc
  rcases litBody_mem h c hc with h | rfl
  · simp [isNumChar, h]
  · decide

theorem matchNumber_lit {l : DecLit} (h : l.Ok) : matchNumber l.text = some (l.text, []) := by
  have hn := litBody_num h
  have htw : (litBody l).takeWhile isNumChar = litBody l := by
    have := takeWhile_append_all (litBody l) [] hn; simpa using this
  have hdw : (litBody l).dropWhile isNumChar = [] := by
    have := dropWhile_append_all (litBody l) [] hn; simpa using this
  have hs := splitSign_lit h []
  rw [List.append_nil, List.append_nil] at hs
  obtain ⟨c, cs, h1, _⟩ := litBody_head h
  have hne : litBody l ≠ [] := by rw [h1]; simp
  simp only [matchNumber, hs, htw, hdw, if_neg hne]
  rfl

theorem number_decVal (s : Str) : number s = decVal s := rfl

/-- A literal is read as its value. -/
theorem decOfBare_lit {l : DecLit} (h : l.Ok) : decOfBare l.text = .ok l.value := by
  have key := decOfUnsigned_parts (ip := l.ip) (fp := l.fp) (pt := decide (l.fp ≠ [])) (ex := []) (n := 0)
    h.ip_digits h.fp_digits h.some_digit (by simp) (.inl ⟨rfl, rfl⟩)
  have hb : l.ip ++ ((if decide (l.fp ≠ []) = true then '.' :: l.fp else []) ++ []) = litBody l := by
    unfold litBody
    by_cases hf : l.fp = [] <;> simp [hf]
  rw [hb] at key
  rw [lit_text]
  obtain ⟨c, cs, h1, h2⟩ := litBody_head h
  cases hn : l.neg with
  | true =>
    show decOfBare ('-' :: litBody l) = _
    simp [decOfBare, key, Except.map, DecLit.value, hn, number_decVal]
  | false =>
    have e1 : c ≠ '-' := isDigit_ne h2 (by decide)
    have e2 : c ≠ '+' := isDigit_ne h2 (by decide)
    show decOfBare (litBody l) = _
    rw [h1] at key ⊢
    unfold decOfBare
    split
    · rename_i heq; cases heq; exact absurd rfl e1
    · rename_i heq; cases heq; exact absurd rfl e2
    · simp [key, Except.map, DecLit.value, hn, number_decVal]

/-- `Decimal` reads a literal as its value. -/
theorem decOfStr_lit {l : DecLit} (h : l.Ok) : decOfStr l.text = .ok l.value := by
  rw [decOfStr_bare, decOfBare_lit h]
  intro c hc
  rw [lit_text] at hc
  rcases List.mem_append.1 hc with hc | hc
  · split at hc
    · rw [List.mem_singleton.1 hc]; decide
    · simp at hc
  · rcases litBody_mem h c hc with hd | rfl
    · exact digit_bare hd
    · decide

/-! ## Spans -/

def LitOk : Option DecLit → Prop
  | none => True
  | some l => l.Ok

theorem dropWhile_blanks (n : Nat) (t : Str) : (blanks n ++ t).dropWhile (· = ' ') = t.dropWhile (· = ' ') :=
  dropWhile_spaces n t

theorem litText_head {hi : Option DecLit} (h : LitOk hi) :
    ∃ c cs, litText py!"max" hi = c :: cs ∧ c ≠ '.' ∧ c ≠ ' ' := by
  cases hi with
  | none => exact ⟨'m', py!"ax", rfl, by decide, by decide⟩
  | some l =>
    obtain ⟨c, cs, h1, h2⟩ := lit_head h
    refine ⟨c, cs, h1, ?_, ?_⟩ <;> rcases h2 with h2 | rfl
    · exact isDigit_ne h2 (by decide)
    · decide
    · exact isDigit_ne h2 (by decide)
    · decide

theorem litText_dots {hi : Option DecLit} (h : LitOk hi) : (litText py!"max" hi).count '.' ≤ 1 := by
  cases hi with
  | none => decide
  | some l => exact litText_count h

/-- What follows the lower bound. -/
def spanTail (s1 s2 : Nat) (hi : Option DecLit) : Str :=
  blanks s1 ++ (py!".." ++ (blanks s2 ++ litText py!"max" hi))

theorem matchTail_span (s1 s2 : Nat) {hi : Option DecLit} (h : LitOk hi) :
    matchTail (spanTail s1 s2 hi) = some (litText py!"max" hi, []) := by
  unfold matchTail spanTail
  rw [dropWhile_blanks]
  have e0 : (py!".." ++ (blanks s2 ++ litText py!"max" hi)).dropWhile (· = ' ')
      = '.' :: '.' :: (blanks s2 ++ litText py!"max" hi) := by
    simp only [List.cons_append, List.nil_append]
    rw [List.dropWhile_cons_of_neg (by decide)]
  rw [e0]
  simp only
  rw [dropWhile_blanks]
  obtain ⟨c, cs, h1, h2, h3⟩ := litText_head h
  have e : (litText py!"max" hi).dropWhile (· = ' ') = litText py!"max" hi := by
    rw [h1, List.dropWhile_cons_of_neg (by simpa using h3)]
  rw [e]
  cases hi with
  | none => decide
  | some l => simp only [litText, matchNumber_lit h]

theorem matchTail_one {c : Char} {cs : Str} (h : c ≠ '.') : matchTail ('.' :: c :: cs) = none := by
  unfold matchTail
  rw [List.dropWhile_cons_of_neg (by decide)]
  split
  · rename_i heq; cases heq; exact absurd rfl h
  · rfl

theorem tryLow_lit {l : DecLit} (hl : l.Ok) (s1 s2 : Nat) {hi : Option DecLit} (h : LitOk hi) :
    tryLow (litBody l ++ spanTail s1 s2 hi) ((litBody l ++ spanTail s1 s2 hi).takeWhile isNumChar).length
      = some (litBody l, litText py!"max" hi, []) := by
  have hn := litBody_num hl
  obtain ⟨c0, cs0, hb0, _⟩ := litBody_head hl
  have hne : litBody l ≠ [] := by rw [hb0]; simp
  have htw := takeWhile_append_all (litBody l) (spanTail s1 s2 hi) hn
  have htake : (litBody l ++ spanTail s1 s2 hi).take (litBody l).length = litBody l := by simp
  have := tryLow_eq (litBody l ++ spanTail s1 s2 hi) (litBody l).length
    ((litBody l ++ spanTail s1 s2 hi).takeWhile isNumChar).length (litText py!"max" hi) []
    (List.length_pos_iff.2 hne) (by rw [htw]; simp) (by rw [List.drop_left]; exact matchTail_span s1 s2 h) (by
      intro i h1 h2
      cases s1 with
      | succ s1 =>
        exfalso
        have : (spanTail (s1 + 1) s2 hi).takeWhile isNumChar = [] := by
          simp only [spanTail, blanks, List.replicate_succ, List.cons_append]
          rw [List.takeWhile_cons_of_neg (by decide)]
        rw [htw, this] at h2
        simp at h2; omega
      | zero =>
        obtain ⟨j, rfl⟩ : ∃ j, i = (litBody l).length + (j + 1) := ⟨i - (litBody l).length - 1, by omega⟩
        have hdrop : (litBody l ++ spanTail 0 s2 hi).drop ((litBody l).length + (j + 1)) =
            ('.' :: (blanks s2 ++ litText py!"max" hi)).drop j := by
          rw [← List.drop_drop, List.drop_left]; rfl
        rw [hdrop]
        obtain ⟨c, cs, e1, e2, e3⟩ := litText_head h
        cases j with
        | zero =>
          simp only [List.drop_zero]
          cases s2 with
          | zero => rw [show blanks 0 = [] from rfl, List.nil_append, e1]; exact matchTail_one e2
          | succ s2 =>
            simp only [blanks, List.replicate_succ, List.cons_append]
            exact matchTail_one (by decide)
        | succ j =>
          apply matchTail_dots
          simp only [List.drop_succ_cons]
          have a1 := (List.drop_sublist j (blanks s2 ++ litText py!"max" hi)).count_le '.'
          have a2 : (blanks s2).count '.' = 0 := count_dot_spaces s2
          have a3 := litText_dots h
          rw [List.count_append, a2] at a1
          omega)
  rw [htake] at this
  exact this

/-- A written span is recognised with its two bounds. -/
theorem matchRange_lits {lo hi : Option DecLit} (hlo : LitOk lo) (hhi : LitOk hi) (s1 s2 : Nat) :
    matchRange (litText py!"min" lo ++ spanTail s1 s2 hi) = some (litText py!"min" lo, litText py!"max" hi, []) := by
  cases lo with
  | none =>
    have hts := matchTail_span s1 s2 hhi
    generalize spanTail s1 s2 hi = X at hts ⊢
    show matchRange ('m' :: 'i' :: 'n' :: X) = _
    have h1 : ('m' :: 'i' :: 'n' :: X).takeWhile isNumChar = [] := List.takeWhile_cons_of_neg (by decide)
    have h2 : splitSign ('m' :: 'i' :: 'n' :: X) = ([], 'm' :: 'i' :: 'n' :: X) := rfl
    simp only [matchRange, h2, h1, List.length_nil, tryLow]
    rw [if_pos (by simp)]
    simp only [List.drop_succ_cons, List.drop_zero, hts]
    rfl
  | some l =>
    simp only [litText]
    have key := tryLow_lit hlo s1 s2 hhi
    simp only [matchRange, splitSign_lit hlo, key]
    rfl

/-- A single literal is not taken for a span. -/
theorem matchRange_lit {l : DecLit} (h : l.Ok) : matchRange l.text = none := by
  have hmin : py!"min".isPrefixOf l.text = false := by
    obtain ⟨c, cs, h1, h2⟩ := lit_head h
    have : c ≠ 'm' := by
      rcases h2 with h2 | rfl
      · exact isDigit_ne h2 (by decide)
      · decide
    rw [h1]; simp [List.isPrefixOf, Ne.symm this]
  have hnone : ∀ (t : Str) (k : Nat), t.count '.' ≤ 1 → tryLow t k = none := by
    intro t k ht
    induction k with
    | zero => rfl
    | succ k ih =>
      simp only [tryLow]
      rw [matchTail_dots]
      · exact ih
      · have := (List.drop_sublist (k + 1) t).count_le '.'; omega
  have hs := splitSign_lit h []
  rw [List.append_nil, List.append_nil] at hs
  simp only [matchRange, hs, hnone _ _ (litBody_count h), hmin]
  rfl

theorem not_mem_lit {l : DecLit} (h : l.Ok) {c : Char} (h1 : isDigit c = false) (h2 : c ≠ '.') (h3 : c ≠ '-') :
    c ∉ l.text := by
  intro hm
  rcases lit_mem h c hm with h | h | h
  · rw [h] at h1; cases h1
  · exact h2 h
  · exact h3 h

theorem not_mem_litText {o : Option DecLit} (h : LitOk o) {w : Str} {c : Char} (hw : c ∉ w) (h1 : isDigit c = false)
    (h2 : c ≠ '.') (h3 : c ≠ '-') : c ∉ litText w o := by
  cases o with
  | none => exact hw
  | some l => exact not_mem_lit h h1 h2 h3

theorem subRange_lits {lo hi : Option DecLit} (hlo : LitOk lo) (hhi : LitOk hi) (s1 s2 : Nat) :
    subRange (litText py!"min" lo ++ spanTail s1 s2 hi).length (litText py!"min" lo ++ spanTail s1 s2 hi) =
      litText py!"min" lo ++ (',' :: litText py!"max" hi) := by
  have hm := matchRange_lits hlo hhi s1 s2
  generalize litText py!"min" lo ++ spanTail s1 s2 hi = X at hm
  cases X with
  | nil =>
    exfalso
    have : matchRange [] = none := by decide
    rw [this] at hm; simp at hm
  | cons c cs =>
    simp only [List.length_cons, subRange, hm]
    have : subRange cs.length [] = [] := by cases cs.length <;> rfl
    rw [this, List.append_nil]
    simp

theorem lit_ne_word {l : DecLit} (h : l.Ok) : l.text ≠ py!"max" ∧ l.text ≠ py!"min" := by
  obtain ⟨c, cs, h1, h2⟩ := lit_head h
  have : c ≠ 'm' := by
    rcases h2 with h2 | rfl
    · exact isDigit_ne h2 (by decide)
    · decide
  rw [h1]
  constructor <;> intro e <;> cases e <;> exact this rfl

/-- The bounds of a part, as the type's base class reads them. -/
def Reads (fd : Option Nat) (l : DecLit) (x : Dec) : Prop := decBase fd (.text l.text) = .ok x

/-- The base class keeps a literal: plain `Decimal` does always, with digits the
literal's value must be a multiple of the unit. -/
inductive ChkOf (fd : Option Nat) : DecPart → DChk → Prop where
  | span (lo hi a b) : (∀ l, lo = some l → ∃ x, a = some x ∧ Reads fd l x) → (lo = none → a = none) →
      (∀ l, hi = some l → ∃ x, b = some x ∧ Reads fd l x) → (hi = none → b = none) → ChkOf fd (.span lo hi) (.pair a b)
  | single (l x) : Reads fd l x → ChkOf fd (.single l) (.single x)

/-- Every literal can be read by the base class. -/
def PartOk (fd : Option Nat) (p : DecPart) : Prop := ∀ l ∈ p.lits, l.Ok ∧ ∃ x, Reads fd l x

theorem decBound_lit {fd : Option Nat} {o : Option DecLit} {w : Str} (hw : w = py!"max" ∨ w = py!"min")
    (h : ∀ l, o = some l → l.Ok ∧ ∃ x, Reads fd l x) :
    ∃ a, decBound fd w (litText w o) = .ok a ∧ (∀ l, o = some l → ∃ x, a = some x ∧ Reads fd l x) ∧
      (o = none → a = none) := by
  cases o with
  | none => exact ⟨none, by simp [decBound, litText], by simp, by simp⟩
  | some l =>
    obtain ⟨h1, x, h2⟩ := h l rfl
    have hne : l.text ≠ w := by
      rcases hw with rfl | rfl
      · exact (lit_ne_word h1).1
      · exact (lit_ne_word h1).2
    refine ⟨some x, ?_, fun l' hl' => ⟨x, rfl, ?_⟩, fun c => by cases c⟩
    · simp only [decBound, litText, hne, if_false]
      rw [show decBase fd (.text l.text) = .ok x from h2]; rfl
    · cases hl'; exact h2

theorem buildDChk_core {fd : Option Nat} {w : DecWritten} (h : PartOk fd w.part) :
    ∃ c, buildDChk fd w.core = .ok c ∧ ChkOf fd w.part c := by
  unfold DecWritten.core
  cases hp : w.part with
  | single l =>
    rw [hp] at h
    obtain ⟨h1, x, h2⟩ := h l (by simp [DecPart.lits])
    refine ⟨.single x, ?_, .single l x h2⟩
    simp only [buildDChk, matchRange_lit h1, matchNumber_lit h1]
    rw [show decBase fd (.text l.text) = .ok x from h2]; rfl
  | span lo hi =>
    rw [hp] at h
    have hlo : ∀ l, lo = some l → l.Ok ∧ ∃ x, Reads fd l x := fun l hl => h l (by simp [DecPart.lits, hl])
    have hhi : ∀ l, hi = some l → l.Ok ∧ ∃ x, Reads fd l x := fun l hl => h l (by simp [DecPart.lits, hl])
    have olo : LitOk lo := by
      cases lo with
      | none => trivial
      | some l => exact (hlo l rfl).1
    have ohi : LitOk hi := by
      cases hi with
      | none => trivial
      | some l => exact (hhi l rfl).1
    obtain ⟨b, b1, b2, b3⟩ := decBound_lit (.inl rfl) hhi
    obtain ⟨a, a1, a2, a3⟩ := decBound_lit (.inr rfl) hlo
    refine ⟨.pair a b, ?_, .span lo hi a b a2 a3 b2 b3⟩
    show buildDChk fd (litText py!"min" lo ++ spanTail w.sp1 w.sp2 hi) = _
    simp only [buildDChk, matchRange_lits olo ohi, subRange_lits olo ohi]
    rw [splitOn_append_sep _ _ _ (not_mem_litText olo (by decide) (by decide) (by decide) (by decide)),
      splitOn_of_not_mem (not_mem_litText ohi (by decide) (by decide) (by decide) (by decide))]
    simp only [a1, b1]
    rfl

/-! ## The whole argument -/

def tightWritten (w : DecWritten) : DecWritten := { part := w.part }

theorem part_lits_ok {p : DecPart} (h : ∀ l ∈ p.lits, l.Ok) : ∀ lo hi, p = .span lo hi → LitOk lo ∧ LitOk hi := by
  rintro lo hi rfl
  constructor
  · cases lo with
    | none => trivial
    | some l => exact h l (by simp [DecPart.lits])
  · cases hi with
    | none => trivial
    | some l => exact h l (by simp [DecPart.lits])

theorem replaceBy_blanks (n : Nat) : replaceBy ' ' [] (blanks n) = [] := replaceBy_spaces n

theorem tight_written {w : DecWritten} (h : ∀ l ∈ w.part.lits, l.Ok) :
    replaceBy ' ' [] (blanks w.pre ++ w.core ++ blanks w.post) = (tightWritten w).core := by
  rw [replaceBy_append, replaceBy_append, replaceBy_blanks, replaceBy_blanks, List.nil_append, List.append_nil]
  unfold DecWritten.core tightWritten
  simp only
  cases hp : w.part with
  | single l =>
    rw [hp] at h
    exact replaceBy_of_not_mem (not_mem_lit (h l (by simp [DecPart.lits])) (by decide) (by decide) (by decide))
  | span lo hi =>
    obtain ⟨olo, ohi⟩ := part_lits_ok h lo hi hp
    simp only [replaceBy_append, replaceBy_blanks]
    rw [replaceBy_of_not_mem (not_mem_litText olo (by decide) (by decide) (by decide) (by decide)),
      replaceBy_of_not_mem (not_mem_litText ohi (by decide) (by decide) (by decide) (by decide))]
    rw [show replaceBy ' ' [] py!".." = py!".." by decide, show blanks 0 = [] from rfl]

theorem bar_not_mem_written {w : DecWritten} (h : ∀ l ∈ w.part.lits, l.Ok) : '|' ∉ w.core := by
  have hsp : ∀ n, '|' ∉ blanks n := fun n => by simp [blanks, List.mem_replicate]
  unfold DecWritten.core
  cases hp : w.part with
  | single l =>
    rw [hp] at h
    exact not_mem_lit (h l (by simp [DecPart.lits])) (by decide) (by decide) (by decide)
  | span lo hi =>
    obtain ⟨olo, ohi⟩ := part_lits_ok h lo hi hp
    simp only [List.mem_append, not_or]
    exact ⟨not_mem_litText olo (by decide) (by decide) (by decide) (by decide), hsp _, by decide, hsp _,
      not_mem_litText ohi (by decide) (by decide) (by decide) (by decide)⟩

theorem genSpecs_decRange {ws : List DecWritten} (hne : ws ≠ []) (h : ∀ w ∈ ws, ∀ l ∈ w.part.lits, l.Ok) :
    ∃ ws' : List DecWritten, genSpecs (decRangeText ws) = ws'.map DecWritten.core ∧
      ws'.map DecWritten.part = ws.map DecWritten.part := by
  cases ws with
  | nil => exact absurd rfl hne
  | cons w ws =>
    cases ws with
    | nil =>
      refine ⟨[w], ?_, rfl⟩
      simp [genSpecs, decRangeText, bar_not_mem_written (h w (by simp))]
    | cons w2 ws =>
      refine ⟨(w :: w2 :: ws).map tightWritten, ?_, ?_⟩
      · have hbar : '|' ∈ decRangeText (w :: w2 :: ws) := by simp [decRangeText, join]
        simp only [genSpecs, if_pos hbar]
        simp only [decRangeText]
        have hno : ∀ p ∈ (w :: w2 :: ws).map (fun w => blanks w.pre ++ w.core ++ blanks w.post), '|' ∉ p := by
          intro p hp
          rw [List.mem_map] at hp
          obtain ⟨x, hx, rfl⟩ := hp
          simp only [List.mem_append, not_or]
          refine ⟨⟨?_, bar_not_mem_written (h x hx)⟩, ?_⟩ <;> simp [blanks, List.mem_replicate]
        rw [splitOn_join '|' _ (by simp) hno]
        rw [List.map_map, List.map_map]
        apply List.map_congr_left
        intro x hx
        exact tight_written (h x hx)
      · rw [List.map_map]; rfl

end Pyb
