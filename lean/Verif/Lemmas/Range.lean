import Verif.Model.Range
import Verif.Spec.Range
import Verif.Lemmas.Str

/-! # Parsing written range parts -/

namespace Pyb
open Py Spec

/-- The texts that may stand for a bound: optional sign and digits, or a word. -/
structure NumText (s : Str) : Prop where
  ex : ∃ (neg : Bool) (ds : Str), s = (if neg then '-' :: ds else ds) ∧ ds ≠ [] ∧
    ∀ c ∈ ds, isDigit c = true

theorem numText_intStr (n : Int) : NumText (intStr n) := by
  cases n with
  | ofNat n => exact ⟨false, natStr n, by simp [intStr], natStr_ne_nil n, natStr_digits n⟩
  | negSucc n => exact ⟨true, natStr (n + 1), by simp [intStr], natStr_ne_nil _, natStr_digits _⟩

theorem isDigit_ne {c d : Char} (h : isDigit c = true) (hd : isDigit d = false) : c ≠ d := by
  rintro rfl; simp [h] at hd

theorem takeWhile_append_all {p : Char → Bool} (a b : Str) (h : ∀ c ∈ a, p c = true) :
    (a ++ b).takeWhile p = a ++ b.takeWhile p := by
  induction a with
  | nil => rfl
  | cons c cs ih =>
    simp [h c (by simp), ih (fun d hd => h d (by simp [hd]))]

theorem dropWhile_append_all {p : Char → Bool} (a b : Str) (h : ∀ c ∈ a, p c = true) :
    (a ++ b).dropWhile p = b.dropWhile p := by
  induction a with
  | nil => rfl
  | cons c cs ih =>
    simp [h c (by simp), ih (fun d hd => h d (by simp [hd]))]

theorem dropWhile_spaces (n : Nat) (t : Str) :
    (spaces n ++ t).dropWhile (· = ' ') = t.dropWhile (· = ' ') := by
  apply dropWhile_append_all
  intro c hc
  simp [spaces, List.mem_replicate] at hc
  simp [hc.2]

theorem splitSign_signed (neg : Bool) (ds t : Str) (hne : ds ≠ []) (hd : ∀ c ∈ ds, isDigit c = true) :
    splitSign ((if neg then '-' :: ds else ds) ++ t) = (if neg then ['-'] else [], ds ++ t) := by
  cases neg with
  | true => simp [splitSign]
  | false =>
    cases ds with
    | nil => exact absurd rfl hne
    | cons c cs =>
      have : c ≠ '-' := isDigit_ne (hd c (by simp)) (by decide)
      simp [splitSign, this]

theorem matchNumber_numText {s : Str} (h : NumText s) : matchNumber s = some (s, []) := by
  obtain ⟨neg, ds, rfl, hne, hd⟩ := h
  have hn : ∀ c ∈ ds, isNumChar c = true := fun c hc => by simp [isNumChar, hd c hc]
  have htw : ds.takeWhile isNumChar = ds := by
    have := takeWhile_append_all ds [] hn; simpa using this
  have hdw : ds.dropWhile isNumChar = [] := by
    have := dropWhile_append_all ds [] hn; simpa using this
  have hs := splitSign_signed neg ds [] hne hd
  rw [List.append_nil, List.append_nil] at hs
  simp only [matchNumber, hs, htw, hdw, if_neg hne]
  cases neg <;> simp

theorem numText_head_ne {s : Str} (h : NumText s) {c : Char} (hc : s.head? = some c) :
    c ≠ '.' ∧ c ≠ ' ' := by
  obtain ⟨neg, ds, rfl, hne, hd⟩ := h
  cases neg with
  | true => simp at hc; subst hc; decide
  | false =>
    cases ds with
    | nil => exact absurd rfl hne
    | cons d ds =>
      simp at hc; subst hc
      exact ⟨isDigit_ne (hd d (by simp)) (by decide), isDigit_ne (hd d (by simp)) (by decide)⟩

/-- A bound text: number, or the default word. -/
theorem matchTail_success (s1 s2 : Nat) (hi : Option Int) :
    matchTail (spaces s1 ++ py!".." ++ spaces s2 ++ boundText py!"max" hi) =
      some (boundText py!"max" hi, []) := by
  unfold matchTail
  rw [List.append_assoc, List.append_assoc, dropWhile_spaces]
  simp only [List.cons_append, List.nil_append]
  rw [show ('.' :: '.' :: (spaces s2 ++ boundText py!"max" hi)).dropWhile (· = ' ') =
    '.' :: '.' :: (spaces s2 ++ boundText py!"max" hi) by
    rw [List.dropWhile_cons_of_neg (by decide)]]
  simp only
  rw [dropWhile_spaces]
  cases hi with
  | none => decide
  | some n =>
    have hnt := numText_intStr n
    have e : (boundText py!"max" (some n)).dropWhile (· = ' ') = intStr n := by
      apply dropWhile_eq_self
      intro c hc
      simpa using (numText_head_ne hnt hc).2
    simp only [e, matchNumber_numText hnt]
    rfl

theorem matchTail_dots {s : Str} (h : s.count '.' < 2) : matchTail s = none := by
  unfold matchTail
  split
  · rename_i t heq
    exfalso
    have h2 := (List.dropWhile_sublist (fun c : Char => decide (c = ' ')) (l := s)).count_le '.'
    rw [heq] at h2
    simp at h2
    omega
  · rfl

theorem tryLow_eq (s : Str) (k K : Nat) (h : Str) (r : Str) (hk : 0 < k) (hK : k ≤ K)
    (hs : matchTail (s.drop k) = some (h, r))
    (hn : ∀ i, k < i → i ≤ K → matchTail (s.drop i) = none) :
    tryLow s K = some (s.take k, h, r) := by
  induction K with
  | zero => omega
  | succ K ih =>
    simp only [tryLow]
    by_cases hkK : k = K + 1
    · subst hkK; rw [hs]
    · rw [hn (K + 1) (by omega) (by omega)]
      exact ih (by omega) (fun i h1 h2 => hn i h1 (by omega))

theorem count_dot_spaces (n : Nat) : (spaces n).count '.' = 0 := by
  rw [List.count_eq_zero]; simp [spaces, List.mem_replicate]

theorem count_dot_intStr (n : Int) : (intStr n).count '.' = 0 := by
  rw [List.count_eq_zero]
  intro hm
  cases n with
  | ofNat n => exact isDigit_ne (natStr_digits n _ hm) (by decide) rfl
  | negSucc n =>
    simp only [intStr, List.mem_cons] at hm
    rcases hm with hm | hm
    · revert hm; decide
    · exact isDigit_ne (natStr_digits _ _ hm) (by decide) rfl

theorem count_dot_boundText (hi : Option Int) : (boundText py!"max" hi).count '.' = 0 := by
  cases hi with
  | none => decide
  | some n => exact count_dot_intStr n

theorem tryLow_digits (ds : Str) (hne : ds ≠ []) (hd : ∀ c ∈ ds, isDigit c = true)
    (s1 s2 : Nat) (hi : Option Int) :
    let t := ds ++ (spaces s1 ++ py!".." ++ spaces s2 ++ boundText py!"max" hi)
    tryLow t (t.takeWhile isNumChar).length = some (ds, boundText py!"max" hi, []) := by
  intro t
  have hn : ∀ c ∈ ds, isNumChar c = true := fun c hc => by simp [isNumChar, hd c hc]
  have htw : t.takeWhile isNumChar = ds ++
      (spaces s1 ++ py!".." ++ spaces s2 ++ boundText py!"max" hi).takeWhile isNumChar :=
    takeWhile_append_all ds _ hn
  have htake : t.take ds.length = ds := by simp [t]
  have := tryLow_eq t ds.length (t.takeWhile isNumChar).length (boundText py!"max" hi) []
    (List.length_pos_iff.2 hne) (by rw [htw]; simp) (by
      simp only [t, List.drop_left]
      exact matchTail_success s1 s2 hi) (by
      intro i h1 h2
      cases s1 with
      | succ s1 =>
        exfalso
        have : (spaces (s1 + 1) ++ py!".." ++ spaces s2 ++ boundText py!"max" hi).takeWhile isNumChar = [] := by
          simp only [spaces, List.replicate_succ, List.cons_append]
          rw [List.takeWhile_cons_of_neg (by decide)]
        rw [htw, this] at h2
        simp at h2; omega
      | zero =>
        apply matchTail_dots
        obtain ⟨j, rfl⟩ : ∃ j, i = ds.length + (j + 1) := ⟨i - ds.length - 1, by omega⟩
        have hdrop : t.drop (ds.length + (j + 1)) =
            (spaces 0 ++ py!".." ++ spaces s2 ++ boundText py!"max" hi).drop (j + 1) := by
          rw [← List.drop_drop]; simp only [t, List.drop_left]
        rw [hdrop]
        have hsub : ((spaces 0 ++ py!".." ++ spaces s2 ++ boundText py!"max" hi).drop
            (j + 1)).count '.' ≤ 1 := by
          rw [show spaces 0 = [] from rfl]
          simp only [List.nil_append, List.cons_append, List.drop_succ_cons]
          refine Nat.le_trans ((List.drop_sublist j _).count_le '.') ?_
          have h1 := count_dot_spaces s2
          have h2 := count_dot_boundText hi
          simp [List.count_append, h1, h2]
        omega)
  rw [htake] at this
  exact this

/-- A written span is recognised with its two bound texts. -/
theorem matchRange_span (lo hi : Option Int) (s1 s2 : Nat) :
    matchRange (boundText py!"min" lo ++ spaces s1 ++ py!".." ++ spaces s2 ++ boundText py!"max" hi) =
      some (boundText py!"min" lo, boundText py!"max" hi, []) := by
  have assoc : boundText py!"min" lo ++ spaces s1 ++ py!".." ++ spaces s2 ++ boundText py!"max" hi =
      boundText py!"min" lo ++ (spaces s1 ++ py!".." ++ spaces s2 ++ boundText py!"max" hi) := by
    simp only [List.append_assoc]
  rw [assoc]
  cases lo with
  | none =>
    have hts := matchTail_success s1 s2 hi
    generalize spaces s1 ++ py!".." ++ spaces s2 ++ boundText py!"max" hi = X at hts ⊢
    show matchRange ('m' :: 'i' :: 'n' :: X) = _
    have h1 : ('m' :: 'i' :: 'n' :: X).takeWhile isNumChar = [] :=
      List.takeWhile_cons_of_neg (by decide)
    have h2 : splitSign ('m' :: 'i' :: 'n' :: X) = ([], 'm' :: 'i' :: 'n' :: X) := rfl
    simp only [matchRange, h2, h1, List.length_nil, tryLow]
    rw [if_pos (by simp)]
    simp only [List.drop_succ_cons, List.drop_zero, hts]
    rfl
  | some n =>
    obtain ⟨neg, ds, hs, hne, hd⟩ := numText_intStr n
    rw [show boundText py!"min" (some n) = intStr n from rfl, hs]
    have key := tryLow_digits ds hne hd s1 s2 hi
    simp only [matchRange, splitSign_signed neg ds _ hne hd]
    simp only at key
    rw [key]
    cases neg <;> simp

theorem comma_boundText (d : Str) (hdm : ',' ∉ d) (b : Option Int) : ',' ∉ boundText d b := by
  cases b with
  | none => exact hdm
  | some n =>
    intro hm
    simp only [boundText] at hm
    cases n with
    | ofNat n => exact isDigit_ne (natStr_digits n _ hm) (by decide) rfl
    | negSucc n =>
      simp only [intStr, List.mem_cons] at hm
      rcases hm with hm | hm
      · revert hm; decide
      · exact isDigit_ne (natStr_digits _ _ hm) (by decide) rfl

/-- A single number is not taken for a range. -/
theorem matchRange_number (n : Int) : matchRange (intStr n) = none := by
  have hcount := count_dot_intStr n
  have hmin : py!"min".isPrefixOf (intStr n) = false := by
    obtain ⟨neg, ds, hs, hne, hd⟩ := numText_intStr n
    rw [hs]
    cases neg with
    | true => rfl
    | false =>
      cases ds with
      | nil => exact absurd rfl hne
      | cons c cs =>
        have : c ≠ 'm' := isDigit_ne (hd c (by simp)) (by decide)
        simp [List.isPrefixOf, Ne.symm this]
  have hnone : ∀ (t : Str) (k : Nat), t.count '.' = 0 → tryLow t k = none := by
    intro t k ht
    induction k with
    | zero => rfl
    | succ k ih =>
      simp only [tryLow]
      rw [matchTail_dots]
      · exact ih
      · have := (List.drop_sublist (k + 1) t).count_le '.'; omega
  have ht : (splitSign (intStr n)).2.count '.' = 0 := by
    generalize intStr n = s at hcount
    cases s with
    | nil => rfl
    | cons c cs =>
      simp only [splitSign]
      split
      · rw [List.count_cons] at hcount; simp; omega
      · exact hcount
  simp only [matchRange, hnone _ _ ht, hmin]
  rfl

/-- What `buildChk` makes of a written part, given how its bounds convert. -/
def chkOf : RangePart → Chk
  | .span lo hi => .pair (lo.map .int) (hi.map .int)
  | .single n => .single (.int n)

theorem intStr_ne_word (n : Int) : intStr n ≠ py!"max" ∧ intStr n ≠ py!"min" := by
  constructor <;> intro h
  · have := intOfStr_intStr n; rw [h] at this; revert this
    have : intOfStr py!"max" = .error .valueError := by decide
    rw [this]; simp
  · have := intOfStr_intStr n; rw [h] at this; revert this
    have : intOfStr py!"min" = .error .valueError := by decide
    rw [this]; simp

/-- Conversion succeeds with the number itself on every bound of the part. -/
def ConvOK (conv : PyVal → Except Err PyVal) : RangePart → Prop
  | .span lo hi => (∀ n, lo = some n → conv (.str (intStr n)) = .ok (.int n)) ∧
      (∀ n, hi = some n → conv (.str (intStr n)) = .ok (.int n))
  | .single n => conv (.str (intStr n)) = .ok (.int n)

theorem subRange_span (lo hi : Option Int) (s1 s2 : Nat) :
    subRange (boundText py!"min" lo ++ spaces s1 ++ py!".." ++ spaces s2 ++ boundText py!"max" hi).length
      (boundText py!"min" lo ++ spaces s1 ++ py!".." ++ spaces s2 ++ boundText py!"max" hi) =
      boundText py!"min" lo ++ py!"," ++ boundText py!"max" hi := by
  have hm := matchRange_span lo hi s1 s2
  generalize boundText py!"min" lo ++ spaces s1 ++ py!".." ++ spaces s2 ++ boundText py!"max" hi = X at hm
  cases X with
  | nil =>
    exfalso
    have : matchRange [] = none := by decide
    rw [this] at hm; simp at hm
  | cons c cs =>
    simp only [List.length_cons, subRange, hm]
    have : subRange cs.length [] = [] := by cases cs.length <;> rfl
    rw [this, List.append_nil]

theorem buildChk_core (conv : PyVal → Except Err PyVal) (w : WrittenPart)
    (h : ConvOK conv w.part) : buildChk conv w.core = .ok (chkOf w.part) := by
  unfold WrittenPart.core
  cases hp : w.part with
  | single n =>
    rw [hp] at h
    simp only [ConvOK] at h
    simp only [buildChk, matchRange_number, matchNumber_numText (numText_intStr n), h, chkOf]
    rfl
  | span lo hi =>
    rw [hp] at h
    simp only [ConvOK] at h
    simp only [buildChk, matchRange_span, subRange_span]
    have hsplit : splitOn ',' (boundText py!"min" lo ++ py!"," ++ boundText py!"max" hi) =
        [boundText py!"min" lo, boundText py!"max" hi] := by
      rw [List.append_assoc, List.singleton_append,
        splitOn_append_sep _ _ _ (comma_boundText _ (by decide) lo),
        splitOn_of_not_mem (comma_boundText _ (by decide) hi)]
    rw [hsplit]
    simp only
    have hhi : convBound conv py!"max" (boundText py!"max" hi) = .ok (hi.map .int) := by
      cases hi with
      | none => rfl
      | some n => simp only [convBound, boundText, (intStr_ne_word n).1, if_false, h.2 n rfl]; rfl
    have hlo : convBound conv py!"min" (boundText py!"min" lo) = .ok (lo.map .int) := by
      cases lo with
      | none => rfl
      | some n => simp only [convBound, boundText, (intStr_ne_word n).2, if_false, h.1 n rfl]; rfl
    rw [hhi, hlo]
    rfl

/-! ### The generator's splitting -/

/-- The part as the generator hands it over when there are several. -/
def tightPart (w : WrittenPart) : WrittenPart := { part := w.part }

theorem replaceBy_append (a : Char) (r s t : Str) :
    replaceBy a r (s ++ t) = replaceBy a r s ++ replaceBy a r t := by simp [replaceBy]

theorem replaceBy_spaces (n : Nat) : replaceBy ' ' [] (spaces n) = [] := by
  simp only [replaceBy, spaces]
  induction n with
  | zero => rfl
  | succ n ih => simp [List.replicate_succ, ih]

theorem replaceBy_of_not_mem {a : Char} {r s : Str} (h : a ∉ s) : replaceBy a r s = s := by
  induction s with
  | nil => rfl
  | cons c cs ih =>
    simp only [List.mem_cons, not_or] at h
    simp only [replaceBy, List.flatMap_cons] at ih ⊢
    rw [ih h.2, if_neg (Ne.symm h.1)]; rfl

theorem not_mem_boundText {c : Char} {d : Str} (hd : c ∉ d) (hc : isDigit c = false)
    (hm : c ≠ '-') (b : Option Int) : c ∉ boundText d b := by
  cases b with
  | none => exact hd
  | some n =>
    intro h
    simp only [boundText] at h
    cases n with
    | ofNat n => exact isDigit_ne (natStr_digits n _ h) hc rfl
    | negSucc n =>
      simp only [intStr, List.mem_cons] at h
      rcases h with h | h
      · exact hm h
      · exact isDigit_ne (natStr_digits _ _ h) hc rfl

theorem tight_core (w : WrittenPart) :
    replaceBy ' ' [] (spaces w.pre ++ w.core ++ spaces w.post) = (tightPart w).core := by
  rw [replaceBy_append, replaceBy_append, replaceBy_spaces, replaceBy_spaces, List.nil_append,
    List.append_nil]
  unfold WrittenPart.core tightPart
  simp only
  cases w.part with
  | single n =>
    simp only
    exact replaceBy_of_not_mem (not_mem_boundText (d := []) (by simp) (by decide) (by decide) (some n))
  | span lo hi =>
    simp only [replaceBy_append, replaceBy_spaces, List.append_nil]
    rw [replaceBy_of_not_mem (not_mem_boundText (by decide) (by decide) (by decide) lo),
      replaceBy_of_not_mem (not_mem_boundText (by decide) (by decide) (by decide) hi)]
    rw [show replaceBy ' ' [] py!".." = py!".." by decide, show spaces 0 = [] from rfl]
    simp

theorem bar_not_mem_core (w : WrittenPart) : '|' ∉ w.core := by
  have hsp : ∀ n, '|' ∉ spaces n := fun n => by simp [spaces, List.mem_replicate]
  unfold WrittenPart.core
  cases w.part with
  | single n => exact not_mem_boundText (d := []) (by simp) (by decide) (by decide) (some n)
  | span lo hi =>
    simp only [List.mem_append, not_or]
    exact ⟨⟨⟨⟨not_mem_boundText (by decide) (by decide) (by decide) lo, hsp _⟩, by decide⟩, hsp _⟩,
      not_mem_boundText (by decide) (by decide) (by decide) hi⟩

/-- The parts of a written argument reach `RestrictedClassType` as texts of the
same parts. -/
theorem genSpecs_rangeText (ws : List WrittenPart) (hne : ws ≠ []) :
    ∃ ws' : List WrittenPart, genSpecs (rangeText ws) = ws'.map WrittenPart.core ∧
      ws'.map WrittenPart.part = ws.map WrittenPart.part := by
  cases ws with
  | nil => exact absurd rfl hne
  | cons w ws =>
    cases ws with
    | nil =>
      refine ⟨[w], ?_, rfl⟩
      simp [genSpecs, rangeText, bar_not_mem_core w]
    | cons w2 ws =>
      refine ⟨(w :: w2 :: ws).map tightPart, ?_, ?_⟩
      · have hbar : '|' ∈ rangeText (w :: w2 :: ws) := by simp [rangeText, join]
        simp only [genSpecs, if_pos hbar]
        simp only [rangeText]
        have hno : ∀ p ∈ (w :: w2 :: ws).map (fun w => spaces w.pre ++ w.core ++ spaces w.post), '|' ∉ p := by
          intro p hp
          rw [List.mem_map] at hp
          obtain ⟨x, _, rfl⟩ := hp
          simp only [List.mem_append, not_or]
          refine ⟨⟨?_, bar_not_mem_core x⟩, ?_⟩ <;> simp [spaces, List.mem_replicate]
        rw [splitOn_join '|' _ (by simp) hno]
        simp only [List.map_map]
        apply List.map_congr_left
        intro x _
        simp only [Function.comp]
        rw [tight_core]
      · simp [List.map_map, Function.comp_def, tightPart]

end Pyb
