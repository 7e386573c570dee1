import Verif.Spec.JsonText
import Verif.Lemmas.Str
import Verif.Lemmas.GenValue

namespace Pyb
open Py Spec

/-! ## Strings -/

theorem hexValue_hexDigit : ∀ n, n < 16 → hexValue (hexDigit n) = some n := by decide

theorem readHex_hexFour (n : Nat) (h : n < 65536) (r : Str) : readHex (hexFour n ++ r) = some (n, r) := by
  simp only [hexFour, List.cons_append, List.nil_append, readHex]
  rw [hexValue_hexDigit _ (Nat.mod_lt _ (by decide)), hexValue_hexDigit _ (Nat.mod_lt _ (by decide)),
    hexValue_hexDigit _ (Nat.mod_lt _ (by decide)), hexValue_hexDigit _ (Nat.mod_lt _ (by decide))]
  simp only [Option.some.injEq, Prod.mk.injEq, and_true]
  omega

theorem char_range (c : Char) : c.toNat < 0xd800 ∨ (0xdfff < c.toNat ∧ c.toNat < 0x110000) := by
  rcases c.valid with h | h
  · exact .inl h
  · exact .inr h

theorem readUni_one (n : Nat) (h : n < 0xd800 ∨ 0xe000 ≤ n) (h2 : n < 65536) (r : Str) : readUni (hexFour n ++ r) = some (Char.ofNat n, r) := by
  have h3 : ¬ (0xd800 ≤ n ∧ n < 0xdc00) := by omega
  have h4 : ¬ (0xdc00 ≤ n ∧ n < 0xe000) := by omega
  rw [readUni, readHex_hexFour n h2 r]
  simp only [if_neg h3, if_neg h4]

theorem readUni_two (hi lo : Nat) (h1 : 0xd800 ≤ hi ∧ hi < 0xdc00) (h2 : 0xdc00 ≤ lo ∧ lo < 0xe000) (r : Str) :
    readUni (hexFour hi ++ ('\\' :: 'u' :: (hexFour lo ++ r))) = some (Char.ofNat (0x10000 + (hi - 0xd800) * 1024 + (lo - 0xdc00)), r) := by
  have h3 : hi < 65536 := by omega
  have h4 : lo < 65536 := by omega
  rw [readUni, readHex_hexFour hi h3 _]
  simp only [if_pos h1]
  rw [readLow, readHex_hexFour lo h4 _]
  simp only [if_pos h2]

theorem readEsc_char (c : Char) (h1 : shortEscapes.lookup c = none) (h2 : ¬ (32 ≤ c.toNat ∧ c.toNat ≤ 126)) (r : Str) :
    ∃ u, jsonChar c = '\\' :: u ∧ readEsc (u ++ r) = some (c, r) := by
  have hc := char_range c
  have hu : ∀ s, readEsc ('u' :: s) = readUni s := fun s => by rw [readEsc, if_pos rfl]
  rw [jsonChar, h1]
  simp only
  rw [if_neg h2]
  by_cases hs : c.toNat < 0x10000
  · rw [if_pos hs]
    refine ⟨'u' :: hexFour c.toNat, rfl, ?_⟩
    rw [List.cons_append, hu, readUni_one _ (by omega) (by omega), Char.ofNat_toNat]
  · rw [if_neg hs]
    refine ⟨'u' :: (hexFour (0xd800 + (c.toNat - 0x10000) / 1024) ++ ('\\' :: 'u' :: hexFour (0xdc00 + (c.toNat - 0x10000) % 1024))), rfl, ?_⟩
    generalize hh : 0xd800 + (c.toNat - 0x10000) / 1024 = hi
    generalize hl : 0xdc00 + (c.toNat - 0x10000) % 1024 = lo
    have e : 0x10000 + (hi - 0xd800) * 1024 + (lo - 0xdc00) = c.toNat := by omega
    rw [List.cons_append, List.append_assoc, List.cons_append, List.cons_append, hu, readUni_two hi lo (by omega) (by omega), e, Char.ofNat_toNat]

theorem escape_mem {l : List (Char × Char)} {c e : Char} (h : l.lookup c = some e) : (c, e) ∈ l := by
  induction l with
  | nil => cases h
  | cons q l ih =>
    obtain ⟨a, b⟩ := q
    by_cases hc : c = a
    · subst hc
      simp only [List.lookup_cons, beq_self_eq_true, Option.some.injEq] at h
      subst h
      exact List.mem_cons_self
    · have : (c == a) = false := by simpa using hc
      simp only [List.lookup_cons, this] at h
      exact List.mem_cons_of_mem _ (ih h)

theorem readStr_char (c : Char) (r : Str) (n : Nat) :
    readStr (n + 1) (jsonChar c ++ r) = (readStr n r).map fun p => (c :: p.1, p.2) := by
  cases hl : shortEscapes.lookup c with
  | some e =>
    have hm : (c, e) ∈ shortEscapes := escape_mem hl
    simp only [jsonChar, hl]
    simp only [shortEscapes, List.mem_cons, Prod.mk.injEq, List.not_mem_nil, or_false] at hm
    rcases hm with ⟨rfl, rfl⟩ | ⟨rfl, rfl⟩ | ⟨rfl, rfl⟩ | ⟨rfl, rfl⟩ | ⟨rfl, rfl⟩ | ⟨rfl, rfl⟩ | ⟨rfl, rfl⟩ <;> rfl
  | none =>
    by_cases h2 : 32 ≤ c.toNat ∧ c.toNat ≤ 126
    · simp only [jsonChar, hl, if_pos h2, List.cons_append, List.nil_append, readStr]
      rw [if_neg, if_neg, if_neg (by omega)]
      · intro e; subst e; simp [shortEscapes, List.lookup] at hl
      · intro e; subst e; simp [shortEscapes, List.lookup] at hl
    · obtain ⟨u, h3, h4⟩ := readEsc_char c hl h2 r
      rw [h3, List.cons_append, readStr, if_neg (by decide), if_pos rfl, h4]

theorem readStr_text (s : Str) : ∀ (n : Nat) (r : Str), s.length < n → readStr n (s.flatMap jsonChar ++ ('"' :: r)) = some (s, r) := by
  induction s with
  | nil =>
    intro n r h
    obtain ⟨m, rfl⟩ : ∃ m, n = m + 1 := ⟨n - 1, by omega⟩
    simp [readStr]
  | cons c s ih =>
    intro n r h
    obtain ⟨m, rfl⟩ : ∃ m, n = m + 1 := ⟨n - 1, by omega⟩
    simp only [List.flatMap_cons, List.append_assoc]
    rw [readStr_char, ih m r (by simpa using h)]
    rfl

theorem jsonChar_length (c : Char) : 1 ≤ (jsonChar c).length := by
  simp only [jsonChar]
  split
  · simp
  · split
    · simp
    · split <;> simp

theorem flat_length (s : Str) : s.length ≤ (s.flatMap jsonChar).length := by
  induction s with
  | nil => simp
  | cons c s ih =>
    have := jsonChar_length c
    simp only [List.flatMap_cons, List.length_append, List.length_cons]
    omega

theorem jsonStr_length (s : Str) : s.length + 2 ≤ (jsonStr s).length := by
  have := flat_length s
  simp only [jsonStr, List.length_cons, List.length_append, List.length_nil]
  omega

theorem readStr_jsonStr (s r : Str) : readStr ((s.flatMap jsonChar ++ ('"' :: r)).length + 1) (s.flatMap jsonChar ++ ('"' :: r)) = some (s, r) := by
  apply readStr_text
  have := flat_length s
  simp only [List.length_append, List.length_cons]
  omega

/-! ## Numbers -/

/-- The rest does not go on a number. -/
def NumEnd (r : Str) : Prop := ∀ c, r.head? = some c → isDigit c = false ∧ c ≠ '.' ∧ c ≠ 'e' ∧ c ≠ 'E'

theorem takeWhile_digits {d r : Str} (hd : ∀ c ∈ d, isDigit c = true) (hr : ∀ c, r.head? = some c → isDigit c = false) :
    (d ++ r).takeWhile isDigit = d ∧ (d ++ r).dropWhile isDigit = r := by
  induction d with
  | nil =>
    cases r with
    | nil => simp
    | cons c r => simp [hr c rfl]
  | cons c d ih =>
    have := ih (fun c hc => hd c (List.mem_cons_of_mem _ hc))
    simp [hd c List.mem_cons_self, this]

theorem readDigits_of {d r : Str} (hd : Digits d) (hr : ∀ c, r.head? = some c → isDigit c = false) :
    readDigits (d ++ r) = some (d, r) := by
  obtain ⟨h1, h2⟩ := takeWhile_digits hd.2 hr
  rw [readDigits, h1, h2, if_neg hd.1]

theorem natStr_Digits (n : Nat) : Digits (natStr n) := ⟨natStr_ne_nil n, natStr_digits n⟩

theorem natStr_zero : natStr 0 = ['0'] := rfl

theorem readWhole_natStr (n : Nat) (r : Str) (hr : ∀ c, r.head? = some c → isDigit c = false) :
    readWhole (natStr n ++ r) = some (natStr n, r) := by
  by_cases hn : n = 0
  · subst hn
    rfl
  · obtain ⟨c, t, hc, h0⟩ := natStrAux_head (n + 1) n (by omega) (by omega)
    rw [readWhole, if_neg, readDigits_of (natStr_Digits n) hr]
    show ¬ (natStrAux (n + 1) n ++ r).head? = some '0'
    rw [hc]
    simpa using h0

theorem natStr_head_ne (n : Nat) (r : Str) (x : Char) (hx : isDigit x = false) : (natStr n ++ r).head? ≠ some x := by
  obtain ⟨c, t, hc, hd⟩ := natStr_cons n
  rw [hc]
  intro h
  simp only [List.cons_append, List.head?_cons, Option.some.injEq] at h
  subst h
  rw [hd] at hx
  cases hx

theorem readInteger_of (sign : Str) (hs : sign = [] ∨ sign = ['-']) (n : Nat) (r : Str) (hr : ∀ c, r.head? = some c → isDigit c = false) :
    readInteger (sign ++ natStr n ++ r) = some (sign ++ natStr n, r) := by
  rcases hs with rfl | rfl
  · rw [List.nil_append, readInteger, if_neg (natStr_head_ne n r '-' (by decide)), readWhole_natStr n r hr]
  · simp only [List.cons_append, List.nil_append, readInteger, List.head?_cons, if_true, List.tail_cons, readWhole_natStr n r hr, Option.map_some]

theorem intStr_sign (n : Int) : ∃ sign m, (sign = [] ∨ sign = ['-']) ∧ intStr n = sign ++ natStr m := by
  cases n with
  | ofNat n => exact ⟨[], n, .inl rfl, rfl⟩
  | negSucc n => exact ⟨['-'], n + 1, .inr rfl, rfl⟩

theorem readFrac_end {r : Str} (hr : r.head? ≠ some '.') : readFrac r = ([], r) := by rw [readFrac, if_neg hr]

theorem readExp_end {r : Str} (hr : r.head? ≠ some 'e' ∧ r.head? ≠ some 'E') : readExp r = ([], r) := by
  rw [readExp, if_neg (by simp [hr])]

theorem NumEnd.dot {r : Str} (h : NumEnd r) : r.head? ≠ some '.' := fun e => (h _ e).2.1 rfl
theorem NumEnd.exp {r : Str} (h : NumEnd r) : r.head? ≠ some 'e' ∧ r.head? ≠ some 'E' := ⟨fun e => (h _ e).2.2.1 rfl, fun e => (h _ e).2.2.2 rfl⟩
theorem NumEnd.digit {r : Str} (h : NumEnd r) : ∀ c, r.head? = some c → isDigit c = false := fun c e => (h c e).1

theorem readNumber_int (rf : Str → Option (Int × Int)) (n : Int) (r : Str) (hr : NumEnd r) : readNumber rf (intStr n ++ r) = some (.num n, r) := by
  obtain ⟨sign, m, hs, e⟩ := intStr_sign n
  have := readInteger_of sign hs m r hr.digit
  rw [← e] at this
  simp only [readNumber, this, readFrac_end hr.dot, readExp_end hr.exp, and_self, if_true, intOfStr_intStr]

theorem readFrac_of {d r : Str} (hd : Digits d) (hr : ∀ c, r.head? = some c → isDigit c = false) : readFrac ('.' :: d ++ r) = ('.' :: d, r) := by
  simp only [readFrac, List.cons_append, List.head?_cons, if_true, List.tail_cons, readDigits_of hd hr]

theorem digits_head {d r : Str} (hd : Digits d) (x : Char) (hx : isDigit x = false) : (d ++ r).head? ≠ some x := by
  obtain ⟨h1, h2⟩ := hd
  cases d with
  | nil => exact absurd rfl h1
  | cons c d =>
    intro h
    simp only [List.cons_append, List.head?_cons, Option.some.injEq] at h
    subst h
    rw [h2 c List.mem_cons_self] at hx
    cases hx

theorem readExp_of {g d r : Str} (hg : g = [] ∨ g = ['-'] ∨ g = ['+']) (hd : Digits d) (hr : ∀ c, r.head? = some c → isDigit c = false) :
    readExp ('e' :: g ++ d ++ r) = ('e' :: g ++ d, r) := by
  have hs : readSign (g ++ (d ++ r)) = (g, d ++ r) := by
    rcases hg with rfl | rfl | rfl
    · rw [readSign, if_neg]
      · simp
      · simp only [List.nil_append, not_or]
        exact ⟨digits_head hd _ (by decide), digits_head hd _ (by decide)⟩
    · simp [readSign]
    · simp [readSign]
  simp only [readExp, List.cons_append, List.append_assoc, List.head?_cons, true_or, if_true, List.tail_cons, hs, readDigits_of hd hr,
    List.take_succ_cons, List.take_zero, List.nil_append]

theorem readNumber_float {fl : Int × Int → Str} {rf : Str → Option (Int × Int)} {x : Int × Int} (h : FloatBack fl rf x) (r : Str) (hr : NumEnd r) :
    readNumber rf (fl x ++ r) = some (.float x, r) := by
  obtain ⟨⟨sign, n, f, e, hfl, hs, hf, he, hne⟩, hrf⟩ := h
  rw [hfl] at hrf ⊢
  have hE : readExp (e ++ r) = (e, r) := by
    rcases he with rfl | ⟨g, d, rfl, hg, hd⟩
    · exact readExp_end hr.exp
    · exact readExp_of hg hd hr.digit
  have hEh : ∀ c, (e ++ r).head? = some c → isDigit c = false ∧ c ≠ '.' := by
    rcases he with rfl | ⟨g, d, rfl, hg, hd⟩
    · exact fun c hc => ⟨(hr c hc).1, (hr c hc).2.1⟩
    · intro c hc
      simp only [List.cons_append, List.head?_cons, Option.some.injEq] at hc
      subst hc
      decide
  have hF : readFrac (f ++ (e ++ r)) = (f, e ++ r) := by
    rcases hf with rfl | ⟨d, rfl, hd⟩
    · exact readFrac_end fun e => (hEh _ e).2 rfl
    · exact readFrac_of hd fun c hc => (hEh c hc).1
  have hFh : ∀ c, (f ++ (e ++ r)).head? = some c → isDigit c = false := by
    rcases hf with rfl | ⟨d, rfl, hd⟩
    · exact fun c hc => (hEh c hc).1
    · intro c hc
      simp only [List.cons_append, List.head?_cons, Option.some.injEq] at hc
      subst hc
      decide
  have hI := readInteger_of sign hs n _ hFh
  have hfe : ¬ (f = [] ∧ e = []) := by
    rintro ⟨rfl, rfl⟩
    simp at hne
  simp only [List.append_assoc] at hI hrf ⊢
  simp only [readNumber, hI, hF, hE, if_neg hfe, List.append_assoc, hrf, Option.map_some]

/-! ## Documents -/

mutual
/-- A bound for the steps of the reader. -/
def weight : J → Nat
  | .arr xs => 1 + weights xs
  | .obj ms => 1 + weightMems ms
  | _ => 1
def weights : List J → Nat
  | [] => 0
  | x :: xs => weight x + 1 + weights xs
def weightMems : List (Str × J) → Nat
  | [] => 0
  | (_, x) :: ms => weight x + 1 + weightMems ms
end


theorem skipSpace_line (ind : Option Nat) (lvl : Nat) (s : Str) : skipSpace (jsonLine ind lvl ++ s) = skipSpace s := by
  cases ind with
  | none => rfl
  | some k =>
    simp only [jsonLine, List.cons_append, skipSpace]
    rw [List.dropWhile_cons_of_pos (by decide)]
    induction (k * lvl) with
    | zero => rfl
    | succ n ih => simpa [List.replicate_succ, isJsonSpace] using ih

theorem skipSpace_cons {c : Char} (h : isJsonSpace c = false) (s : Str) : skipSpace (c :: s) = c :: s := by
  simp [skipSpace, h]

theorem skipSpace_sep (ind : Option Nat) (lvl : Nat) (s : Str) :
    ∃ t, skipSpace (jsonSep ind lvl ++ s) = ',' :: t ∧ skipSpace t = skipSpace s := by
  cases ind with
  | none => exact ⟨' ' :: s, rfl, rfl⟩
  | some k =>
    refine ⟨jsonLine (some k) lvl ++ s, rfl, skipSpace_line (some k) lvl s⟩

/-- What a value starts with. -/
def ValueStart (c : Char) : Prop := isJsonSpace c = false ∧ c ≠ ']' ∧ c ≠ '}'

theorem floatForm_start {s : Str} (h : FloatForm s) : ∃ c r, s = c :: r ∧ (isDigit c = true ∨ c = '-') := by
  obtain ⟨sign, n, f, e, rfl, hs, _⟩ := h
  rcases hs with rfl | rfl
  · obtain ⟨c, t, hc, hd⟩ := natStr_cons n
    exact ⟨c, t ++ f ++ e, by simp [hc], .inl hd⟩
  · exact ⟨'-', natStr n ++ f ++ e, by simp, .inr rfl⟩

theorem intStr_start (n : Int) : ∃ c r, intStr n = c :: r ∧ (isDigit c = true ∨ c = '-') := by
  obtain ⟨sign, m, hs, e⟩ := intStr_sign n
  rcases hs with rfl | rfl
  · obtain ⟨c, t, hc, hd⟩ := natStr_cons m
    exact ⟨c, t, by simp [e, hc], .inl hd⟩
  · exact ⟨'-', natStr m, by simp [e], .inr rfl⟩

theorem numStart_ne {c : Char} (h : isDigit c = true ∨ c = '-') (x : Char) (hx : isDigit x = false ∧ x ≠ '-') : c ≠ x := by
  rintro rfl
  rcases h with h | h
  · rw [hx.1] at h; cases h
  · exact hx.2 h

theorem digit_start {c : Char} (h : isDigit c = true ∨ c = '-') : ValueStart c := by
  refine ⟨?_, numStart_ne h _ (by decide), numStart_ne h _ (by decide)⟩
  simp [isJsonSpace, numStart_ne h ' ' (by decide), numStart_ne h '\t' (by decide), numStart_ne h '\n' (by decide), numStart_ne h '\r' (by decide)]

theorem jsonText_start {fl : Int × Int → Str} {rf : Str → Option (Int × Int)} (ind : Option Nat) (lvl : Nat) (j : J) (h : FloatsBack fl rf j) :
    ∃ c r, jsonText ind fl lvl j = c :: r ∧ ValueStart c := by
  have lit : ∀ c : Char, (decide (isJsonSpace c = false) && decide (c ≠ ']') && decide (c ≠ '}')) = true → ValueStart c := by
    intro c hc
    simp only [Bool.and_eq_true, decide_eq_true_eq] at hc
    exact ⟨hc.1.1, hc.1.2, hc.2⟩
  cases j with
  | null => exact ⟨_, _, rfl, lit _ rfl⟩
  | bool b =>
    cases b
    · exact ⟨_, _, rfl, lit _ rfl⟩
    · exact ⟨_, _, rfl, lit _ rfl⟩
  | num n =>
    obtain ⟨c, r, e, hc⟩ := intStr_start n
    exact ⟨c, r, e, digit_start hc⟩
  | float f =>
    obtain ⟨c, r, e, hc⟩ := floatForm_start h.1
    exact ⟨c, r, e, digit_start hc⟩
  | str s => exact ⟨_, _, rfl, lit _ rfl⟩
  | arr xs => cases xs <;> exact ⟨_, _, rfl, lit _ rfl⟩
  | obj ms =>
    cases ms with
    | nil => exact ⟨_, _, rfl, lit _ rfl⟩
    | cons m ms => exact ⟨_, _, rfl, lit _ rfl⟩

theorem skipSpace_text {fl : Int × Int → Str} {rf : Str → Option (Int × Int)} (ind : Option Nat) (lvl : Nat) (j : J) (h : FloatsBack fl rf j) (s : Str) :
    skipSpace (jsonText ind fl lvl j ++ s) = jsonText ind fl lvl j ++ s ∧
    (jsonText ind fl lvl j ++ s).head? ≠ some ']' := by
  obtain ⟨c, r, e, h1, h2, _⟩ := jsonText_start ind lvl j h
  rw [e, List.cons_append]
  exact ⟨skipSpace_cons h1 _, by simpa using h2⟩

theorem numEnd_line (ind : Option Nat) (lvl : Nat) (c : Char) (s : Str) (hc : isDigit c = false ∧ c ≠ '.' ∧ c ≠ 'e' ∧ c ≠ 'E') :
    NumEnd (jsonLine ind lvl ++ c :: s) := by
  intro x hx
  cases ind with
  | none =>
    simp only [jsonLine, List.nil_append, List.head?_cons, Option.some.injEq] at hx
    subst hx
    exact hc
  | some k =>
    simp only [jsonLine, List.cons_append, List.head?_cons, Option.some.injEq] at hx
    subst hx
    decide

theorem numEnd_sep (ind : Option Nat) (lvl : Nat) (s : Str) : NumEnd (jsonSep ind lvl ++ s) := by
  intro x hx
  cases ind with
  | none =>
    simp only [jsonSep, List.cons_append, List.head?_cons, Option.some.injEq] at hx
    subst hx
    decide
  | some k =>
    simp only [jsonSep, List.cons_append, List.head?_cons, Option.some.injEq] at hx
    subst hx
    decide

theorem numEnd_nil : NumEnd [] := by
  intro c hc
  cases hc

theorem numEnd_elems (ind : Option Nat) (fl : Int × Int → Str) (lvl lvl' : Nat) (xs : List J) (s : Str) :
    NumEnd (jsonElems ind fl lvl xs ++ (jsonLine ind lvl' ++ ']' :: s)) := by
  cases xs with
  | nil => exact numEnd_line ind lvl' ']' s (by decide)
  | cons x xs =>
    simp only [jsonElems, List.append_assoc]
    exact numEnd_sep ind lvl _

theorem numEnd_mems (ind : Option Nat) (fl : Int × Int → Str) (lvl lvl' : Nat) (ms : List (Str × J)) (s : Str) :
    NumEnd (jsonMems ind fl lvl ms ++ (jsonLine ind lvl' ++ '}' :: s)) := by
  cases ms with
  | nil => exact numEnd_line ind lvl' '}' s (by decide)
  | cons m ms =>
    obtain ⟨k, x⟩ := m
    simp only [jsonMems, List.append_assoc]
    exact numEnd_sep ind lvl _

theorem set_fresh (d : List (Str × J)) (k : Str) (x : J) (h : k ∉ d.map Prod.fst) : Dict.set d k x = d ++ [(k, x)] := by
  induction d with
  | nil => rfl
  | cons p d ih =>
    simp only [List.map_cons, List.mem_cons, not_or] at h
    rw [Dict.set, if_neg (fun e => h.1 e.symm), ih h.2, List.cons_append]

theorem orderedDict_of (ms : List (Str × J)) (h : (ms.map Prod.fst).Nodup) : orderedDict ms = ms := by
  have gen : ∀ (ms d : List (Str × J)), ((d ++ ms).map Prod.fst).Nodup → ms.foldl (fun d p => Dict.set d p.1 p.2) d = d ++ ms := by
    intro ms
    induction ms with
    | nil => intro d _; simp
    | cons p ms ih =>
      intro d hd
      have hp : p.1 ∉ d.map Prod.fst := by
        intro hm
        rw [List.map_append, List.nodup_append] at hd
        exact hd.2.2 _ hm _ (by simp) rfl
      rw [List.foldl_cons, set_fresh d p.1 p.2 hp, ih]
      · simp
      · simpa using hd
  have := gen ms [] (by simpa using h)
  exact this

theorem readAtom_number (rf : Str → Option (Int × Int)) {c : Char} (hc : isDigit c = true ∨ c = '-') (s : Str) :
    readAtom rf (c :: s) = readNumber rf (c :: s) := by
  have h1 : c ≠ 'n' := numStart_ne hc _ (by decide)
  have h2 : c ≠ 't' := numStart_ne hc _ (by decide)
  have h3 : c ≠ 'f' := numStart_ne hc _ (by decide)
  have e1 : ('n' == c) = false := by simpa using fun e => h1 e.symm
  have e2 : ('t' == c) = false := by simpa using fun e => h2 e.symm
  have e3 : ('f' == c) = false := by simpa using fun e => h3 e.symm
  simp [readAtom, startsWith, List.isPrefixOf, e1, e2, e3]

theorem readJson_number (rf : Str → Option (Int × Int)) {c : Char} (hc : isDigit c = true ∨ c = '-') (n : Nat) (s : Str) :
    readJson rf (n + 1) (c :: s) = readNumber rf (c :: s) := by
  rw [readJson, if_neg (numStart_ne hc _ (by decide)), if_neg (numStart_ne hc _ (by decide)), if_neg (numStart_ne hc _ (by decide)), readAtom_number rf hc]

/-- What is written is read back. -/
theorem readJson_text (ind : Option Nat) {fl : Int × Int → Str} {rf : Str → Option (Int × Int)} (n : Nat) :
    (∀ j lvl rest, weight j ≤ n → MembersApart j → FloatsBack fl rf j → NumEnd rest → readJson rf n (jsonText ind fl lvl j ++ rest) = some (j, rest)) ∧
    (∀ x xs lvl lvl' rest, weights (x :: xs) ≤ n → MembersApartAll (x :: xs) → FloatsBackAll fl rf (x :: xs) →
      readElems rf n (jsonText ind fl lvl x ++ (jsonElems ind fl lvl xs ++ (jsonLine ind lvl' ++ ']' :: rest))) = some (x :: xs, rest)) ∧
    (∀ k x ms lvl lvl' rest, weightMems ((k, x) :: ms) ≤ n → MembersApartMems ((k, x) :: ms) → FloatsBackMems fl rf ((k, x) :: ms) →
      readMems rf n (jsonStr k ++ (':' :: ' ' :: (jsonText ind fl lvl x ++ (jsonMems ind fl lvl ms ++ (jsonLine ind lvl' ++ '}' :: rest))))) =
        some ((k, x) :: ms, rest)) := by
  induction n with
  | zero =>
    refine ⟨?_, ?_, ?_⟩
    · intro j _ _ h
      cases j <;> simp [weight] at h
    · intro x xs _ _ _ h
      simp [weights] at h
    · intro k x ms _ _ _ h
      simp [weightMems] at h
  | succ n ih =>
    obtain ⟨ih1, ih2, ih3⟩ := ih
    refine ⟨?_, ?_, ?_⟩
    · intro j lvl rest hw hk hf hr
      cases j with
      | null => rfl
      | bool b => cases b <;> rfl
      | num m =>
        obtain ⟨c, r, e, hc⟩ := intStr_start m
        have := readNumber_int rf m rest hr
        rw [jsonText]
        rw [e, List.cons_append] at this ⊢
        rw [readJson_number rf hc, this]
      | float x =>
        obtain ⟨c, r, e, hc⟩ := floatForm_start hf.1
        have := readNumber_float hf rest hr
        rw [jsonText]
        rw [e, List.cons_append] at this ⊢
        rw [readJson_number rf hc, this]
      | str s =>
        simp only [jsonText, jsonStr, List.cons_append, List.append_assoc, List.nil_append, readJson, if_true]
        rw [readStr_jsonStr s rest]
        rfl
      | arr xs =>
        cases xs with
        | nil => simp [jsonText, readJson, skipSpace, isJsonSpace]
        | cons x xs =>
          obtain ⟨hs1, hs2⟩ := skipSpace_text ind (lvl + 1) x hf.1 (jsonElems ind fl (lvl + 1) xs ++ (jsonLine ind lvl ++ ']' :: rest))
          simp only [jsonText, List.cons_append, List.append_assoc, List.nil_append, readJson, if_true]
          rw [if_neg (by decide), skipSpace_line, hs1, if_neg hs2,
            ih2 x xs (lvl + 1) lvl rest (by simp only [weight] at hw; omega) hk hf]
          rfl
      | obj ms =>
        cases ms with
        | nil => simp [jsonText, readJson, skipSpace, isJsonSpace]
        | cons m ms =>
          obtain ⟨k, x⟩ := m
          have hd : (((k, x) :: ms).map Prod.fst).Nodup := hk.1
          have := ih3 k x ms (lvl + 1) lvl rest (by simp only [weight] at hw; omega) hk.2 hf
          simp only [jsonText, List.cons_append, List.append_assoc, List.nil_append, readJson, if_true]
          have hs : ∀ s, skipSpace (jsonStr k ++ s) = jsonStr k ++ s ∧ (jsonStr k ++ s).head? ≠ some '}' := fun s =>
            ⟨skipSpace_cons (by decide) _, by simp [jsonStr]⟩
          rw [if_neg (by decide), if_neg (by decide), skipSpace_line, (hs _).1, if_neg (hs _).2, this]
          simp only [Option.map_some, orderedDict_of _ hd]
    · intro x xs lvl lvl' rest hw hk hf
      rw [readElems, ih1 x lvl _ (by simp only [weights] at hw; omega) hk.1 hf.1 (numEnd_elems ind fl lvl lvl' xs rest)]
      simp only
      cases xs with
      | nil =>
        have e : skipSpace (jsonElems ind fl lvl [] ++ (jsonLine ind lvl' ++ ']' :: rest)) = ']' :: rest := by
          rw [jsonElems, List.nil_append, skipSpace_line, skipSpace_cons (by decide)]
        rw [e]
        simp
      | cons y ys =>
        obtain ⟨t, h1, h2⟩ := skipSpace_sep ind lvl (jsonText ind fl lvl y ++ (jsonElems ind fl lvl ys ++ (jsonLine ind lvl' ++ ']' :: rest)))
        have hy : FloatsBack fl rf y := hf.2.1
        rw [(skipSpace_text ind lvl y hy _).1] at h2
        have e : skipSpace (jsonElems ind fl lvl (y :: ys) ++ (jsonLine ind lvl' ++ ']' :: rest)) = ',' :: t := by
          rw [← h1, jsonElems]
          simp only [List.append_assoc]
        rw [e]
        simp only [List.head?_cons, if_true, List.tail_cons]
        rw [h2, ih2 y ys lvl lvl' rest (by simp only [weights] at hw ⊢; omega) hk.2 hf.2]
        rfl
    · intro k x ms lvl lvl' rest hw hk hf
      simp only [readMems, jsonStr, List.cons_append, List.append_assoc, List.nil_append, List.head?_cons, if_true, List.tail_cons]
      rw [readStr_jsonStr]
      simp only
      rw [skipSpace_cons (by decide)]
      simp only [List.head?_cons, if_true, List.tail_cons]
      have e : skipSpace (' ' :: (jsonText ind fl lvl x ++ (jsonMems ind fl lvl ms ++ (jsonLine ind lvl' ++ '}' :: rest)))) =
          jsonText ind fl lvl x ++ (jsonMems ind fl lvl ms ++ (jsonLine ind lvl' ++ '}' :: rest)) :=
        (skipSpace_text ind lvl x hf.1 _).1
      rw [e, ih1 x lvl _ (by simp only [weightMems] at hw; omega) hk.1 hf.1 (numEnd_mems ind fl lvl lvl' ms rest)]
      simp only
      cases ms with
      | nil =>
        have e : skipSpace (jsonMems ind fl lvl [] ++ (jsonLine ind lvl' ++ '}' :: rest)) = '}' :: rest := by
          rw [jsonMems, List.nil_append, skipSpace_line, skipSpace_cons (by decide)]
        rw [e]
        simp
      | cons m ms =>
        obtain ⟨k', y⟩ := m
        obtain ⟨t, h1, h2⟩ := skipSpace_sep ind lvl
          (jsonStr k' ++ (':' :: ' ' :: (jsonText ind fl lvl y ++ (jsonMems ind fl lvl ms ++ (jsonLine ind lvl' ++ '}' :: rest)))))
        have h3 : ∀ s, skipSpace (jsonStr k' ++ s) = jsonStr k' ++ s := fun s => skipSpace_cons (by decide) _
        rw [h3] at h2
        have e : skipSpace (jsonMems ind fl lvl ((k', y) :: ms) ++ (jsonLine ind lvl' ++ '}' :: rest)) = ',' :: t := by
          rw [← h1, jsonMems]
          simp only [List.append_assoc, List.cons_append]
        rw [e]
        simp only [List.head?_cons, if_true, List.tail_cons]
        rw [h2, ih3 k' y ms lvl lvl' rest (by simp only [weightMems] at hw ⊢; omega) hk.2 hf.2]
        rfl


theorem jsonSep_length (ind : Option Nat) (lvl : Nat) : 1 ≤ (jsonSep ind lvl).length := by
  cases ind <;> simp [jsonSep]

mutual
theorem weight_le {fl : Int × Int → Str} {rf : Str → Option (Int × Int)} (ind : Option Nat) (lvl : Nat) :
    ∀ j, FloatsBack fl rf j → weight j ≤ (jsonText ind fl lvl j).length
  | .null, _ => by simp [weight, jsonText]
  | .bool b, _ => by cases b <;> simp [weight, jsonText]
  | .num n, _ => by
    obtain ⟨c, r, e, _⟩ := intStr_start n
    simp [weight, jsonText, e]
  | .float f, h => by
    obtain ⟨c, r, e, _⟩ := floatForm_start h.1
    simp [weight, jsonText, e]
  | .str s, _ => by simp [weight, jsonText, jsonStr]
  | .arr [], _ => by simp [weight, weights, jsonText]
  | .arr (x :: xs), h => by
    have h1 := weight_le ind (lvl + 1) x h.1
    have h2 := weights_le ind (lvl + 1) xs h.2
    simp only [weight, weights, jsonText, List.length_cons, List.length_append, List.length_nil]
    omega
  | .obj [], _ => by simp [weight, weightMems, jsonText]
  | .obj ((k, x) :: ms), h => by
    have h1 := weight_le ind (lvl + 1) x h.1
    have h2 := weightMems_le ind (lvl + 1) ms h.2
    simp only [weight, weightMems, jsonText, List.length_cons, List.length_append, List.length_nil]
    omega

theorem weights_le {fl : Int × Int → Str} {rf : Str → Option (Int × Int)} (ind : Option Nat) (lvl : Nat) :
    ∀ xs, FloatsBackAll fl rf xs → weights xs ≤ (jsonElems ind fl lvl xs).length
  | [], _ => by simp [weights]
  | x :: xs, h => by
    have h1 := weight_le ind lvl x h.1
    have h2 := weights_le ind lvl xs h.2
    have h3 := jsonSep_length ind lvl
    simp only [weights, jsonElems, List.length_append]
    omega

theorem weightMems_le {fl : Int × Int → Str} {rf : Str → Option (Int × Int)} (ind : Option Nat) (lvl : Nat) :
    ∀ ms, FloatsBackMems fl rf ms → weightMems ms ≤ (jsonMems ind fl lvl ms).length
  | [], _ => by simp [weightMems]
  | (k, x) :: ms, h => by
    have h1 := weight_le ind lvl x h.1
    have h2 := weightMems_le ind lvl ms h.2
    have h3 := jsonSep_length ind lvl
    simp only [weightMems, jsonMems, List.length_append, List.length_cons]
    omega
end

/-- What `json.dumps` writes, `json.loads` reads. -/
theorem jsonParse_text (ind : Option Nat) {fl : Int × Int → Str} {rf : Str → Option (Int × Int)} (j : J) (hk : MembersApart j) (hf : FloatsBack fl rf j) :
    jsonParse rf (jsonText ind fl 0 j) = .ok j := by
  have h1 := weight_le ind 0 j hf
  have h2 := (readJson_text ind (rf := rf) ((jsonText ind fl 0 j).length + 1)).1 j 0 [] (by omega) hk hf numEnd_nil
  have h3 := (skipSpace_text ind 0 j hf []).1
  rw [List.append_nil] at h2 h3
  rw [jsonParse, h3, h2]
  rfl

/-! ## A longer text is read the same way -/

theorem readHex_ext {s r : Str} {n : Nat} (h : readHex s = some (n, r)) (t : Str) : readHex (s ++ t) = some (n, r ++ t) := by
  match s, h with
  | a :: b :: c :: d :: q, h =>
    simp only [readHex, List.cons_append] at h ⊢
    split at h
    · simp only [Option.some.injEq, Prod.mk.injEq] at h
      obtain ⟨rfl, rfl⟩ := h
      rfl
    · cases h

theorem readLow_ext {hi : Nat} {s r : Str} {c : Char} (h : readLow hi s = some (c, r)) (t : Str) : readLow hi (s ++ t) = some (c, r ++ t) := by
  rw [readLow.eq_def] at h
  split at h
  · rename_i q
    rw [List.cons_append, List.cons_append, readLow]
    cases hq : readHex q with
    | none => simp [hq] at h
    | some p =>
      obtain ⟨n, q'⟩ := p
      rw [readHex_ext hq]
      simp only [hq] at h ⊢
      split at h
      · rename_i hc
        rw [if_pos hc]
        simp only [Option.some.injEq, Prod.mk.injEq] at h
        obtain ⟨rfl, rfl⟩ := h
        rfl
      · cases h
  · cases h

theorem readUni_ext {s r : Str} {c : Char} (h : readUni s = some (c, r)) (t : Str) : readUni (s ++ t) = some (c, r ++ t) := by
  rw [readUni] at h ⊢
  cases hq : readHex s with
  | none => simp [hq] at h
  | some p =>
    obtain ⟨n, q⟩ := p
    rw [readHex_ext hq]
    simp only [hq] at h ⊢
    split at h
    · rename_i hc
      rw [if_pos hc]
      exact readLow_ext h t
    · rename_i hc
      rw [if_neg hc]
      split at h
      · cases h
      · rename_i hc
        rw [if_neg hc]
        simp only [Option.some.injEq, Prod.mk.injEq] at h
        obtain ⟨rfl, rfl⟩ := h
        rfl

theorem readEsc_ext {s r : Str} {c : Char} (h : readEsc s = some (c, r)) (t : Str) : readEsc (s ++ t) = some (c, r ++ t) := by
  cases s with
  | nil => cases h
  | cons x s =>
    rw [List.cons_append]
    rw [readEsc] at h ⊢
    split at h
    · rename_i hc
      rw [if_pos hc]
      exact readUni_ext h t
    · rename_i hc
      rw [if_neg hc]
      cases hl : shortUnescapes.lookup x with
      | none => simp [hl] at h
      | some y =>
        simp only [hl, Option.map_some, Option.some.injEq, Prod.mk.injEq] at h ⊢
        obtain ⟨rfl, rfl⟩ := h
        exact ⟨rfl, rfl⟩

theorem readStr_ext (n : Nat) : ∀ (m : Nat) (s r x : Str), readStr n s = some (x, r) → n ≤ m → ∀ t, readStr m (s ++ t) = some (x, r ++ t) := by
  induction n with
  | zero => intro m s r x h; cases h
  | succ n ih =>
    intro m s r x h hm t
    obtain ⟨m, rfl⟩ : ∃ k, m = k + 1 := ⟨m - 1, by omega⟩
    cases s with
    | nil => cases h
    | cons c s =>
      rw [List.cons_append]
      rw [readStr] at h ⊢
      by_cases h1 : c = '"'
      · rw [if_pos h1] at h ⊢
        simp only [Option.some.injEq, Prod.mk.injEq] at h
        obtain ⟨rfl, rfl⟩ := h
        rfl
      · rw [if_neg h1] at h ⊢
        by_cases h2 : c = '\\'
        · rw [if_pos h2] at h ⊢
          cases he : readEsc s with
          | none => simp [he] at h
          | some p =>
            obtain ⟨y, q⟩ := p
            rw [readEsc_ext he]
            simp only [he] at h ⊢
            cases hr : readStr n q with
            | none => simp [hr] at h
            | some p =>
              obtain ⟨z, q'⟩ := p
              rw [ih m q q' z hr (by omega) t]
              simp only [hr, Option.map_some, Option.some.injEq, Prod.mk.injEq] at h ⊢
              obtain ⟨rfl, rfl⟩ := h
              exact ⟨rfl, rfl⟩
        · rw [if_neg h2] at h ⊢
          by_cases h3 : c.toNat < 32
          · rw [if_pos h3] at h
            cases h
          · rw [if_neg h3] at h ⊢
            cases hr : readStr n s with
            | none => simp [hr] at h
            | some p =>
              obtain ⟨z, q'⟩ := p
              rw [ih m s q' z hr (by omega) t]
              simp only [hr, Option.map_some, Option.some.injEq, Prod.mk.injEq] at h ⊢
              obtain ⟨rfl, rfl⟩ := h
              exact ⟨rfl, rfl⟩

theorem head_append {r t : Str} (h : r ≠ []) : (r ++ t).head? = r.head? := by
  cases r with
  | nil => exact absurd rfl h
  | cons c r => rfl

theorem tail_append_of {r t : Str} (h : r ≠ []) : (r ++ t).tail = r.tail ++ t := by
  cases r with
  | nil => exact absurd rfl h
  | cons c r => rfl

theorem span_ext (p : Char → Bool) (s t : Str) (h : s.dropWhile p ≠ []) :
    (s ++ t).takeWhile p = s.takeWhile p ∧ (s ++ t).dropWhile p = s.dropWhile p ++ t := by
  induction s with
  | nil => exact absurd rfl h
  | cons c s ih =>
    cases hc : p c with
    | true =>
      simp only [List.dropWhile_cons, hc, if_true] at h
      simpa [hc] using ih h
    | false => simp [hc]

theorem skipSpace_ext {s t : Str} (h : skipSpace s ≠ []) : skipSpace (s ++ t) = skipSpace s ++ t := (span_ext _ _ _ h).2

theorem readDigits_ext {s d r : Str} (h : readDigits s = some (d, r)) (hr : r ≠ []) (t : Str) : readDigits (s ++ t) = some (d, r ++ t) := by
  rw [readDigits] at h ⊢
  split at h
  · cases h
  · rename_i hd
    simp only [Option.some.injEq, Prod.mk.injEq] at h
    obtain ⟨rfl, rfl⟩ := h
    obtain ⟨h1, h2⟩ := span_ext isDigit s t hr
    rw [h1, h2, if_neg hd]

theorem readWhole_ext {s d r : Str} (h : readWhole s = some (d, r)) (hr : r ≠ []) (t : Str) : readWhole (s ++ t) = some (d, r ++ t) := by
  have hs : s ≠ [] := by
    rintro rfl
    simp [readWhole, readDigits] at h
  rw [readWhole] at h ⊢
  rw [head_append hs, tail_append_of hs]
  split at h
  · rename_i h0
    rw [if_pos h0]
    simp only [Option.some.injEq, Prod.mk.injEq] at h
    obtain ⟨rfl, rfl⟩ := h
    rfl
  · rename_i h0
    rw [if_neg h0]
    exact readDigits_ext h hr t

theorem readInteger_ext {s d r : Str} (h : readInteger s = some (d, r)) (hr : r ≠ []) (t : Str) : readInteger (s ++ t) = some (d, r ++ t) := by
  have hs : s ≠ [] := by
    rintro rfl
    simp [readInteger, readWhole, readDigits] at h
  rw [readInteger] at h ⊢
  rw [head_append hs, tail_append_of hs]
  split at h
  · rename_i h0
    rw [if_pos h0]
    cases hw : readWhole s.tail with
    | none => simp [hw] at h
    | some p =>
      obtain ⟨x, q⟩ := p
      simp only [hw, Option.map_some, Option.some.injEq, Prod.mk.injEq] at h
      obtain ⟨rfl, rfl⟩ := h
      rw [readWhole_ext hw hr t]
      rfl
  · rename_i h0
    rw [if_neg h0]
    exact readWhole_ext h hr t

theorem readFrac_cases (s : Str) : readFrac s = ([], s) ∨
    (s.head? = some '.' ∧ ∃ d r, readDigits s.tail = some (d, r) ∧ readFrac s = ('.' :: d, r)) := by
  by_cases h : s.head? = some '.'
  · cases hd : readDigits s.tail with
    | none =>
      left
      simp [readFrac, h, hd]
    | some p =>
      obtain ⟨d, r⟩ := p
      right
      exact ⟨h, d, r, rfl, by simp [readFrac, h, hd]⟩
  · exact .inl (readFrac_end h)

theorem readSign_ext {s : Str} (h : (readSign s).2 ≠ []) (t : Str) : readSign (s ++ t) = ((readSign s).1, (readSign s).2 ++ t) := by
  have hs : s ≠ [] := by
    rintro rfl
    simp [readSign] at h
  rw [readSign, head_append hs, tail_append_of hs]
  cases s with
  | nil => exact absurd rfl hs
  | cons c s =>
    by_cases hc : (c :: s).head? = some '-' ∨ (c :: s).head? = some '+'
    · rw [if_pos hc, readSign, if_pos hc]
      simp
    · rw [if_neg hc, readSign, if_neg hc]

theorem readExp_cases (s : Str) : readExp s = ([], s) ∨
    ((s.head? = some 'e' ∨ s.head? = some 'E') ∧ ∃ d r, readDigits (readSign s.tail).2 = some (d, r) ∧
      readExp s = (s.take 1 ++ (readSign s.tail).1 ++ d, r)) := by
  by_cases h : s.head? = some 'e' ∨ s.head? = some 'E'
  · cases hd : readDigits (readSign s.tail).2 with
    | none =>
      left
      rw [readExp, if_pos h, hd]
    | some p =>
      obtain ⟨d, r⟩ := p
      right
      exact ⟨h, d, r, rfl, by rw [readExp, if_pos h, hd]⟩
  · left
    rw [readExp, if_neg h]

theorem head_ne_nil {s : Str} {c : Char} (h : s.head? = some c) : s ≠ [] := by
  rintro rfl
  cases h

theorem numEnd_append {r t : Str} (h : NumEnd r) (hr : r ≠ []) : NumEnd (r ++ t) := by
  intro c hc
  rw [head_append hr] at hc
  exact h c hc

theorem readFrac_ext {s : Str} (h : (readFrac s).2 ≠ []) (h2 : (readFrac s).1 = [] → s.head? ≠ some '.') (t : Str) :
    readFrac (s ++ t) = ((readFrac s).1, (readFrac s).2 ++ t) := by
  rcases readFrac_cases s with e | ⟨h0, d, r, hd, e⟩
  · rw [e] at h h2 ⊢
    have := h2 rfl
    rw [← head_append (t := t) h] at this
    exact readFrac_end this
  · rw [e] at h ⊢
    have hs := head_ne_nil h0
    have := readDigits_ext hd h t
    rw [readFrac, head_append hs, if_pos h0, tail_append_of hs, this]

theorem readExp_ext {s : Str} (h : (readExp s).2 ≠ []) (h2 : (readExp s).1 = [] → s.head? ≠ some 'e' ∧ s.head? ≠ some 'E') (t : Str) :
    readExp (s ++ t) = ((readExp s).1, (readExp s).2 ++ t) := by
  rcases readExp_cases s with e | ⟨h0, d, r, hd, e⟩
  · rw [e] at h h2 ⊢
    have := h2 rfl
    rw [← head_append (t := t) h] at this
    exact readExp_end this
  · rw [e] at h ⊢
    have hs : s ≠ [] := by rcases h0 with h0 | h0 <;> exact head_ne_nil h0
    have hg : (readSign s.tail).2 ≠ [] := by
      intro hg
      rw [hg] at hd
      simp [readDigits] at hd
    have := readDigits_ext hd h t
    rw [readExp, head_append hs, if_pos h0, tail_append_of hs, readSign_ext hg t]
    simp only
    rw [this]
    cases s with
    | nil => exact absurd rfl hs
    | cons c s => simp

theorem readNumber_ext {rf : Str → Option (Int × Int)} {s r : Str} {j : J} (h : readNumber rf s = some (j, r)) (hr : r ≠ []) (he : NumEnd r) (t : Str) :
    readNumber rf (s ++ t) = some (j, r ++ t) := by
  rw [readNumber] at h ⊢
  cases hi : readInteger s with
  | none => simp [hi] at h
  | some p =>
    obtain ⟨i, q⟩ := p
    simp only [hi] at h
    by_cases hfe : (readFrac q).1 = [] ∧ (readExp (readFrac q).2).1 = []
    · rw [if_pos hfe] at h
      cases hn : intOfStr i with
      | error e => simp [hn] at h
      | ok n =>
        simp only [hn, Option.some.injEq, Prod.mk.injEq] at h
        obtain ⟨rfl, rfl⟩ := h
        have he' := numEnd_append (t := t) he hr
        rw [readInteger_ext hi hr t]
        simp only [readFrac_end he'.dot, readExp_end he'.exp, and_self, if_true, hn]
    · rw [if_neg hfe] at h
      cases hx : rf (i ++ (readFrac q).1 ++ (readExp (readFrac q).2).1) with
      | none =>
        rw [hx] at h
        cases h
      | some x =>
        simp only [hx, Option.map_some, Option.some.injEq, Prod.mk.injEq] at h
        obtain ⟨rfl, rfl⟩ := h
        have hE : readExp ((readFrac q).2 ++ t) = ((readExp (readFrac q).2).1, (readExp (readFrac q).2).2 ++ t) := by
          refine readExp_ext hr ?_ t
          intro h0
          rcases readExp_cases (readFrac q).2 with e | ⟨h1, d, r, hd, e⟩
          · rw [e] at he
            exact he.exp
          · rw [e] at h0
            rcases h1 with h1 | h1
            · cases hq : (readFrac q).2 <;> simp [hq] at h0 h1
            · cases hq : (readFrac q).2 <;> simp [hq] at h0 h1
        have hr2 : (readFrac q).2 ≠ [] := by
          rcases readExp_cases (readFrac q).2 with e | ⟨h1, _⟩
          · rw [e] at hr
            exact hr
          · rcases h1 with h1 | h1 <;> exact head_ne_nil h1
        have hF : readFrac (q ++ t) = ((readFrac q).1, (readFrac q).2 ++ t) := by
          refine readFrac_ext hr2 ?_ t
          intro h0
          rcases readFrac_cases q with e | ⟨_, d, r, _, e⟩
          · rw [e] at hfe
            rcases readExp_cases q with e2 | ⟨h1, _⟩
            · simp [e2] at hfe
            · rcases h1 with h1 | h1 <;> simp [h1]
          · rw [e] at h0
            cases h0
        have hq : q ≠ [] := by
          rintro rfl
          simp [readFrac] at hr2
        rw [readInteger_ext hi hq t]
        simp only [hF, hE, if_neg hfe, hx, Option.map_some]

theorem startsWith_ext {s w : Str} (h : startsWith s w = true) (t : Str) : startsWith (s ++ t) w = true ∧ (s ++ t).drop w.length = s.drop w.length ++ t := by
  simp only [startsWith, List.isPrefixOf_iff_prefix] at h ⊢
  obtain ⟨q, rfl⟩ := h
  exact ⟨⟨q ++ t, by simp⟩, by simp⟩

theorem readDigits_head {s d r : Str} (h : readDigits s = some (d, r)) : ∃ c q, s = c :: q ∧ isDigit c = true := by
  cases s with
  | nil => simp [readDigits] at h
  | cons c q =>
    refine ⟨c, q, rfl, ?_⟩
    cases hc : isDigit c with
    | true => rfl
    | false => simp [readDigits, hc] at h

theorem readWhole_head {s d r : Str} (h : readWhole s = some (d, r)) : ∃ c q, s = c :: q ∧ isDigit c = true := by
  rw [readWhole] at h
  split at h
  · rename_i h0
    cases s with
    | nil => cases h0
    | cons c q =>
      simp only [List.head?_cons, Option.some.injEq] at h0
      subst h0
      exact ⟨_, _, rfl, by decide⟩
  · exact readDigits_head h

theorem readNumber_head {rf : Str → Option (Int × Int)} {s r : Str} {j : J} (h : readNumber rf s = some (j, r)) :
    ∃ c q, s = c :: q ∧ (isDigit c = true ∨ c = '-') := by
  rw [readNumber] at h
  cases hi : readInteger s with
  | none => simp [hi] at h
  | some p =>
    obtain ⟨i, q⟩ := p
    rw [readInteger] at hi
    split at hi
    · rename_i h0
      cases s with
      | nil => cases h0
      | cons c q =>
        simp only [List.head?_cons, Option.some.injEq] at h0
        exact ⟨_, _, rfl, .inr h0⟩
    · obtain ⟨c, q, e, hc⟩ := readWhole_head hi
      exact ⟨c, q, e, .inl hc⟩

theorem readAtom_ext {rf : Str → Option (Int × Int)} {s r : Str} {j : J} (h : readAtom rf s = some (j, r)) (hr : r ≠ []) (he : NumEnd r) (t : Str) :
    readAtom rf (s ++ t) = some (j, r ++ t) := by
  have lit : ∀ (w : Str) (c : Char) (q : Str), w = c :: q → startsWith s w = true → ∃ u, s = c :: u := by
    intro w c q e hw
    simp only [startsWith, List.isPrefixOf_iff_prefix, e] at hw
    obtain ⟨u, rfl⟩ := hw
    exact ⟨_, rfl⟩
  rw [readAtom] at h
  split at h
  · rename_i h1
    obtain ⟨h2, h3⟩ := startsWith_ext h1 t
    simp only [Option.some.injEq, Prod.mk.injEq] at h
    obtain ⟨rfl, rfl⟩ := h
    rw [readAtom, if_pos h2]
    exact congrArg (fun x => some (J.null, x)) h3
  · split at h
    · rename_i h1
      obtain ⟨h2, h3⟩ := startsWith_ext h1 t
      simp only [Option.some.injEq, Prod.mk.injEq] at h
      obtain ⟨rfl, rfl⟩ := h
      obtain ⟨u, rfl⟩ := lit _ _ _ rfl h1
      rw [readAtom, if_neg (by simp [startsWith, List.isPrefixOf]), if_pos h2]
      exact congrArg (fun x => some (J.bool true, x)) h3
    · split at h
      · rename_i h1
        obtain ⟨h2, h3⟩ := startsWith_ext h1 t
        simp only [Option.some.injEq, Prod.mk.injEq] at h
        obtain ⟨rfl, rfl⟩ := h
        obtain ⟨u, rfl⟩ := lit _ _ _ rfl h1
        rw [readAtom, if_neg (by simp [startsWith, List.isPrefixOf]), if_neg (by simp [startsWith, List.isPrefixOf]), if_pos h2]
        exact congrArg (fun x => some (J.bool false, x)) h3
      · obtain ⟨c, q, rfl, hc⟩ := readNumber_head h
        have := readNumber_ext h hr he t
        rw [List.cons_append] at this ⊢
        rw [readAtom_number rf hc, this]

/-- The next thing is a character that ends a number. -/
theorem numEnd_next {r : Str} {c : Char} (h : (skipSpace r).head? = some c) (hc : c = ',' ∨ c = ']' ∨ c = '}') : r ≠ [] ∧ NumEnd r := by
  cases r with
  | nil => simp [skipSpace] at h
  | cons x r =>
    refine ⟨by simp, ?_⟩
    intro y hy
    simp only [List.head?_cons, Option.some.injEq] at hy
    subst hy
    cases hx : isJsonSpace x with
    | true =>
      simp only [isJsonSpace, Bool.or_eq_true, decide_eq_true_eq] at hx
      rcases hx with ((rfl | rfl) | rfl) | rfl <;> decide
    | false =>
      rw [skipSpace_cons hx] at h
      simp only [List.head?_cons, Option.some.injEq] at h
      subst h
      rcases hc with rfl | rfl | rfl <;> decide

theorem skip_head_ext {r : Str} {c : Char} (h : (skipSpace r).head? = some c) (t : Str) :
    (skipSpace (r ++ t)).head? = some c ∧ (skipSpace (r ++ t)).tail = (skipSpace r).tail ++ t := by
  have h0 := head_ne_nil h
  rw [skipSpace_ext h0]
  exact ⟨by rw [head_append h0, h], tail_append_of h0⟩

/-- What was read stays read when there is more. -/
theorem readJson_ext {rf : Str → Option (Int × Int)} (n : Nat) :
    (∀ m s r j, readJson rf n s = some (j, r) → n ≤ m → ((r ≠ [] ∧ NumEnd r) ∨ s.head? = some '{' ∨ s.head? = some '[') →
      ∀ t, readJson rf m (s ++ t) = some (j, r ++ t)) ∧
    (∀ m s r xs, readElems rf n s = some (xs, r) → n ≤ m → ∀ t, readElems rf m (s ++ t) = some (xs, r ++ t)) ∧
    (∀ m s r ms, readMems rf n s = some (ms, r) → n ≤ m → ∀ t, readMems rf m (s ++ t) = some (ms, r ++ t)) := by
  induction n with
  | zero =>
    refine ⟨?_, ?_, ?_⟩
    · intro m s r j h; simp [readJson] at h
    · intro m s r xs h; simp [readElems] at h
    · intro m s r ms h; simp [readMems] at h
  | succ n ih =>
    obtain ⟨ih1, ih2, ih3⟩ := ih
    refine ⟨?_, ?_, ?_⟩
    · intro m s r j h hm hc t
      obtain ⟨m, rfl⟩ : ∃ k, m = k + 1 := ⟨m - 1, by omega⟩
      cases s with
      | nil => simp [readJson] at h
      | cons c s =>
        rw [List.cons_append]
        rw [readJson] at h ⊢
        by_cases h1 : c = '"'
        · rw [if_pos h1] at h ⊢
          cases hs : readStr (s.length + 1) s with
          | none => simp [hs] at h
          | some p =>
            obtain ⟨x, q⟩ := p
            simp only [hs, Option.map_some, Option.some.injEq, Prod.mk.injEq] at h
            obtain ⟨rfl, rfl⟩ := h
            rw [readStr_ext _ _ _ _ _ hs (by simp) t]
            rfl
        · rw [if_neg h1] at h ⊢
          by_cases h2 : c = '['
          · rw [if_pos h2] at h ⊢
            by_cases h3 : (skipSpace s).head? = some ']'
            · obtain ⟨h4, h5⟩ := skip_head_ext h3 t
              rw [if_pos h3] at h
              rw [if_pos h4, h5]
              simp only [Option.some.injEq, Prod.mk.injEq] at h
              obtain ⟨rfl, rfl⟩ := h
              rfl
            · rw [if_neg h3] at h
              cases he : readElems rf n (skipSpace s) with
              | none => simp [he] at h
              | some p =>
                obtain ⟨xs, q⟩ := p
                have h0 : skipSpace s ≠ [] := by
                  intro e
                  rw [e] at he
                  cases n <;> simp [readElems, readJson] at he
                  rename_i k
                  cases k <;> simp [readJson] at he
                simp only [he, Option.map_some, Option.some.injEq, Prod.mk.injEq] at h
                obtain ⟨rfl, rfl⟩ := h
                rw [skipSpace_ext h0, head_append h0, if_neg h3, ih2 m _ _ _ he (by omega) t]
                rfl
          · rw [if_neg h2] at h ⊢
            by_cases h2' : c = '{'
            · rw [if_pos h2'] at h ⊢
              by_cases h3 : (skipSpace s).head? = some '}'
              · obtain ⟨h4, h5⟩ := skip_head_ext h3 t
                rw [if_pos h3] at h
                rw [if_pos h4, h5]
                simp only [Option.some.injEq, Prod.mk.injEq] at h
                obtain ⟨rfl, rfl⟩ := h
                rfl
              · rw [if_neg h3] at h
                cases he : readMems rf n (skipSpace s) with
                | none => simp [he] at h
                | some p =>
                  obtain ⟨ms, q⟩ := p
                  have h0 : skipSpace s ≠ [] := by
                    intro e
                    rw [e] at he
                    cases n <;> simp [readMems] at he
                  simp only [he, Option.map_some, Option.some.injEq, Prod.mk.injEq] at h
                  obtain ⟨rfl, rfl⟩ := h
                  rw [skipSpace_ext h0, head_append h0, if_neg h3, ih3 m _ _ _ he (by omega) t]
                  rfl
            · rw [if_neg h2'] at h ⊢
              rcases hc with hc | hc | hc
              · exact readAtom_ext h hc.1 hc.2 t
              · simp only [List.head?_cons, Option.some.injEq] at hc
                exact absurd hc h2'
              · simp only [List.head?_cons, Option.some.injEq] at hc
                exact absurd hc h2
    · intro m s r xs h hm t
      obtain ⟨m, rfl⟩ : ∃ k, m = k + 1 := ⟨m - 1, by omega⟩
      rw [readElems] at h ⊢
      cases hv : readJson rf n s with
      | none => simp [hv] at h
      | some p =>
        obtain ⟨x, q⟩ := p
        simp only [hv] at h
        by_cases h1 : (skipSpace q).head? = some ','
        · rw [if_pos h1] at h
          obtain ⟨h4, h5⟩ := skip_head_ext h1 t
          rw [ih1 m _ _ _ hv (by omega) (.inl (numEnd_next h1 (.inl rfl))) t]
          simp only
          rw [if_pos h4, h5]
          cases he : readElems rf n (skipSpace (skipSpace q).tail) with
          | none => simp [he] at h
          | some p =>
            obtain ⟨ys, q'⟩ := p
            have h0 : skipSpace (skipSpace q).tail ≠ [] := by
              intro e
              rw [e] at he
              cases n <;> simp [readElems] at he
              rename_i k
              cases k <;> simp [readJson] at he
            simp only [he, Option.map_some, Option.some.injEq, Prod.mk.injEq] at h
            obtain ⟨rfl, rfl⟩ := h
            rw [skipSpace_ext h0, ih2 m _ _ _ he (by omega) t]
            rfl
        · rw [if_neg h1] at h
          by_cases h2 : (skipSpace q).head? = some ']'
          · rw [if_pos h2] at h
            obtain ⟨h4, h5⟩ := skip_head_ext h2 t
            rw [ih1 m _ _ _ hv (by omega) (.inl (numEnd_next h2 (.inr (.inl rfl)))) t]
            simp only
            rw [if_neg (by rw [h4]; simp), if_pos h4, h5]
            simp only [Option.some.injEq, Prod.mk.injEq] at h
            obtain ⟨rfl, rfl⟩ := h
            rfl
          · rw [if_neg h2] at h
            cases h
    · intro m s r ms h hm t
      obtain ⟨m, rfl⟩ : ∃ k, m = k + 1 := ⟨m - 1, by omega⟩
      rw [readMems] at h ⊢
      by_cases hq : s.head? = some '"'
      · have hs := head_ne_nil hq
        rw [head_append hs, if_pos hq, tail_append_of hs]
        rw [if_pos hq] at h
        cases hk : readStr (s.tail.length + 1) s.tail with
        | none =>
          rw [hk] at h
          cases h
        | some p =>
          obtain ⟨k, q⟩ := p
          simp only [hk] at h
          rw [readStr_ext _ _ _ _ _ hk (by simp) t]
          simp only
          by_cases hcol : (skipSpace q).head? = some ':'
          · rw [if_pos hcol] at h
            obtain ⟨h4, h5⟩ := skip_head_ext hcol t
            rw [if_pos h4, h5]
            cases hv : readJson rf n (skipSpace (skipSpace q).tail) with
            | none => simp [hv] at h
            | some p =>
              obtain ⟨x, q'⟩ := p
              have h0 : skipSpace (skipSpace q).tail ≠ [] := by
                intro e
                rw [e] at hv
                cases n <;> simp [readJson] at hv
              simp only [hv] at h
              rw [skipSpace_ext h0]
              by_cases h1 : (skipSpace q').head? = some ','
              · rw [if_pos h1] at h
                obtain ⟨h6, h7⟩ := skip_head_ext h1 t
                rw [ih1 m _ _ _ hv (by omega) (.inl (numEnd_next h1 (.inl rfl))) t]
                simp only
                rw [if_pos h6, h7]
                cases he : readMems rf n (skipSpace (skipSpace q').tail) with
                | none => simp [he] at h
                | some p =>
                  obtain ⟨ys, q''⟩ := p
                  have h0 : skipSpace (skipSpace q').tail ≠ [] := by
                    intro e
                    rw [e] at he
                    cases n <;> simp [readMems] at he
                  simp only [he, Option.map_some, Option.some.injEq, Prod.mk.injEq] at h
                  obtain ⟨rfl, rfl⟩ := h
                  rw [skipSpace_ext h0, ih3 m _ _ _ he (by omega) t]
                  rfl
              · rw [if_neg h1] at h
                by_cases h2 : (skipSpace q').head? = some '}'
                · rw [if_pos h2] at h
                  obtain ⟨h6, h7⟩ := skip_head_ext h2 t
                  rw [ih1 m _ _ _ hv (by omega) (.inl (numEnd_next h2 (.inr (.inr rfl)))) t]
                  simp only
                  rw [if_neg (by rw [h6]; simp), if_pos h6, h7]
                  simp only [Option.some.injEq, Prod.mk.injEq] at h
                  obtain ⟨rfl, rfl⟩ := h
                  rfl
                · rw [if_neg h2] at h
                  cases h
          · rw [if_neg hcol] at h
            cases h
      · rw [if_neg hq] at h
        cases h

/-- A document that is cut short is refused. -/
theorem jsonParse_cut (ind : Option Nat) {fl : Int × Int → Str} {rf : Str → Option (Int × Int)} (j : J) (hs : Structured j) (hk : MembersApart j)
    (hf : FloatsBack fl rf j) (p q : Str) (hq : q ≠ []) (e : jsonText ind fl 0 j = p ++ q) : jsonParse rf p = .error .valueError := by
  have hstart : ∃ c r, jsonText ind fl 0 j = c :: r ∧ (c = '{' ∨ c = '[') := by
    cases j with
    | arr xs => cases xs <;> exact ⟨_, _, rfl, .inr rfl⟩
    | obj ms =>
      cases ms with
      | nil => exact ⟨_, _, rfl, .inl rfl⟩
      | cons m ms => exact ⟨_, _, rfl, .inl rfl⟩
    | null => exact hs.elim
    | bool b => exact hs.elim
    | num n => exact hs.elim
    | float f => exact hs.elim
    | str s => exact hs.elim
  obtain ⟨c, r, hc, hcc⟩ := hstart
  cases p with
  | nil => rfl
  | cons x p =>
    have hx : x = c := by
      rw [hc, List.cons_append] at e
      exact (List.cons.inj e).1.symm
    subst hx
    have hsp : isJsonSpace x = false := by rcases hcc with rfl | rfl <;> rfl
    rw [jsonParse, skipSpace_cons hsp]
    cases hr : readJson rf ((x :: p).length + 1) (x :: p) with
    | none => rfl
    | some res =>
      exfalso
      obtain ⟨j', r'⟩ := res
      have h1 := (readJson_ext ((x :: p).length + 1)).1 ((jsonText ind fl 0 j).length + 1) _ _ _ hr (by rw [e]; simp)
        (by right; rcases hcc with rfl | rfl <;> simp) q
      have h2 := (readJson_text ind (rf := rf) ((jsonText ind fl 0 j).length + 1)).1 j 0 [] (by have := weight_le ind 0 j hf; omega) hk hf numEnd_nil
      rw [List.append_nil] at h2
      rw [← e, h2] at h1
      simp only [Option.some.injEq, Prod.mk.injEq] at h1
      exact hq (List.append_eq_nil_iff.1 h1.2.symm).2

end Pyb
