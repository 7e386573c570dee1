import Verif.Spec.JsonRfc
import Verif.Lemmas.JsonText

/-! # Reading and writing the text of RFC 8259 -/

namespace Pyb
open Py Spec

theorem blank_space {w : Str} (h : JsonBlank w) : ∀ c ∈ w, isJsonSpace c = true := by
  intro c hc
  rcases h c hc with rfl | rfl | rfl | rfl <;> rfl

theorem skipSpace_blank {w : Str} (h : JsonBlank w) (s : Str) : skipSpace (w ++ s) = skipSpace s := by
  have := blank_space h
  induction w with
  | nil => rfl
  | cons c w ih =>
    rw [List.cons_append, skipSpace, List.dropWhile_cons_of_pos (this c (by simp))]
    exact ih (fun x hx => h x (by simp [hx])) (fun x hx => this x (by simp [hx]))

theorem hexValue_of {c : Char} {n : Nat} (h : HexDigit c n) : hexValue c = some n := by
  rw [hexValue]
  rcases h with ⟨h1, h2⟩ | ⟨h1, h2, h3 | h3⟩
  · rw [if_pos (by omega)]; simp; omega
  · rw [if_neg (by omega), if_neg (by omega), if_pos (by omega)]; simp; omega
  · rw [if_neg (by omega), if_pos (by omega)]; simp; omega

theorem readHex_of {s : Str} {n : Nat} (h : HexFour s n) (r : Str) : readHex (s ++ r) = some (n, r) := by
  obtain ⟨a, b, c, d, x, y, z, w, rfl, ha, hb, hc, hd, rfl⟩ := h
  simp only [List.cons_append, List.nil_append, readHex, hexValue_of ha, hexValue_of hb, hexValue_of hc, hexValue_of hd, Option.some.injEq,
    Prod.mk.injEq, and_true]
  omega

theorem readStr_of {c : Char} {u : Str} (h : CharText c u) (r : Str) (n : Nat) :
    readStr (n + 1) (u ++ r) = (readStr n r).map fun p => (c :: p.1, p.2) := by
  have uni : ∀ v q, readUni v = some (c, q) → readStr (n + 1) ('\\' :: 'u' :: v) = (readStr n q).map fun p => (c :: p.1, p.2) := by
    intro v q hq
    rw [readStr, if_neg (by decide), if_pos rfl, readEsc, if_pos rfl, hq]
  cases h with
  | plain _ h1 h2 h3 =>
    rw [List.cons_append, List.nil_append, readStr, if_neg h1, if_neg h2, if_neg (by omega)]
  | one _ s hs =>
    have hc := char_range c
    refine uni (s ++ r) r ?_
    rw [readUni, readHex_of hs]
    simp only
    rw [if_neg (by omega), if_neg (by omega), Char.ofNat_toNat]
  | two _ s t hi lo hs ht h1 h2 h3 h4 h5 =>
    rw [List.append_assoc]
    refine uni (s ++ ('\\' :: 'u' :: t ++ r)) r ?_
    rw [readUni, readHex_of hs]
    simp only
    rw [if_pos (by omega), List.cons_append, List.cons_append, readLow, readHex_of ht]
    simp only
    rw [if_pos (by omega), show 0x10000 + (hi - 0xd800) * 1024 + (lo - 0xdc00) = c.toNat by omega, Char.ofNat_toNat]
  | _ => rfl

theorem readStr_chars {s u : Str} (h : CharsText s u) : ∀ (n : Nat) (r : Str), s.length < n → readStr n (u ++ ('"' :: r)) = some (s, r) := by
  induction h with
  | nil =>
    intro n r h
    obtain ⟨m, rfl⟩ : ∃ m, n = m + 1 := ⟨n - 1, by omega⟩
    simp [readStr]
  | cons c s u v hc _ ih =>
    intro n r h
    obtain ⟨m, rfl⟩ : ∃ m, n = m + 1 := ⟨n - 1, by omega⟩
    rw [List.append_assoc, readStr_of hc, ih m r (by simpa using h)]
    rfl

theorem charText_length {c : Char} {u : Str} (h : CharText c u) : 1 ≤ u.length := by
  cases h <;> simp

theorem charsText_length {s u : Str} (h : CharsText s u) : s.length ≤ u.length := by
  induction h with
  | nil => simp
  | cons c s u v hc _ ih =>
    have := charText_length hc
    simp only [List.length_cons, List.length_append]
    omega

theorem readStr_string {s u : Str} (h : CharsText s u) (r : Str) : readStr ((u ++ ('"' :: r)).length + 1) (u ++ ('"' :: r)) = some (s, r) := by
  apply readStr_chars h
  have := charsText_length h
  simp only [List.length_append, List.length_cons]
  omega

theorem intOfStr_minusZero : intOfStr ('-' :: natStr 0) = .ok 0 := rfl

theorem readNumber_integer (rf : Str → Option (Int × Int)) {n : Int} {s : Str} (h : IntegerText n s) (r : Str) (hr : NumEnd r) :
    readNumber rf (s ++ r) = some (.num n, r) := by
  obtain ⟨m, ⟨rfl, rfl⟩ | ⟨rfl, rfl⟩⟩ := h
  · exact readNumber_int rf m r hr
  · cases m with
    | zero =>
      have := readInteger_of ['-'] (.inr rfl) 0 r hr.digit
      simp only [List.cons_append, List.nil_append] at this ⊢
      simp only [readNumber, this, readFrac_end hr.dot, readExp_end hr.exp, and_self, if_true, intOfStr_minusZero]
      rfl
    | succ m => exact readNumber_int rf (-(m + 1 : Nat)) r hr

theorem readExp_either {x : Char} (hx : x = 'e' ∨ x = 'E') {g d r : Str} (hg : g = [] ∨ g = ['-'] ∨ g = ['+']) (hd : Digits d)
    (hr : ∀ c, r.head? = some c → isDigit c = false) : readExp (x :: g ++ d ++ r) = (x :: g ++ d, r) := by
  have hs : readSign (g ++ (d ++ r)) = (g, d ++ r) := by
    rcases hg with rfl | rfl | rfl
    · rw [readSign, if_neg]
      · simp
      · simp only [List.nil_append, not_or]
        exact ⟨digits_head hd _ (by decide), digits_head hd _ (by decide)⟩
    · simp [readSign]
    · simp [readSign]
  have h0 : some x = some 'e' ∨ some x = some 'E' := by simpa using hx
  simp only [readExp, List.cons_append, List.append_assoc, List.head?_cons, h0, if_true, List.tail_cons, hs, readDigits_of hd hr,
    List.take_succ_cons, List.take_zero, List.nil_append]

theorem readNumber_floatText {rf : Str → Option (Int × Int)} {x : Int × Int} {s : Str} (h : FloatText s) (hrf : rf s = some x) (r : Str) (hr : NumEnd r) :
    readNumber rf (s ++ r) = some (.float x, r) := by
  obtain ⟨sign, n, f, e, rfl, hs, hf, he, hne⟩ := h
  have hE : readExp (e ++ r) = (e, r) := by
    rcases he with rfl | ⟨x, g, d, rfl, hx, hg, hd⟩
    · exact readExp_end hr.exp
    · exact readExp_either hx hg hd hr.digit
  have hEh : ∀ c, (e ++ r).head? = some c → isDigit c = false ∧ c ≠ '.' := by
    rcases he with rfl | ⟨x, g, d, rfl, hx, hg, hd⟩
    · exact fun c hc => ⟨(hr c hc).1, (hr c hc).2.1⟩
    · intro c hc
      simp only [List.cons_append, List.head?_cons, Option.some.injEq] at hc
      subst hc
      rcases hx with rfl | rfl <;> decide
  have hF : readFrac (f ++ (e ++ r)) = (f, e ++ r) := by
    rcases hf with rfl | ⟨d, rfl, hd⟩
    · exact readFrac_end fun e => (hEh _ e).2 rfl
    · exact readFrac_of hd fun c hc => (hEh c hc).1
  have hFh : ∀ c, (f ++ (e ++ r)).head? = some c → isDigit c = false := by
    rcases hf with rfl | ⟨d, rfl, hd⟩
    · exact fun c hc => (hEh c hc).1
    · intro c hc
      simp only [List.cons_append, List.head?_cons, Option.some.injEq] at hc
      subst hc
      decide
  have hI := readInteger_of sign hs n _ hFh
  have hfe : ¬ (f = [] ∧ e = []) := by
    rintro ⟨rfl, rfl⟩
    simp at hne
  simp only [List.append_assoc] at hI hrf ⊢
  simp only [readNumber, hI, hF, hE, if_neg hfe, List.append_assoc, hrf, Option.map_some]

theorem integer_start {n : Int} {s : Str} (h : IntegerText n s) : ∃ c r, s = c :: r ∧ (isDigit c = true ∨ c = '-') := by
  obtain ⟨m, ⟨_, rfl⟩ | ⟨_, rfl⟩⟩ := h
  · obtain ⟨c, t, hc, hd⟩ := natStr_cons m
    exact ⟨c, t, hc, .inl hd⟩
  · exact ⟨_, _, rfl, .inr rfl⟩

theorem float_start {s : Str} (h : FloatText s) : ∃ c r, s = c :: r ∧ (isDigit c = true ∨ c = '-') := by
  obtain ⟨sign, n, f, e, rfl, hs, _⟩ := h
  rcases hs with rfl | rfl
  · obtain ⟨c, t, hc, hd⟩ := natStr_cons n
    exact ⟨c, t ++ f ++ e, by simp [hc], .inl hd⟩
  · exact ⟨'-', natStr n ++ f ++ e, by simp, .inr rfl⟩

theorem numEnd_blank {w : Str} (h : JsonBlank w) (c : Char) (s : Str) (hc : isDigit c = false ∧ c ≠ '.' ∧ c ≠ 'e' ∧ c ≠ 'E') : NumEnd (w ++ c :: s) := by
  intro x hx
  cases w with
  | nil => simp at hx; subst hx; exact hc
  | cons y w =>
    simp at hx; subst hx
    rcases h y (by simp) with rfl | rfl | rfl | rfl <;> decide

theorem numEnd_blank' {w : Str} (h : JsonBlank w) : NumEnd w := by
  intro x hx
  cases w with
  | nil => simp at hx
  | cons y w =>
    simp at hx; subst hx
    rcases h y (by simp) with rfl | rfl | rfl | rfl <;> decide

/-- The parts of a text are read. -/
def ReadsPart (rf : Str → Option (Int × Int)) : JsonPart → Str → Prop
  | .value j, s => (∃ c r, s = c :: r ∧ ValueStart c) ∧ ∀ n rest, s.length ≤ n → NumEnd rest → readJson rf n (s ++ rest) = some (j, rest)
  | .elements xs, s => (∃ c r, s = c :: r ∧ ValueStart c) ∧ ∀ n w rest, s.length + 1 ≤ n → JsonBlank w → readElems rf n (s ++ (w ++ ']' :: rest)) = some (xs, rest)
  | .members ms, s => (∃ r, s = '"' :: r) ∧ ∀ n w rest, s.length + 1 ≤ n → JsonBlank w → readMems rf n (s ++ (w ++ '}' :: rest)) = some (ms, rest)

theorem skip_start {c : Char} (h : ValueStart c) (s : Str) : skipSpace (c :: s) = c :: s := skipSpace_cons h.1 s

theorem readMems_one {rf : Str → Option (Int × Int)} {k : Str} {x : J} {u s v v' : Str} (hu : StringText k u) (hv : JsonBlank v) (hv' : JsonBlank v')
    (hs : ReadsPart rf (.value x) s) (n : Nat) (hn : s.length ≤ n) (r : Str) (hr : NumEnd r) :
    readMems rf (n + 1) (u ++ v ++ ':' :: v' ++ s ++ r) =
      if (skipSpace r).head? = some ',' then (readMems rf n (skipSpace (skipSpace r).tail)).map fun p => ((k, x) :: p.1, p.2)
      else if (skipSpace r).head? = some '}' then some ([(k, x)], (skipSpace r).tail)
      else none := by
  obtain ⟨q, hq, rfl⟩ := hu
  obtain ⟨⟨c, t, rfl, hc⟩, h⟩ := hs
  simp only [List.cons_append, List.append_assoc, List.nil_append, readMems, List.head?_cons, if_true, List.tail_cons]
  rw [readStr_string hq]
  simp only
  rw [skipSpace_blank hv, skipSpace_cons (by decide)]
  simp only [List.head?_cons, if_true, List.tail_cons]
  have := h n r hn hr
  rw [List.cons_append] at this
  rw [skipSpace_blank hv', skip_start hc, this]

theorem rfc_reads {rf : Str → Option (Int × Int)} {p : JsonPart} {s : Str} (h : RfcText rf p s) : ReadsPart rf p s := by
  have lit : ∀ c : Char, (decide (isJsonSpace c = false) && decide (c ≠ ']') && decide (c ≠ '}')) = true → ValueStart c := by
    intro c hc
    simp only [Bool.and_eq_true, decide_eq_true_eq] at hc
    exact ⟨hc.1.1, hc.1.2, hc.2⟩
  have succ : ∀ {n k : Nat}, k + 1 ≤ n → ∃ m, n = m + 1 ∧ k ≤ m := fun {n k} h => ⟨n - 1, by omega, by omega⟩
  induction h with
  | null =>
    refine ⟨⟨_, _, rfl, lit _ rfl⟩, fun n rest hn _ => ?_⟩
    obtain ⟨m, rfl, _⟩ := succ (k := 3) hn
    rfl
  | true =>
    refine ⟨⟨_, _, rfl, lit _ rfl⟩, fun n rest hn _ => ?_⟩
    obtain ⟨m, rfl, _⟩ := succ (k := 3) hn
    rfl
  | false =>
    refine ⟨⟨_, _, rfl, lit _ rfl⟩, fun n rest hn _ => ?_⟩
    obtain ⟨m, rfl, _⟩ := succ (k := 4) hn
    rfl
  | integer k s h =>
    obtain ⟨c, r, rfl, hc⟩ := integer_start h
    refine ⟨⟨c, r, rfl, digit_start hc⟩, fun n rest hn hr => ?_⟩
    obtain ⟨m, rfl, _⟩ := succ (by simpa using hn)
    rw [List.cons_append, readJson_number rf hc, ← List.cons_append, readNumber_integer rf h rest hr]
  | float x s h hf =>
    obtain ⟨c, r, rfl, hc⟩ := float_start h
    refine ⟨⟨c, r, rfl, digit_start hc⟩, fun n rest hn hr => ?_⟩
    obtain ⟨m, rfl, _⟩ := succ (by simpa using hn)
    rw [List.cons_append, readJson_number rf hc, ← List.cons_append, readNumber_floatText h hf rest hr]
  | string s t h =>
    obtain ⟨u, hu, rfl⟩ := h
    refine ⟨⟨_, _, rfl, lit _ rfl⟩, fun n rest hn hr => ?_⟩
    obtain ⟨m, rfl, _⟩ := succ (by simpa using hn)
    simp only [List.cons_append, List.append_assoc, List.nil_append, readJson, if_true]
    rw [readStr_string hu]
    rfl
  | empty w hw =>
    refine ⟨⟨_, _, rfl, lit _ rfl⟩, fun n rest hn hr => ?_⟩
    obtain ⟨m, rfl, _⟩ := succ (by simpa using hn)
    simp only [List.cons_append, List.append_assoc, List.nil_append, readJson]
    rw [if_neg (by decide), if_pos trivial, skipSpace_blank hw, skipSpace_cons (by decide)]
    rfl
  | array xs s w w' hw hw' _ ih =>
    obtain ⟨⟨c, r, rfl, hc⟩, ih⟩ := ih
    refine ⟨⟨_, _, rfl, lit _ rfl⟩, fun n rest hn hr => ?_⟩
    obtain ⟨m, rfl, hm⟩ := succ (by simpa using hn)
    have := ih m w' rest (by simp at hm ⊢; omega) hw'
    rw [List.cons_append] at this
    simp only [List.cons_append, List.append_assoc, List.nil_append, readJson]
    rw [if_neg (by decide), if_pos trivial, skipSpace_blank hw, skip_start hc, if_neg (by simpa using hc.2.1), this]
    rfl
  | none w hw =>
    refine ⟨⟨_, _, rfl, lit _ rfl⟩, fun n rest hn hr => ?_⟩
    obtain ⟨m, rfl, _⟩ := succ (by simpa using hn)
    simp only [List.cons_append, List.append_assoc, List.nil_append, readJson]
    rw [if_neg (by decide), if_neg (by decide), if_pos trivial, skipSpace_blank hw, skipSpace_cons (by decide)]
    rfl
  | object ms s w w' hw hw' _ hd ih =>
    obtain ⟨⟨r, rfl⟩, ih⟩ := ih
    refine ⟨⟨_, _, rfl, lit _ rfl⟩, fun n rest hn hr => ?_⟩
    obtain ⟨m, rfl, hm⟩ := succ (by simpa using hn)
    have := ih m w' rest (by simp at hm ⊢; omega) hw'
    rw [List.cons_append] at this
    simp only [List.cons_append, List.append_assoc, List.nil_append, readJson]
    rw [if_neg (by decide), if_neg (by decide), if_pos trivial, skipSpace_blank hw, skipSpace_cons (by decide), if_neg (by simp), this]
    simp only [Option.map_some, orderedDict_of _ hd]
  | element x s _ ih =>
    refine ⟨ih.1, fun n w rest hn hw => ?_⟩
    obtain ⟨m, rfl, hm⟩ := succ hn
    rw [readElems, ih.2 m _ hm (numEnd_blank hw _ _ (by decide))]
    simp only [skipSpace_blank hw, skipSpace_cons (show isJsonSpace ']' = Bool.false by decide)]
    simp
  | elements x xs s t w w' _ hw hw' _ ih1 ih2 =>
    obtain ⟨⟨c, r, rfl, hc⟩, ih1⟩ := ih1
    obtain ⟨⟨c', r', rfl, hc'⟩, ih2⟩ := ih2
    refine ⟨⟨c, _, rfl, hc⟩, fun n v rest hn hv => ?_⟩
    obtain ⟨m, rfl, hm⟩ := succ hn
    simp only [List.length_append, List.length_cons] at hm
    have h2 := ih2 m v rest (by simp only [List.length_cons]; omega) hv
    have h1 := ih1 m (w ++ ',' :: (w' ++ (c' :: r' ++ (v ++ ']' :: rest)))) (by simp only [List.length_cons]; omega) (numEnd_blank hw _ _ (by decide))
    simp only [List.append_assoc, List.cons_append] at h1 h2 ⊢
    rw [readElems, h1]
    simp only [skipSpace_blank hw, skipSpace_cons (show isJsonSpace ',' = Bool.false by decide), List.head?_cons, if_true, List.tail_cons]
    rw [skipSpace_blank hw', skip_start hc', h2]
    rfl
  | member k x u s v v' hu hv hv' _ ih =>
    have hu' := hu
    obtain ⟨q, _, rfl⟩ := hu'
    refine ⟨⟨_, rfl⟩, fun n w rest hn hw => ?_⟩
    obtain ⟨m, rfl, hm⟩ := succ hn
    rw [readMems_one hu hv hv' ih m (by simp at hm ⊢; omega) _ (numEnd_blank hw _ _ (by decide)), skipSpace_blank hw, skipSpace_cons (by decide)]
    simp
  | members k x ms u s t v v' w w' hu hv hv' _ hw hw' _ ih1 ih2 =>
    have hu' := hu
    obtain ⟨q, _, rfl⟩ := hu'
    obtain ⟨⟨r', rfl⟩, ih2⟩ := ih2
    refine ⟨⟨_, rfl⟩, fun n z rest hn hz => ?_⟩
    obtain ⟨m, rfl, hm⟩ := succ hn
    have h2 := ih2 m z rest (by simp at hm ⊢; omega) hz
    have h1 := readMems_one hu hv hv' ih1 m (by simp at hm ⊢; omega) (w ++ ',' :: (w' ++ ('"' :: r' ++ (z ++ '}' :: rest)))) (numEnd_blank hw _ _ (by decide))
    simp only [List.append_assoc, List.cons_append] at h1 h2 ⊢
    rw [h1, skipSpace_blank hw, skipSpace_cons (by decide)]
    simp only [List.head?_cons, if_true, List.tail_cons]
    rw [skipSpace_blank hw', skipSpace_cons (by decide), h2]
    rfl

/-! ## Writing -/

theorem hexDigit_of (n : Nat) (h : n < 16) : HexDigit (hexDigit n) n := by
  have : ∀ n, n < 16 → (n < 10 ∧ (hexDigit n).toNat = 0x30 + n) ∨ (10 ≤ n ∧ n < 16 ∧ ((hexDigit n).toNat = 0x41 + (n - 10) ∨ (hexDigit n).toNat = 0x61 + (n - 10))) := by
    decide
  exact this n h

theorem hexFour_of (n : Nat) (h : n < 65536) : HexFour (hexFour n) n :=
  ⟨_, _, _, _, _, _, _, _, rfl, hexDigit_of _ (Nat.mod_lt _ (by decide)), hexDigit_of _ (Nat.mod_lt _ (by decide)), hexDigit_of _ (Nat.mod_lt _ (by decide)),
    hexDigit_of _ (Nat.mod_lt _ (by decide)), by omega⟩

theorem jsonChar_rfc (c : Char) : CharText c (jsonChar c) := by
  cases hl : shortEscapes.lookup c with
  | some e =>
    have hm : (c, e) ∈ shortEscapes := escape_mem hl
    simp only [jsonChar, hl]
    simp only [shortEscapes, List.mem_cons, Prod.mk.injEq, List.not_mem_nil, or_false] at hm
    rcases hm with ⟨rfl, rfl⟩ | ⟨rfl, rfl⟩ | ⟨rfl, rfl⟩ | ⟨rfl, rfl⟩ | ⟨rfl, rfl⟩ | ⟨rfl, rfl⟩ | ⟨rfl, rfl⟩
    · exact .quote
    · exact .backslash
    · exact .lineFeed
    · exact .carriage
    · exact .tab
    · exact .formFeed
    · exact .backspace
  | none =>
    have hc := char_range c
    simp only [jsonChar, hl]
    split
    · rename_i h
      refine .plain c ?_ ?_ (by omega)
      · intro e; subst e; simp [shortEscapes, List.lookup] at hl
      · intro e; subst e; simp [shortEscapes, List.lookup] at hl
    · split
      · exact .one c _ (hexFour_of _ (by omega))
      · exact .two c _ _ _ _ (hexFour_of _ (by omega)) (hexFour_of _ (by omega)) (by omega) (by omega) (by omega) (by omega) (by omega)

theorem jsonStr_rfc (s : Str) : StringText s (jsonStr s) := by
  refine ⟨s.flatMap jsonChar, ?_, by simp [jsonStr]⟩
  induction s with
  | nil => exact .nil
  | cons c s ih => rw [List.flatMap_cons]; exact .cons _ _ _ _ (jsonChar_rfc c) ih

theorem jsonLine_blank (ind : Option Nat) (lvl : Nat) : JsonBlank (jsonLine ind lvl) := by
  intro c hc
  cases ind with
  | none => simp [jsonLine] at hc
  | some k =>
    simp only [jsonLine, List.mem_cons, List.mem_replicate] at hc
    rcases hc with rfl | ⟨_, rfl⟩ <;> simp

theorem jsonSep_blank (ind : Option Nat) (lvl : Nat) : ∃ w, JsonBlank w ∧ jsonSep ind lvl = ',' :: w := by
  cases ind with
  | none => exact ⟨[' '], by simp [JsonBlank], rfl⟩
  | some k => exact ⟨_, jsonLine_blank (some k) lvl, rfl⟩

theorem intStr_integer (n : Int) : IntegerText n (intStr n) := by
  cases n with
  | ofNat n => exact ⟨n, .inl ⟨rfl, rfl⟩⟩
  | negSucc n => exact ⟨n + 1, .inr ⟨rfl, rfl⟩⟩

theorem floatForm_text {s : Str} (h : FloatForm s) : FloatText s := by
  obtain ⟨sign, n, f, e, h1, h2, h3, h4, h5⟩ := h
  refine ⟨sign, n, f, e, h1, h2, h3, ?_, h5⟩
  rcases h4 with h4 | ⟨g, d, h4, h6⟩
  · exact .inl h4
  · exact .inr ⟨_, g, d, h4, .inl rfl, h6⟩

theorem blank_nil : JsonBlank [] := by simp [JsonBlank]

mutual
theorem text_rfc {fl : Int × Int → Str} {rf : Str → Option (Int × Int)} (ind : Option Nat) (lvl : Nat) :
    ∀ j, MembersApart j → FloatsBack fl rf j → RfcText rf (.value j) (jsonText ind fl lvl j)
  | .null, _, _ => .null
  | .bool b, _, _ => by
    cases b
    · exact .false
    · exact .true
  | .num n, _, _ => .integer n _ (intStr_integer n)
  | .float x, _, hf => .float x _ (floatForm_text hf.1) hf.2
  | .str s, _, _ => .string s _ (jsonStr_rfc s)
  | .arr [], _, _ => .empty [] blank_nil
  | .arr (x :: xs), hk, hf => by
    have := RfcText.array _ _ _ _ (jsonLine_blank ind (lvl + 1)) (jsonLine_blank ind lvl)
      (elems_rfc ind (lvl + 1) xs hk.2 hf.2 x _ (text_rfc ind (lvl + 1) x hk.1 hf.1))
    simpa only [jsonText, List.cons_append, List.append_assoc, List.nil_append] using this
  | .obj [], _, _ => .none [] blank_nil
  | .obj ((k, x) :: ms), hk, hf => by
    have := RfcText.object _ _ _ _ (jsonLine_blank ind (lvl + 1)) (jsonLine_blank ind lvl)
      (mems_rfc ind (lvl + 1) ms hk.2.2 hf.2 k x _ (text_rfc ind (lvl + 1) x hk.2.1 hf.1)) hk.1
    simpa only [jsonText, List.cons_append, List.append_assoc, List.nil_append] using this
theorem elems_rfc {fl : Int × Int → Str} {rf : Str → Option (Int × Int)} (ind : Option Nat) (lvl : Nat) :
    ∀ xs, MembersApartAll xs → FloatsBackAll fl rf xs → ∀ x s, RfcText rf (.value x) s → RfcText rf (.elements (x :: xs)) (s ++ jsonElems ind fl lvl xs)
  | [], _, _, x, s, h => by
    rw [jsonElems, List.append_nil]
    exact .element x s h
  | y :: ys, hk, hf, x, s, h => by
    obtain ⟨w, hw, e⟩ := jsonSep_blank ind lvl
    have := RfcText.elements x (y :: ys) s _ [] w h blank_nil hw (elems_rfc ind lvl ys hk.2 hf.2 y _ (text_rfc ind lvl y hk.1 hf.1))
    simpa only [jsonElems, e, List.cons_append, List.append_assoc, List.nil_append] using this
theorem mems_rfc {fl : Int × Int → Str} {rf : Str → Option (Int × Int)} (ind : Option Nat) (lvl : Nat) :
    ∀ ms, MembersApartMems ms → FloatsBackMems fl rf ms → ∀ k x s, RfcText rf (.value x) s →
      RfcText rf (.members ((k, x) :: ms)) (jsonStr k ++ (':' :: ' ' :: (s ++ jsonMems ind fl lvl ms)))
  | [], _, _, k, x, s, h => by
    have := RfcText.member k x _ s [] [' '] (jsonStr_rfc k) blank_nil (by simp [JsonBlank]) h
    simpa only [jsonMems, List.cons_append, List.append_assoc, List.nil_append, List.append_nil] using this
  | (k', y) :: ms, hk, hf, k, x, s, h => by
    obtain ⟨w, hw, e⟩ := jsonSep_blank ind lvl
    have := RfcText.members k x ((k', y) :: ms) _ s _ [] [' '] [] w (jsonStr_rfc k) blank_nil (by simp [JsonBlank]) h blank_nil hw
      (mems_rfc ind lvl ms hk.2 hf.2 k' y _ (text_rfc ind lvl y hk.1 hf.1))
    simpa only [jsonMems, e, List.cons_append, List.append_assoc, List.nil_append] using this
end

end Pyb
