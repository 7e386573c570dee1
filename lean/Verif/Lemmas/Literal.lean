import Verif.Py.Literal

namespace Py

/-! ## `repr` is read back -/

theorem hexVal_hexChar : ∀ {d : Nat}, d < 16 → hexVal (hexChar d) = some d := by decide

theorem hexChar_plain : ∀ {d : Nat}, d < 16 → hexChar d ≠ '\\' ∧ hexChar d ≠ '\'' ∧ hexChar d ≠ '"' ∧ hexChar d ≠ '\n' ∧ hexChar d ≠ '\r' ∧ hexChar d ≠ '\x00' := by
  decide

theorem hexDigits_mem : ∀ (k n : Nat) (c : Char), c ∈ hexDigits k n → ∃ d, d < 16 ∧ c = hexChar d
  | 0, _, c, h => by simp [hexDigits] at h
  | k + 1, n, c, h => by
    simp only [hexDigits, List.mem_append, List.mem_singleton] at h
    rcases h with h | h
    · exact hexDigits_mem k _ c h
    · exact ⟨n % 16, Nat.mod_lt _ (by decide), h⟩

/-- Reading all but the last digits of a hexadecimal escape. -/
theorem unesc_hex (names : Str → Option Char) : ∀ (k n v j : Nat) (b : Str), n < 16 ^ k → 1 ≤ j →
    unesc names (.hex (k + j) v) (hexDigits k n ++ b) = unesc names (.hex j (v * 16 ^ k + n)) b
  | 0, n, v, j, b, h, _ => by
    have : n = 0 := by omega
    simp [hexDigits, this]
  | k + 1, n, v, j, b, h, hj => by
    have hq : n / 16 < 16 ^ k := by
      rw [Nat.pow_succ] at h
      omega
    have e : k + 1 + j = k + (j + 1) := by omega
    rw [e, hexDigits, List.append_assoc, unesc_hex names k (n / 16) v (j + 1) _ hq (by omega)]
    have hm : n % 16 < 16 := Nat.mod_lt _ (by decide)
    simp only [List.singleton_append, unesc, escStep, hexVal_hexChar hm]
    rw [if_neg (by omega)]
    have hv : (v * 16 ^ k + n / 16) * 16 + n % 16 = v * 16 ^ (k + 1) + n := by
      rw [Nat.add_mul, Nat.mul_assoc, Nat.pow_succ]
      omega
    simp [hv]

theorem chrOf_toNat (c : Char) : chrOf c.toNat = some c := by
  unfold chrOf
  have h : c.toNat.isValidChar := c.valid
  rw [dif_pos h]
  congr 1

theorem unesc_hexAll (names : Str → Option Char) (k : Nat) (c : Char) (b : Str) (h : c.toNat < 16 ^ (k + 1)) :
    unesc names (.hex (k + 1) 0) (hexDigits (k + 1) c.toNat ++ b) = (unesc names .none b).map (c :: ·) := by
  have hq : c.toNat / 16 < 16 ^ k := by
    rw [Nat.pow_succ] at h
    omega
  rw [hexDigits, List.append_assoc, unesc_hex names k _ 0 1 _ hq (by omega)]
  have hm : c.toNat % 16 < 16 := Nat.mod_lt _ (by decide)
  have hv : c.toNat / 16 * 16 + c.toNat % 16 = c.toNat := by omega
  simp only [List.singleton_append, unesc, escStep, hexVal_hexChar hm, Nat.zero_mul, Nat.zero_add, hv, chrOf_toNat]
  rw [if_pos (by omega)]
  simp only [Option.map_some]
  congr 1

theorem char_lt_limit (c : Char) : c.toNat < 16 ^ 8 := by
  have := c.valid
  have h : c.toNat < 1114112 := by
    rcases this with h | h
    · exact Nat.lt_trans h (by decide)
    · exact h.2
  omega

/-- What is written for a character is read as that character. -/
theorem unesc_reprChar (names : Str → Option Char) (p : Char → Bool) (q c : Char) (hq : q = '"' ∨ q = '\'') (b : Str) :
    unesc names .none (reprChar p q c ++ b) = (unesc names .none b).map (c :: ·) := by
  have hx : ∀ (x : Char) (k : Nat), backStep x = ([], .hex (k + 1) 0) → c.toNat < 16 ^ (k + 1) →
      unesc names .none ('\\' :: x :: hexDigits (k + 1) c.toNat ++ b) = (unesc names .none b).map (c :: ·) := by
    intro x k e h
    have := unesc_hexAll names k c b h
    have h1 : plainStep '\\' = ([], .back) := rfl
    simp only [List.cons_append, unesc, escStep, h1, e, this]
    cases unesc names .none b <;> rfl
  unfold reprChar
  split
  · rename_i h
    have : backStep c = ([c], .none) := by
      rcases h with h | h
      · rcases hq with hq | hq <;> subst hq <;> subst h <;> rfl
      · subst h; rfl
    have h1 : plainStep '\\' = ([], .back) := rfl
    simp only [List.cons_append, List.nil_append, unesc, escStep, h1, this]
    cases unesc names .none b <;> rfl
  rename_i h0
  have e1 : ∀ (x : Char), backStep x = ([c], .none) → unesc names .none (['\\', x] ++ b) = (unesc names .none b).map (c :: ·) := by
    intro x e
    have h1 : plainStep '\\' = ([], .back) := rfl
    simp only [List.cons_append, List.nil_append, unesc, escStep, h1, e]
    cases unesc names .none b <;> rfl
  split
  · rename_i h; subst h; exact e1 't' rfl
  split
  · rename_i h; subst h; exact e1 'n' rfl
  split
  · rename_i h; subst h; exact e1 'r' rfl
  split
  · rename_i h
    exact hx 'x' 1 rfl (by omega)
  split
  · have h1 : plainStep c = ([c], .none) := by
      unfold plainStep
      rw [if_neg (fun h => h0 (.inr h))]
    simp only [List.singleton_append, unesc, escStep, h1]
  split
  · rename_i h
    exact hx 'x' 1 rfl (by omega)
  split
  · rename_i h
    exact hx 'u' 3 rfl (by omega)
  · exact hx 'U' 7 rfl (char_lt_limit c)

theorem unesc_repr (names : Str → Option Char) (p : Char → Bool) (q : Char) (hq : q = '"' ∨ q = '\'') :
    ∀ s : Str, unesc names .none (s.flatMap (reprChar p q)) = some s
  | [] => rfl
  | c :: s => by
    rw [List.flatMap_cons, unesc_reprChar names p q c hq, unesc_repr names p q hq s]
    rfl

/-- Ordinary characters of a body. -/
theorem shortEnd_ordinary (q : Char) : ∀ (w b : Str), (∀ c ∈ w, c ≠ q ∧ c ≠ '\n' ∧ c ≠ '\x00' ∧ c ≠ '\\') →
    shortEnd q false (w ++ b) = (shortEnd q false b).map fun x => (w ++ x.1, x.2)
  | [], b, _ => by cases h : shortEnd q false b <;> simp [h]
  | c :: w, b, h => by
    obtain ⟨h1, h2, h3, h4⟩ := h c (by simp)
    have ih := shortEnd_ordinary q w b fun c hc => h c (by simp [hc])
    simp only [List.cons_append, shortEnd, h1, h2, h3, h4, if_false, or_self, decide_false, ih]
    cases shortEnd q false b <;> simp

theorem shortEnd_escaped (q : Char) (hq : q = '"' ∨ q = '\'') (d : Char) (hd : d ≠ '\x00') (b : Str) :
    shortEnd q false ('\\' :: d :: b) = (shortEnd q false b).map fun x => ('\\' :: d :: x.1, x.2) := by
  have h1 : '\\' ≠ q := by rcases hq with h | h <;> subst h <;> decide
  simp only [shortEnd, h1, if_false, hd]
  have h2 : ¬ ('\\' = '\n' ∨ '\\' = '\x00') := by decide
  simp only [h2, if_false]
  cases h : shortEnd q false b <;> simp [shortEnd, hd, h]

theorem shortEnd_reprChar (p : Char → Bool) (q c : Char) (hq : q = '"' ∨ q = '\'') (b : Str) :
    shortEnd q false (reprChar p q c ++ b) = (shortEnd q false b).map fun x => (reprChar p q c ++ x.1, x.2) := by
  have hx : ∀ (x : Char) (k : Nat), x ≠ '\x00' →
      shortEnd q false (('\\' :: x :: hexDigits k c.toNat) ++ b) = (shortEnd q false b).map fun y => (('\\' :: x :: hexDigits k c.toNat) ++ y.1, y.2) := by
    intro x k hx
    rw [List.cons_append, List.cons_append, shortEnd_escaped q hq x hx, shortEnd_ordinary]
    · cases shortEnd q false b <;> simp
    · intro c' hc'
      obtain ⟨d, hd, rfl⟩ := hexDigits_mem _ _ _ hc'
      obtain ⟨h1, h2, h3, h4, _, h6⟩ := hexChar_plain hd
      exact ⟨by rcases hq with h | h <;> subst h <;> assumption, h4, h6, h1⟩
  have e1 : ∀ x : Char, x ≠ '\x00' → shortEnd q false (['\\', x] ++ b) = (shortEnd q false b).map fun y => (['\\', x] ++ y.1, y.2) := fun x hx' =>
    shortEnd_escaped q hq x hx' b
  unfold reprChar
  split
  · rename_i h
    refine e1 c ?_
    rcases h with h | h
    · rcases hq with h' | h' <;> subst h' <;> subst h <;> decide
    · subst h; decide
  rename_i h0
  split
  · exact e1 't' (by decide)
  split
  · exact e1 'n' (by decide)
  rename_i hn
  split
  · exact e1 'r' (by decide)
  split
  · exact hx 'x' 2 (by decide)
  rename_i hlow
  split
  · refine shortEnd_ordinary q [c] b ?_
    intro c' hc'
    simp only [List.mem_singleton] at hc'
    subst hc'
    refine ⟨fun h => h0 (.inl h), hn, ?_, fun h => h0 (.inr h)⟩
    rintro rfl
    exact hlow (.inl (by decide))
  split
  · exact hx 'x' 2 (by decide)
  split
  · exact hx 'u' 4 (by decide)
  · exact hx 'U' 8 (by decide)

theorem shortEnd_repr (p : Char → Bool) (q : Char) (hq : q = '"' ∨ q = '\'') (rest : Str) :
    ∀ s : Str, shortEnd q false (s.flatMap (reprChar p q) ++ q :: rest) = some (s.flatMap (reprChar p q), rest)
  | [] => by simp [shortEnd]
  | c :: s => by
    rw [List.flatMap_cons, List.append_assoc, shortEnd_reprChar p q c hq, shortEnd_repr p q hq rest s]
    rfl

/-- Nothing `repr` writes is a line end. -/
theorem reprChar_line (p : Char → Bool) (q c : Char) (hq : q = '"' ∨ q = '\'') : ∀ d ∈ reprChar p q c, d ≠ '\n' ∧ d ≠ '\r' := by
  have hx : ∀ (x : Char) (k : Nat), x ≠ '\n' ∧ x ≠ '\r' → ∀ d ∈ '\\' :: x :: hexDigits k c.toNat, d ≠ '\n' ∧ d ≠ '\r' := by
    intro x k hx d hd
    simp only [List.mem_cons] at hd
    rcases hd with rfl | rfl | hd
    · decide
    · exact hx
    · obtain ⟨e, he, rfl⟩ := hexDigits_mem _ _ _ hd
      obtain ⟨_, _, _, h4, h5, _⟩ := hexChar_plain he
      exact ⟨h4, h5⟩
  have e1 : ∀ x : Char, x ≠ '\n' ∧ x ≠ '\r' → ∀ d ∈ ['\\', x], d ≠ '\n' ∧ d ≠ '\r' := by
    intro x hx d hd
    simp only [List.mem_cons, List.not_mem_nil, or_false] at hd
    rcases hd with rfl | rfl
    · decide
    · exact hx
  unfold reprChar
  split
  · rename_i h
    refine e1 c ?_
    rcases h with h | h
    · rcases hq with h' | h' <;> subst h' <;> subst h <;> decide
    · subst h; decide
  split
  · exact e1 't' (by decide)
  split
  · exact e1 'n' (by decide)
  rename_i hn
  split
  · exact e1 'r' (by decide)
  rename_i hr
  split
  · exact hx 'x' 2 (by decide)
  split
  · intro d hd
    simp only [List.mem_singleton] at hd
    subst hd
    exact ⟨hn, hr⟩
  split
  · exact hx 'x' 2 (by decide)
  split
  · exact hx 'u' 4 (by decide)
  · exact hx 'U' 8 (by decide)

theorem srcNl_ordinary : ∀ (w r : Str), (∀ c ∈ w, c ≠ '\n' ∧ c ≠ '\r') → w ≠ [] → ∀ b, srcNl b (w ++ r) = w ++ srcNl false r
  | [], _, _, h, _ => absurd rfl h
  | [c], r, h, _, b => by
    obtain ⟨h1, h2⟩ := h c (by simp)
    simp [srcNl, h1, h2]
  | c :: d :: w, r, h, _, b => by
    obtain ⟨h1, h2⟩ := h c (by simp)
    have ih := srcNl_ordinary (d :: w) r (fun c hc => h c (by simp [hc])) (by simp) false
    rw [List.cons_append, srcNl, if_neg h2, if_neg (fun h => h1 h.1), ih]
    rfl

theorem reprQuote_or (s : Str) : reprQuote s = '"' ∨ reprQuote s = '\'' := by
  unfold reprQuote
  split
  · exact .inl rfl
  · exact .inr rfl

theorem pyRepr_line (p : Char → Bool) (s : Str) : ∀ c ∈ pyRepr p s, c ≠ '\n' ∧ c ≠ '\r' := by
  have hq : reprQuote s ≠ '\n' ∧ reprQuote s ≠ '\r' := by rcases reprQuote_or s with h | h <;> rw [h] <;> decide
  intro c hc
  simp only [pyRepr, List.mem_cons, List.mem_append, List.mem_flatMap, List.not_mem_nil, or_false] at hc
  rcases hc with rfl | ⟨d, _, hd⟩ | rfl
  · exact hq
  · exact reprChar_line p _ d (reprQuote_or s) c hd
  · exact hq

theorem reprChar_head (p : Char → Bool) (q c : Char) (hq : q = '"' ∨ q = '\'') : ∃ d r, reprChar p q c = d :: r ∧ d ≠ q := by
  have h : '\\' ≠ q := by rcases hq with h | h <;> subst h <;> decide
  unfold reprChar
  split
  · exact ⟨_, _, rfl, h⟩
  rename_i h0
  split
  · exact ⟨_, _, rfl, h⟩
  split
  · exact ⟨_, _, rfl, h⟩
  split
  · exact ⟨_, _, rfl, h⟩
  split
  · exact ⟨_, _, rfl, h⟩
  split
  · exact ⟨_, _, rfl, fun h => h0 (.inl h)⟩
  split
  · exact ⟨_, _, rfl, h⟩
  split
  · exact ⟨_, _, rfl, h⟩
  · exact ⟨_, _, rfl, h⟩

/-- What `repr` writes is read as the text. -/
theorem readLit_repr (names : Str → Option Char) (p : Char → Bool) (s rest : Str) (hr : s = [] → rest.head? ≠ some '\'') :
    readLit names (pyRepr p s ++ rest) = some (s, rest) := by
  have hq := reprQuote_or s
  have hl : ¬ ((s.flatMap (reprChar p (reprQuote s)) ++ [reprQuote s] ++ rest).take 2 = [reprQuote s, reprQuote s]) := by
    cases s with
    | nil =>
      have : reprQuote [] = '\'' := rfl
      rw [this]
      cases rest with
      | nil => simp
      | cons c rest =>
        intro h
        simp at h
        exact hr rfl (by simp [h])
    | cons c s =>
      obtain ⟨d, r, h, hd⟩ := reprChar_head p (reprQuote (c :: s)) c hq
      rw [List.flatMap_cons, h]
      intro e
      simp at e
      exact hd e.1
  simp only [pyRepr, List.cons_append, readLit]
  rw [if_pos hq, if_neg hl, List.append_assoc, List.singleton_append, shortEnd_repr p _ hq]
  simp [unesc_repr names p _ hq]

end Py
