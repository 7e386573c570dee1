import Verif.Spec.XPath
import Verif.Lemmas.Str

namespace Pyb
open Py Spec

/-! ## Characters -/

theorem alpha_toNat {c : Char} (h : c.isAlpha = true) : (97 ≤ c.toNat ∧ c.toNat ≤ 122) ∨ (65 ≤ c.toNat ∧ c.toNat ≤ 90) := by
  simp only [Char.isAlpha, Char.isUpper, Char.isLower, Bool.or_eq_true, Bool.and_eq_true, decide_eq_true_eq] at h
  simp only [Char.toNat]
  rcases h with ⟨h1, h2⟩ | ⟨h1, h2⟩
  · right
    exact ⟨by simpa using UInt32.le_iff_toNat_le.1 h1, by simpa using UInt32.le_iff_toNat_le.1 h2⟩
  · left
    exact ⟨by simpa using UInt32.le_iff_toNat_le.1 h1, by simpa using UInt32.le_iff_toNat_le.1 h2⟩

theorem digit_toNat {c : Char} (h : c.isDigit = true) : 48 ≤ c.toNat ∧ c.toNat ≤ 57 := by
  simp only [Char.isDigit, Bool.and_eq_true, decide_eq_true_eq] at h
  simp only [Char.toNat]
  exact ⟨by simpa using UInt32.le_iff_toNat_le.1 h.1, by simpa using UInt32.le_iff_toNat_le.1 h.2⟩

theorem plain_cmd {c : Char} (h : PlainChar c) : cmdChar c = true ∧ c ≠ ':' := by
  rcases h with h | h | h
  · simp only [Char.isAlphanum, Bool.or_eq_true] at h
    rcases h with h | h
    · have := alpha_toNat h
      constructor
      · simp only [cmdChar, Bool.or_eq_true, Bool.and_eq_true, decide_eq_true_eq]
        omega
      · rintro rfl
        simp at this
    · have := digit_toNat h
      constructor
      · simp only [cmdChar, isDigit, Bool.or_eq_true, Bool.and_eq_true, decide_eq_true_eq]
        omega
      · rintro rfl
        simp at this
  · subst h; decide
  · subst h; decide

theorem plain_name {c : Char} (h : PlainChar c ∨ c = '.') : nameChar c = true := by
  rcases h with h | h
  · simp [nameChar, plain_cmd h]
  · subst h; decide

theorem ident_valid {s : Str} (h : Identifier s) : validName s = true := by
  obtain ⟨h1, c, cs, rfl, h2⟩ := h
  have ha : nameChar c = true := plain_name (h1 c (by simp))
  have hb : ∀ x ∈ cs, nameChar x = true := fun x hx => plain_name (h1 x (by simp [hx]))
  have hc : isDigit c = false ∧ c ≠ '-' ∧ c ≠ '.' := by
    rcases h2 with h2 | h2
    · have := alpha_toNat h2
      refine ⟨?_, ?_, ?_⟩
      · simp only [isDigit, Bool.and_eq_false_iff, decide_eq_false_iff_not]
        omega
      · rintro rfl; simp at this
      · rintro rfl; simp at this
    · subst h2; decide
  simp only [validName, ha, hc, Bool.true_and, Bool.not_false]
  simpa using ⟨⟨hc.2.1, hc.2.2⟩, hb⟩

/-- What the names of the helper are made of. -/
theorem name_chars {s : Str} (h : validName s = true) :
    s ≠ [] ∧ ∀ c ∈ s, c ≠ '[' ∧ c ≠ ']' ∧ c ≠ '/' ∧ c ≠ '\'' ∧ c ≠ '=' ∧ c ≠ '|' ∧ c ≠ ':' ∧ c ≠ ' ' ∧ c ≠ '"' := by
  cases s with
  | nil => simp [validName] at h
  | cons c cs =>
    refine ⟨by simp, ?_⟩
    simp only [validName, Bool.and_eq_true, List.all_eq_true] at h
    intro x hx
    have hn : nameChar x = true := by
      rcases List.mem_cons.1 hx with rfl | hx
      · exact h.1.1.1.1
      · exact h.2 x hx
    refine ⟨?_, ?_, ?_, ?_, ?_, ?_, ?_, ?_, ?_⟩ <;> (rintro rfl; revert hn; decide)

theorem ident_head {s : Str} (h : validName s = true) : isRelative s = false := by
  cases s with
  | nil => simp [validName] at h
  | cons c cs =>
    simp only [validName, Bool.and_eq_true] at h
    have : c ≠ '.' := by simpa using h.1.2
    simp [isRelative, startsWith, List.isPrefixOf, Ne.symm this]

/-! ## Splitting and stripping -/

theorem takeWhile_stop {p : Char → Bool} {a : Str} {c : Char} {b : Str} (h : ∀ x ∈ a, p x = true) (hc : p c = false) :
    (a ++ c :: b).takeWhile p = a ∧ (a ++ c :: b).dropWhile p = c :: b := by
  induction a with
  | nil => simp [hc]
  | cons x a ih =>
    have hx := h x (by simp)
    have := ih fun y hy => h y (by simp [hy])
    simp [hx, this]

theorem takeWhile_all {p : Char → Bool} {a : Str} (h : ∀ x ∈ a, p x = true) : a.takeWhile p = a ∧ a.dropWhile p = [] := by
  induction a with
  | nil => simp
  | cons x a ih =>
    have hx := h x (by simp)
    have := ih fun y hy => h y (by simp [hy])
    simp [hx, this]

theorem splitBars_plain {s : Str} (h : '|' ∉ s) : splitBars s = [s] := by
  fun_induction splitBars s with
  | case1 => rfl
  | case2 => rfl
  | case3 c d cs hc => simp [hc.1] at h
  | case4 c d cs hc he ih => rw [ih (by simp at h ⊢; exact h.2)] at he; cases he
  | case5 c d cs hc p ps he ih =>
    rw [ih (by simp at h ⊢; exact h.2)] at he
    cases he
    rfl

theorem splitBars_sep {a : Str} (b : Str) (h : '|' ∉ a) : splitBars (a ++ '|' :: '|' :: b) = a :: splitBars b := by
  induction a with
  | nil => simp [splitBars]
  | cons c a ih =>
    have hc : c ≠ '|' := fun e => h (by simp [e])
    have := ih fun hm => h (by simp [hm])
    cases a with
    | nil => simp [splitBars, hc]
    | cons d a =>
      simp only [List.cons_append] at this ⊢
      rw [splitBars, if_neg (by simp [hc]), this]

theorem rstripBy_last {p : Char → Bool} (s : Str) {c : Char} (h : p c = false) : rstripBy p (s ++ [c]) = s ++ [c] := by
  simp [rstripBy, h]

theorem rstripBy_tail {p : Char → Bool} (s t : Str) {c : Char} (h : p c = false) (ht : ∀ x ∈ t, p x = true) :
    rstripBy p (s ++ [c] ++ t) = s ++ [c] := by
  have h1 : (t.reverse ++ (s ++ [c]).reverse).dropWhile p = (s ++ [c]).reverse := by
    have hd : ∀ (l m : Str), (∀ x ∈ l, p x = true) → (l ++ m).dropWhile p = m.dropWhile p := by
      intro l
      induction l with
      | nil => intro m _; rfl
      | cons x l ih => intro m hl; simp [hl x (by simp), ih m fun y hy => hl y (by simp [hy])]
    rw [hd _ _ (by simpa using ht)]
    simp [h]
  rw [rstripBy, List.reverse_append, h1]
  simp

/-! ## A step is read back -/

/-- The keys as they are written. -/
def keyBody : List (Str × Str) → Str
  | [] => []
  | [p] => p.1 ++ '=' :: '\'' :: p.2 ++ ['\'']
  | p :: q :: r => p.1 ++ '=' :: '\'' :: p.2 ++ '\'' :: ' ' :: keyBody (q :: r)

theorem keyText_body (ks : List (Str × Str)) (h : ks ≠ []) : keyText ks = keyBody ks ++ [' '] := by
  fun_induction keyBody ks with
  | case1 => exact absurd rfl h
  | case2 p => simp [keyText]
  | case3 p q r ih => rw [keyText, ih (by simp)]; simp

theorem keyString_body (ks : List (Str × Str)) (h : ks ≠ []) : keyString ks = '[' :: keyBody ks ++ [']'] := by
  rw [keyString, keyText_body ks h]
  simp

/-- What is needed of keys, in terms of characters. -/
structure KeysOk (ks : List (Str × Str)) : Prop where
  names : ∀ k ∈ ks, k.1 ≠ [] ∧ ∀ c ∈ k.1, cmdChar c = true ∧ c ≠ ':'
  nodup : (ks.map (·.1)).Nodup
  values : ∀ k ∈ ks, k.2 ≠ [] ∧ ∀ c ∈ k.2, argChar c = true ∧ c ≠ ']' ∧ c ≠ '|'

theorem _root_.Spec.PStep.Good.keysOk {s : PStep} (h : s.Good) : KeysOk s.keys where
  names := by
    intro k hk
    obtain ⟨⟨h1, c, cs, h2, h3⟩, h4, _⟩ := h.names k hk
    refine ⟨by rw [h2]; simp, fun c hc => ?_⟩
    rcases h1 c hc with h5 | rfl
    · exact plain_cmd h5
    · exact absurd hc h4
  nodup := h.nodup
  values := by
    intro k hk
    obtain ⟨h1, h2, _⟩ := h.values k hk
    refine ⟨h1, fun c hc => ?_⟩
    obtain ⟨h3, h4, h5, h6, h7, h8, _⟩ := h2 c hc
    exact ⟨by simp [argChar, h3, h4, h5, h6], h7, h8⟩

theorem cmdChar_not (c : Char) (h : cmdChar c = true) : c ≠ '@' ∧ c ≠ '=' ∧ c ≠ '|' ∧ c ≠ ' ' ∧ c ≠ '\'' ∧ c ≠ ']' ∧ c ≠ '[' := by
  refine ⟨?_, ?_, ?_, ?_, ?_, ?_, ?_⟩ <;> (rintro rfl; revert h; decide)

theorem startsWith_append_neg {k : Str} (hk : ∀ c ∈ k, c ≠ ' ') (p r : Str) (x : Char) (hx : x ≠ ' ') : startsWith (k ++ x :: r) (p ++ [' ']) = true →
    ∃ r', k ++ x :: r = p ++ ' ' :: r' ∧ k.length < p.length := by
  intro h
  obtain ⟨t, ht⟩ := List.isPrefixOf_iff_prefix.1 h
  refine ⟨t, by simpa using ht.symm, ?_⟩
  apply Classical.byContradiction
  intro hl
  have hl : p.length ≤ k.length := by omega
  have e := congrArg (fun l => l[p.length]?) ht
  simp at e
  rcases Nat.lt_or_ge p.length k.length with hlt | hge
  · rw [List.getElem?_append_left hlt, List.getElem?_eq_getElem hlt] at e
    exact hk _ (List.getElem_mem hlt) (Option.some.inj e).symm
  · have : p.length = k.length := by omega
    rw [List.getElem?_append_right (by omega), this] at e
    simp at e
    exact hx e.symm

/-- Reading one comparison, with `rest` after it. -/
theorem argCore_eq {k v rest : Str} (hk : k ≠ []) (hkc : ∀ c ∈ k, cmdChar c = true) (hv : v ≠ [])
    (hvc : ∀ c ∈ v, argChar c = true) :
    argCore (k ++ '=' :: '\'' :: v ++ '\'' :: rest) = some (k, v, rest.dropWhile (· = ' ')) := by
  have hat : dropOne (· = '@') (k ++ '=' :: '\'' :: v ++ '\'' :: rest) = k ++ '=' :: '\'' :: v ++ '\'' :: rest := by
    cases k with
    | nil => exact absurd rfl hk
    | cons c k =>
      have := (cmdChar_not c (hkc c (by simp))).1
      simp [dropOne, this]
  have htw := takeWhile_stop (p := cmdChar) (a := k) (c := '=') (b := '\'' :: v ++ '\'' :: rest) hkc (by decide)
  have e : k ++ '=' :: '\'' :: v ++ '\'' :: rest = k ++ '=' :: ('\'' :: v ++ '\'' :: rest) := by simp
  rw [argCore, hat, e, htw.1, htw.2, if_neg hk]
  have hsp : ('=' :: ('\'' :: v ++ '\'' :: rest)).dropWhile (· = ' ') = '=' :: ('\'' :: v ++ '\'' :: rest) := by simp
  have hq : dropOne isQuote (('\'' :: v ++ '\'' :: rest).dropWhile (· = ' ')) = v ++ '\'' :: rest := by
    have : ('\'' :: v ++ '\'' :: rest).dropWhile (· = ' ') = '\'' :: v ++ '\'' :: rest := by simp
    rw [this]
    rfl
  have htv := takeWhile_stop (p := argChar) (a := v) (c := '\'') (b := rest) hvc (by decide)
  rw [hsp]
  simp only
  rw [hq, argValue, htv.1, htv.2, if_neg hv]
  rfl

theorem argRe_eq {s : Str} (h : ∀ p : Str, (p = py!"and" ∨ p = py!"or") → startsWith s (p ++ [' ']) = false) : argRe s = argCore s := by
  have h1 := h py!"and" (.inl rfl)
  have h2 := h py!"or" (.inr rfl)
  simp only [List.cons_append, List.nil_append] at h1 h2
  simp [argRe, h1, h2]

theorem not_starts {k : Str} (hkc : ∀ c ∈ k, cmdChar c = true) (hk : k ≠ []) (r : Str) (p : Str) (hp : p = py!"and" ∨ p = py!"or") :
    startsWith (k ++ '=' :: r) (p ++ [' ']) = false := by
  apply Bool.eq_false_iff.2
  intro h
  obtain ⟨r', he, hl⟩ := startsWith_append_neg (fun c hc => (cmdChar_not c (hkc c hc)).2.2.2.1) p r '=' (by decide) h
  -- `=` would be one of the characters of `and`, `or`
  have e := congrArg (fun l => l[k.length]?) he
  simp only [List.getElem?_append_right (Nat.le_refl _), Nat.sub_self, List.getElem?_cons_zero] at e
  rw [List.getElem?_append_left hl, List.getElem?_eq_getElem hl] at e
  have hm : '=' ∈ p := by
    have := List.getElem_mem hl
    rw [← Option.some.inj e] at this
    exact this
  rcases hp with rfl | rfl <;> revert hm <;> decide

theorem dict_set_new {α : Type} (d : Dict α) (k : Str) (v : α) (h : k ∉ d.map (·.1)) : d.set k v = d ++ [(k, v)] := by
  induction d with
  | nil => rfl
  | cons p d ih =>
    simp only [List.map_cons, List.mem_cons, not_or] at h
    have := ih h.2
    simp [Dict.set, Ne.symm h.1, this]

theorem localName_plain {c : Str} (h : ':' ∉ c) : localName c = c := by simp [localName, h]

theorem keyBody_nobar (ks : List (Str × Str)) (hk : KeysOk ks) : '|' ∉ keyBody ks ∧ ']' ∉ keyBody ks := by
  fun_induction keyBody ks with
  | case1 => simp
  | case2 p =>
    have h1 := fun c hc => cmdChar_not c (((hk.names p (by simp)).2 c hc).1)
    have h2 := (hk.values p (by simp)).2
    constructor
    · simp only [List.mem_append, List.mem_cons, List.not_mem_nil, or_false, not_or]
      exact ⟨⟨fun h => (h1 _ h).2.2.1 rfl, by decide, by decide, fun h => (h2 _ h).2.2 rfl⟩, by decide⟩
    · simp only [List.mem_append, List.mem_cons, List.not_mem_nil, or_false, not_or]
      exact ⟨⟨fun h => (h1 _ h).2.2.2.2.2.1 rfl, by decide, by decide, fun h => (h2 _ h).2.1 rfl⟩, by decide⟩
  | case3 p q r ih =>
    have h1 := fun c hc => cmdChar_not c (((hk.names p (by simp)).2 c hc).1)
    have h2 := (hk.values p (by simp)).2
    have h3 := ih ⟨fun k hk' => hk.names k (List.mem_cons_of_mem _ hk'), (List.nodup_cons.1 hk.nodup).2, fun k hk' => hk.values k (List.mem_cons_of_mem _ hk')⟩
    constructor
    · simp only [List.mem_append, List.mem_cons, not_or]
      exact ⟨⟨fun h => (h1 _ h).2.2.1 rfl, by decide, by decide, fun h => (h2 _ h).2.2 rfl⟩, by decide, by decide, h3.1⟩
    · simp only [List.mem_append, List.mem_cons, not_or]
      exact ⟨⟨fun h => (h1 _ h).2.2.2.2.2.1 rfl, by decide, by decide, fun h => (h2 _ h).2.1 rfl⟩, by decide, by decide, h3.2⟩

theorem keyBody_head (ks : List (Str × Str)) (hk : KeysOk ks) (hne : ks ≠ []) : ∃ c cs, keyBody ks = c :: cs ∧ cmdChar c = true := by
  cases ks with
  | nil => exact absurd rfl hne
  | cons p r =>
    obtain ⟨h1, h2⟩ := hk.names p (by simp)
    obtain ⟨c, cs, he⟩ := List.exists_cons_of_ne_nil h1
    refine ⟨c, ?_⟩
    have hc := (h2 c (by simp [he])).1
    cases r with
    | nil => exact ⟨cs ++ '=' :: '\'' :: p.2 ++ ['\''], by simp [keyBody, he], hc⟩
    | cons q r => exact ⟨cs ++ '=' :: '\'' :: p.2 ++ '\'' :: ' ' :: keyBody (q :: r), by simp [keyBody, he], hc⟩

theorem argLoop_keys (ks : List (Str × Str)) : ∀ (f : Nat) (d : Dict Str), KeysOk ks → (∀ k ∈ ks, k.1 ∉ d.map (·.1)) → ks.length ≤ f →
    argLoop f d (keyBody ks) = .ok (d ++ ks) := by
  fun_induction keyBody ks with
  | case1 => intro f d _ _ _; cases f <;> simp [argLoop]
  | case2 p =>
    intro f d hk hd hf
    obtain ⟨f, rfl⟩ : ∃ g, f = g + 1 := ⟨f - 1, by simp at hf; omega⟩
    have hn := hk.names p (by simp)
    have hv := hk.values p (by simp)
    have hkc := fun c hc => (hn.2 c hc).1
    have hcore := argCore_eq (rest := []) hn.1 hkc hv.1 fun c hc => (hv.2 c hc).1
    have hre : argRe (p.1 ++ '=' :: '\'' :: p.2 ++ ['\'']) = some (p.1, p.2, []) := by
      rw [argRe_eq, hcore]
      · simp
      · intro q hq
        have := not_starts hkc hn.1 ('\'' :: p.2 ++ ['\'']) q hq
        simpa using this
    have hne : p.1 ++ '=' :: '\'' :: p.2 ++ ['\''] ≠ [] := by simp
    obtain ⟨x, xs, hx⟩ := List.exists_cons_of_ne_nil hne
    rw [hx, argLoop, ← hx, hre]
    · have hb1 : '|' ∉ p.1 := fun h => (cmdChar_not _ (hkc _ h)).2.2.1 rfl
      have hb2 : '|' ∉ p.2 := fun h => (hv.2 _ h).2.2 rfl
      have hc : ':' ∉ p.1 := fun h => (hn.2 _ h).2 rfl
      have hs : splitBars (p.1 ++ py!"||" ++ p.2 ++ py!"||" ++ []) = [p.1, p.2, []] := by
        have : p.1 ++ py!"||" ++ p.2 ++ py!"||" ++ [] = p.1 ++ '|' :: '|' :: (p.2 ++ '|' :: '|' :: []) := by simp
        rw [this, splitBars_sep _ hb1, splitBars_sep _ hb2]
        rfl
      simp only [hs]
      rw [localName_plain hc, dict_set_new _ _ _ (hd p (by simp))]
      cases f <;> rfl
    · intro h; cases h
  | case3 p q r ih =>
    intro f d hk hd hf
    obtain ⟨f, rfl⟩ : ∃ g, f = g + 1 := ⟨f - 1, by simp at hf; omega⟩
    have hn := hk.names p (by simp)
    have hv := hk.values p (by simp)
    have hkc := fun c hc => (hn.2 c hc).1
    have hk' : KeysOk (q :: r) := ⟨fun k hk' => hk.names k (List.mem_cons_of_mem _ hk'), (List.nodup_cons.1 hk.nodup).2,
      fun k hk' => hk.values k (List.mem_cons_of_mem _ hk')⟩
    have hcore := argCore_eq (rest := ' ' :: keyBody (q :: r)) hn.1 hkc hv.1 fun c hc => (hv.2 c hc).1
    obtain ⟨c, cs, hc1, hc2⟩ := keyBody_head (q :: r) hk' (by simp)
    have hdrop : (' ' :: keyBody (q :: r)).dropWhile (· = ' ') = keyBody (q :: r) := by
      rw [hc1]
      have := (cmdChar_not c hc2).2.2.2.1
      simp [this]
    have hre : argRe (p.1 ++ '=' :: '\'' :: p.2 ++ '\'' :: ' ' :: keyBody (q :: r)) = some (p.1, p.2, keyBody (q :: r)) := by
      rw [argRe_eq, hcore, hdrop]
      intro s hs
      have := not_starts hkc hn.1 ('\'' :: p.2 ++ '\'' :: ' ' :: keyBody (q :: r)) s hs
      simpa using this
    have hne : p.1 ++ '=' :: '\'' :: p.2 ++ '\'' :: ' ' :: keyBody (q :: r) ≠ [] := by simp
    obtain ⟨x, xs, hx⟩ := List.exists_cons_of_ne_nil hne
    rw [hx, argLoop, ← hx, hre]
    · have hb1 : '|' ∉ p.1 := fun h => (cmdChar_not _ (hkc _ h)).2.2.1 rfl
      have hb2 : '|' ∉ p.2 := fun h => (hv.2 _ h).2.2 rfl
      have hc : ':' ∉ p.1 := fun h => (hn.2 _ h).2 rfl
      have hs : splitBars (p.1 ++ py!"||" ++ p.2 ++ py!"||" ++ keyBody (q :: r)) = [p.1, p.2, keyBody (q :: r)] := by
        have : p.1 ++ py!"||" ++ p.2 ++ py!"||" ++ keyBody (q :: r) = p.1 ++ '|' :: '|' :: (p.2 ++ '|' :: '|' :: keyBody (q :: r)) := by simp
        rw [this, splitBars_sep _ hb1, splitBars_sep _ hb2, splitBars_plain (keyBody_nobar _ hk').1]
      simp only [hs]
      rw [localName_plain hc, dict_set_new _ _ _ (hd p (by simp)), ih f _ hk' ?_ (by simp at hf ⊢; omega)]
      · simp
      · intro k hkm
        simp only [List.map_append, List.mem_append, List.map_cons, List.map_nil, List.mem_singleton, not_or]
        refine ⟨hd k (List.mem_cons_of_mem _ hkm), fun e => ?_⟩
        have := List.mem_map_of_mem (f := Prod.fst) hkm
        rw [e] at this
        exact (List.nodup_cons.1 hk.nodup).1 this
    · intro h; cases h

theorem attrTail_body : ∀ (b : Str), ']' ∉ b → attrTail 2 (b ++ [']']) = some (b ++ [']']) := by
  intro b
  induction b with
  | nil => intro _; rfl
  | cons c b ih =>
    intro h
    have hc : c ≠ ']' := fun e => h (by simp [e])
    have := ih fun hm => h (by simp [hm])
    simp [attrTail, hc, this]

theorem attrRe_body {tag b : Str} (ht : tag ≠ []) (htc : '[' ∉ tag) (hb : b ≠ []) (hbc : ']' ∉ b) :
    attrRe (tag ++ '[' :: b ++ [']']) = some (tag, '[' :: b ++ [']'], []) := by
  have htw := takeWhile_stop (p := (· ≠ '[')) (a := tag) (c := '[') (b := b ++ [']']) (by
    intro x hx
    have : x ≠ '[' := fun e => htc (e ▸ hx)
    simp [this]) (by simp)
  have e : tag ++ '[' :: b ++ [']'] = tag ++ '[' :: (b ++ [']']) := by simp
  have hat : attrTail 0 ('[' :: (b ++ [']'])) = some ('[' :: (b ++ [']'])) := by
    obtain ⟨c, cs, rfl⟩ := List.exists_cons_of_ne_nil hb
    have hc : c ≠ ']' := fun e => hbc (by simp [e])
    have := attrTail_body cs fun hm => hbc (by simp [hm])
    simp [attrTail, hc, this]
  rw [attrRe, e, htw.1, htw.2, if_neg (by simp [ht]), hat]
  simp

theorem stripBracket_cons {b : Str} (h1 : ∀ c cs, b = c :: cs → c ≠ '[') (h2 : ∀ cs c, b = cs ++ [c] → c ≠ '[') :
    stripBracket ('[' :: b) = b := by
  have hl : lstripBy (· = '[') ('[' :: b) = b := by
    cases b with
    | nil => simp [lstripBy]
    | cons c cs => simp [lstripBy, h1 c cs rfl]
  rw [stripBracket, hl]
  rcases List.eq_nil_or_concat b with rfl | ⟨cs, c, rfl⟩
  · rfl
  · rw [List.concat_eq_append]
    exact rstripBy_last cs (by simpa using h2 cs c (by simp))

theorem keyBody_last (ks : List (Str × Str)) (hne : ks ≠ []) : ∃ cs, keyBody ks = cs ++ ['\''] := by
  fun_induction keyBody ks with
  | case1 => exact absurd rfl hne
  | case2 p => exact ⟨_, rfl⟩
  | case3 p q r ih =>
    obtain ⟨cs, h⟩ := ih (by simp)
    exact ⟨p.1 ++ '=' :: '\'' :: p.2 ++ '\'' :: ' ' :: cs, by rw [h]; simp⟩

theorem keyBody_length (ks : List (Str × Str)) : ks.length ≤ (keyBody ks).length := by
  fun_induction keyBody ks with
  | case1 => simp
  | case2 p => simp; omega
  | case3 p q r ih => simp at ih ⊢; omega

/-- A step with keys is read back. -/
theorem tagAttrs_keys {tag : Str} (ht : validName tag = true) {ks : List (Str × Str)} (hk : KeysOk ks) (hne : ks ≠ []) :
    tagAttrs (tag ++ keyString ks) = .ok (tag, some ks) := by
  obtain ⟨ht1, ht2⟩ := name_chars ht
  have hbr : '[' ∉ tag := fun h => (ht2 _ h).1 rfl
  have hbar : '|' ∉ tag := fun h => (ht2 _ h).2.2.2.2.2.1 rfl
  obtain ⟨hb1, hb2⟩ := keyBody_nobar ks hk
  obtain ⟨c, cs, hc1, hc2⟩ := keyBody_head ks hk hne
  have e : tag ++ keyString ks = tag ++ '[' :: keyBody ks ++ [']'] := by rw [keyString_body ks hne]; simp
  rw [tagAttrs, e, attrRe_body ht1 hbr (by rw [hc1]; simp) hb2]
  have hs : splitBars (tag ++ py!"||" ++ ('[' :: keyBody ks ++ [']']) ++ []) = [tag, '[' :: keyBody ks ++ [']']] := by
    have : tag ++ py!"||" ++ ('[' :: keyBody ks ++ [']']) ++ [] = tag ++ '|' :: '|' :: ('[' :: keyBody ks ++ [']']) := by simp
    rw [this, splitBars_sep _ hbar, splitBars_plain (by simp [hb1])]
  simp only [hs]
  have hsp : splitOn ']' ('[' :: keyBody ks ++ [']']) = ['[' :: keyBody ks, []] := by
    have := splitOn_append_sep ']' ('[' :: keyBody ks) [] (by simp [hb2])
    rw [this]
    rfl
  have hst : stripBracket ('[' :: keyBody ks) = keyBody ks := by
    apply stripBracket_cons
    · intro x xs hx
      rw [hc1] at hx
      cases hx
      exact (cmdChar_not _ hc2).2.2.2.2.2.2
    · intro xs x hx
      obtain ⟨ys, hy⟩ := keyBody_last ks hne
      rw [hy] at hx
      have := (List.append_inj' hx rfl).2
      cases this
      decide
  rw [hsp]
  have hst0 : stripBracket [] = [] := rfl
  have hloop := argLoop_keys ks ((keyBody ks).length + 1) [] hk (by simp) (by have := keyBody_length ks; omega)
  simp only [List.map_cons, List.map_nil, hst, hst0, argParts, hloop, List.nil_append]
  rfl

theorem tagAttrs_plain {tag : Str} (ht : validName tag = true) : tagAttrs tag = .ok (tag, none) := by
  obtain ⟨ht1, ht2⟩ := name_chars ht
  have := takeWhile_all (p := (· ≠ '[')) (a := tag) (by
    intro x hx
    simp [(ht2 x hx).1])
  rw [tagAttrs, attrRe, this.2, if_pos (.inr rfl)]

end Pyb
