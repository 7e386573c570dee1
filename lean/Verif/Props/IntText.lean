import Verif.Spec.IntText
import Verif.Props.Restricted

/-! # C12: which texts are integers -/

namespace Pyb
open Py Spec

theorem grouped_cons (g : Str) (g' : Str) (gs : List Str) : grouped (g :: g' :: gs) = g ++ '_' :: grouped (g' :: gs) := rfl

theorem grouped_char (c : Char) (g : Str) (gs : List Str) : grouped ((c :: g) :: gs) = c :: grouped (g :: gs) := by
  cases gs <;> rfl

theorem parseDigits_sound : ∀ (cs : Str) (acc : Nat) (pd : Bool) (n : Nat), parseDigits acc pd cs = some n →
    ∃ g gs, (∀ c ∈ g, isDigit c = true) ∧ (pd = true ∨ g ≠ []) ∧ (∀ x ∈ gs, x ≠ [] ∧ ∀ c ∈ x, isDigit c = true) ∧ cs = grouped (g :: gs) ∧
      n = (g ++ gs.flatten).foldl (fun a c => a * 10 + (c.toNat - 48)) acc
  | [], acc, pd, n, h => by
    cases pd with
    | false => simp [parseDigits] at h
    | true =>
      simp [parseDigits] at h
      exact ⟨[], [], by simp, .inl rfl, by simp, rfl, by simp [h]⟩
  | c :: cs, acc, pd, n, h => by
    cases hc : isDigit c with
    | true =>
      rw [parseDigits, if_pos hc] at h
      obtain ⟨g, gs, h1, _, h3, h4, h5⟩ := parseDigits_sound cs _ _ n h
      refine ⟨c :: g, gs, ?_, .inr (by simp), h3, by rw [grouped_char, h4], by simpa using h5⟩
      intro x hx
      rcases List.mem_cons.1 hx with rfl | hx
      · exact hc
      · exact h1 x hx
    | false =>
      rw [parseDigits, if_neg (by simp [hc])] at h
      by_cases hu : (c = '_' && pd) = true
      · rw [if_pos hu] at h
        obtain ⟨g, gs, h1, h2, h3, h4, h5⟩ := parseDigits_sound cs _ _ n h
        have hu : c = '_' ∧ pd = true := by simpa using hu
        refine ⟨[], g :: gs, by simp, .inl hu.2, ?_, by rw [grouped_cons, h4, hu.1]; rfl, by simpa using h5⟩
        intro x hx
        rcases List.mem_cons.1 hx with rfl | hx
        · exact ⟨by simpa using h2, h1⟩
        · exact h3 x hx
      · rw [if_neg hu] at h; simp at h

theorem parseDigits_complete : ∀ (gs : List Str) (g : Str) (acc : Nat) (pd : Bool), (∀ c ∈ g, isDigit c = true) → (pd = true ∨ g ≠ []) →
    (∀ x ∈ gs, x ≠ [] ∧ ∀ c ∈ x, isDigit c = true) →
    parseDigits acc pd (grouped (g :: gs)) = some ((g ++ gs.flatten).foldl (fun a c => a * 10 + (c.toNat - 48)) acc)
  | [], g, acc, pd, h1, h2, _ => by
    have := parseDigits_append g acc pd [] h1
    rw [List.append_nil] at this
    rw [show grouped [g] = g from rfl, this]
    rcases h2 with rfl | h2
    · simp [parseDigits]
    · simp [parseDigits, h2]
  | g' :: gs, g, acc, pd, h1, h2, h3 => by
    have hpd : (if g = [] then pd else true) = true := by
      rcases h2 with rfl | h2
      · simp
      · simp [h2]
    have hu : isDigit '_' = false := by decide
    rw [grouped_cons, parseDigits_append g acc pd _ h1, hpd, parseDigits, if_neg (by simp [hu]), if_pos (by simp),
      parseDigits_complete gs g' _ false (h3 g' (by simp)).2 (.inr (h3 g' (by simp)).1) fun x hx => h3 x (by simp [hx])]
    simp

theorem parseDigits_iff (cs : Str) (n : Nat) : parseDigits 0 false cs = some n ↔
    ∃ gs, gs ≠ [] ∧ (∀ g ∈ gs, g ≠ [] ∧ ∀ c ∈ g, isDigit c = true) ∧ cs = grouped gs ∧ n = digitsValue gs.flatten := by
  constructor
  · intro h
    obtain ⟨g, gs, h1, h2, h3, h4, h5⟩ := parseDigits_sound cs 0 false n h
    refine ⟨g :: gs, by simp, ?_, h4, by simpa [digitsValue] using h5⟩
    intro x hx
    rcases List.mem_cons.1 hx with rfl | hx
    · exact ⟨by simpa using h2, h1⟩
    · exact h3 x hx
  · rintro ⟨gs, h1, h2, rfl, rfl⟩
    cases gs with
    | nil => exact absurd rfl h1
    | cons g gs =>
      rw [parseDigits_complete gs g 0 false (h2 g (by simp)).2 (.inr (h2 g (by simp)).1) fun x hx => h2 x (by simp [hx])]
      simp [digitsValue]

/-- The first and the last character of such a text are digits. -/
theorem grouped_ends : ∀ gs : List Str, gs ≠ [] → (∀ g ∈ gs, g ≠ [] ∧ ∀ c ∈ g, isDigit c = true) →
    (∃ c t, grouped gs = c :: t ∧ isDigit c = true) ∧ ∃ t c, grouped gs = t ++ [c] ∧ isDigit c = true
  | [], h, _ => absurd rfl h
  | [g], _, h => by
    obtain ⟨hne, hd⟩ := h g (by simp)
    refine ⟨?_, g.dropLast, g.getLast hne, (List.dropLast_concat_getLast hne).symm, hd _ (List.getLast_mem hne)⟩
    cases g with
    | nil => exact absurd rfl hne
    | cons c t => exact ⟨c, t, rfl, hd c (by simp)⟩
  | g :: g' :: gs, _, h => by
    obtain ⟨hne, hd⟩ := h g (by simp)
    obtain ⟨_, t, c, e, hc⟩ := grouped_ends (g' :: gs) (by simp) fun x hx => h x (List.mem_cons_of_mem _ hx)
    refine ⟨?_, g ++ '_' :: t, c, by rw [grouped_cons, e]; simp, hc⟩
    cases g with
    | nil => exact absurd rfl hne
    | cons c t => exact ⟨c, _, grouped_char .., hd c (by simp)⟩

theorem parseSigned_iff (t : Str) (n : Int) : parseSigned t = some n ↔
    ∃ sg gs, (sg = [] ∨ sg = ['+'] ∨ sg = ['-']) ∧ gs ≠ [] ∧ (∀ g ∈ gs, g ≠ [] ∧ ∀ c ∈ g, isDigit c = true) ∧ t = sg ++ grouped gs ∧
      n = (if sg = ['-'] then -(digitsValue gs.flatten : Int) else (digitsValue gs.flatten : Int)) := by
  constructor
  · intro h
    cases t with
    | nil => simp [parseSigned] at h
    | cons c cs =>
      rw [parseSigned] at h
      by_cases h1 : c = '-'
      · rw [if_pos h1] at h
        obtain ⟨m, hm, e⟩ := Option.map_eq_some_iff.1 h
        obtain ⟨gs, a, b, rfl, rfl⟩ := (parseDigits_iff _ _).1 hm
        exact ⟨['-'], gs, .inr (.inr rfl), a, b, by simp [h1], by simp [← e]⟩
      · rw [if_neg h1] at h
        by_cases h2 : c = '+'
        · rw [if_pos h2] at h
          obtain ⟨m, hm, e⟩ := Option.map_eq_some_iff.1 h
          obtain ⟨gs, a, b, rfl, rfl⟩ := (parseDigits_iff _ _).1 hm
          exact ⟨['+'], gs, .inr (.inl rfl), a, b, by simp [h2], by simp [← e]⟩
        · rw [if_neg h2] at h
          obtain ⟨m, hm, e⟩ := Option.map_eq_some_iff.1 h
          obtain ⟨gs, a, b, ht, rfl⟩ := (parseDigits_iff _ _).1 hm
          exact ⟨[], gs, .inl rfl, a, b, by simpa using ht, by simp [← e]⟩
  · rintro ⟨sg, gs, hs, a, b, rfl, rfl⟩
    have hp := (parseDigits_iff (grouped gs) _).2 ⟨gs, a, b, rfl, rfl⟩
    rcases hs with rfl | rfl | rfl
    · obtain ⟨⟨c, t, e, hc⟩, _⟩ := grouped_ends gs a b
      have h1 : c ≠ '-' := by rintro rfl; simp [isDigit] at hc
      have h2 : c ≠ '+' := by rintro rfl; simp [isDigit] at hc
      rw [e] at hp
      rw [List.nil_append, e, parseSigned, if_neg h1, if_neg h2, hp]
      simp
    · rw [List.singleton_append, parseSigned, if_neg (by decide), if_pos rfl, hp]
      simp
    · rw [List.singleton_append, parseSigned, if_pos rfl, hp]
      simp

theorem dropWhile_blank (l t : Str) (hl : ∀ c ∈ l, isSpace c = true) (ht : ∀ c u, t = c :: u → isSpace c = false) : (l ++ t).dropWhile isSpace = t := by
  induction l with
  | nil =>
    cases t with
    | nil => rfl
    | cons c u => simp [List.dropWhile, ht c u rfl]
  | cons c l ih => simpa [List.dropWhile, hl c (by simp)] using ih fun x hx => hl x (by simp [hx])

theorem spaces_split (s : Str) : ∃ l, (∀ c ∈ l, isSpace c = true) ∧ s = l ++ s.dropWhile isSpace := by
  induction s with
  | nil => exact ⟨[], by simp, rfl⟩
  | cons c s ih =>
    cases hc : isSpace c with
    | false => exact ⟨[], by simp, by simp [List.dropWhile, hc]⟩
    | true =>
      obtain ⟨l, h1, h2⟩ := ih
      refine ⟨c :: l, ?_, by simpa [List.dropWhile, hc] using h2⟩
      intro x hx
      rcases List.mem_cons.1 hx with rfl | hx
      · exact hc
      · exact h1 x hx

theorem strip_split (s : Str) : ∃ l r, (∀ c ∈ l, isSpace c = true) ∧ (∀ c ∈ r, isSpace c = true) ∧ s = l ++ strip s ++ r := by
  obtain ⟨l, h1, h2⟩ := spaces_split s
  obtain ⟨r, h3, h4⟩ := spaces_split (s.dropWhile isSpace).reverse
  refine ⟨l, r.reverse, h1, by simpa using h3, ?_⟩
  have e : s.dropWhile isSpace = ((s.dropWhile isSpace).reverse.dropWhile isSpace).reverse ++ r.reverse := by
    have := congrArg List.reverse h4
    simpa using this
  rw [strip, rstripBy, lstripBy, List.append_assoc, ← e]
  exact h2

theorem strip_spaces (l t r : Str) (hl : ∀ c ∈ l, isSpace c = true) (hr : ∀ c ∈ r, isSpace c = true) (h1 : ∃ c u, t = c :: u ∧ isSpace c = false)
    (h2 : ∃ u c, t = u ++ [c] ∧ isSpace c = false) : strip (l ++ t ++ r) = t := by
  obtain ⟨c, u, e1, hc⟩ := h1
  obtain ⟨u', c', e2, hc'⟩ := h2
  have a : lstripBy isSpace (l ++ t ++ r) = t ++ r := by
    rw [lstripBy, List.append_assoc]
    refine dropWhile_blank l _ hl fun x v hx => ?_
    rw [e1, List.cons_append, List.cons.injEq] at hx
    rw [← hx.1]; exact hc
  rw [strip, a, rstripBy, List.reverse_append, dropWhile_blank r.reverse _ (by simpa using hr), List.reverse_reverse]
  intro x v hx
  rw [e2, List.reverse_append, List.reverse_singleton, List.singleton_append, List.cons.injEq] at hx
  rw [← hx.1]; exact hc'

/-- C12: the texts integer leaves convert, and to what, exactly (before their ranges are looked at).  (Only ASCII digits and
the white space of `isSpace` are modelled.) -/
theorem C12_int_text (s : Str) (n : Int) : intOfStr s = .ok n ↔ WrittenInt s n := by
  have h : intOfStr s = .ok n ↔ parseSigned (strip s) = some n := by
    unfold intOfStr
    cases parseSigned (strip s) <;> simp
  rw [h, parseSigned_iff]
  constructor
  · rintro ⟨sg, gs, a, b, c, d, e⟩
    obtain ⟨l, r, h1, h2, h3⟩ := strip_split s
    exact ⟨l, sg, r, gs, h1, h2, a, b, c, by rw [← d]; exact h3, e⟩
  · rintro ⟨l, sg, r, gs, h1, h2, a, b, c, rfl, e⟩
    refine ⟨sg, gs, a, b, c, ?_, e⟩
    obtain ⟨⟨x, t, e1, hx⟩, t', y, e2, hy⟩ := grouped_ends gs b c
    refine strip_spaces l _ r h1 h2 ?_ ⟨sg ++ t', y, by rw [e2, List.append_assoc], isSpace_of_isDigit hy⟩
    rcases a with rfl | rfl | rfl
    · exact ⟨x, t, by simpa using e1, isSpace_of_isDigit hx⟩
    · exact ⟨'+', grouped gs, rfl, by decide⟩
    · exact ⟨'-', grouped gs, rfl, by decide⟩

/-- C12, and C09 for texts: a leaf of a built-in integer type takes exactly the texts of the integers within its bounds, and
holds that integer. -/
theorem C12_int_leaf_text (rx : Str → Str → Bool) (t : IntTy) (lo hi : Int) (hb : builtinBounds t.name = some (lo, hi)) (s : Str) (x : PyVal) :
    setLeaf rx t.rty (.str s) = .ok x ↔ ∃ n, WrittenInt s n ∧ lo ≤ n ∧ n ≤ hi ∧ x = .int n := by
  constructor
  · intro h
    obtain ⟨n, h1, h2, h3, h4⟩ := C12_builtin_int_partial rx t lo hi hb (.str s) x (.inr ⟨s, rfl⟩) h
    exact ⟨n, (C12_int_text s n).1 h1, h3, h4, h2⟩
  · rintro ⟨n, h1, h2, h3, rfl⟩
    rw [C09_builtin_int_exact rx t lo hi hb (.str s) n (.inr ⟨s, rfl, (C12_int_text s n).2 h1⟩), if_pos ⟨h2, h3⟩]

/-- ` -1_000` followed by a line feed is -1000; `1__0`, `_1` and `1_` are no integers. -/
example : WrittenInt py!" -1_000\n" (-1000) ∧ intOfStr py!"1__0" = .error .valueError ∧ intOfStr py!"_1" = .error .valueError ∧ intOfStr py!"1_" = .error .valueError :=
  ⟨⟨[' '], ['-'], ['\n'], [py!"1", py!"000"], by decide, by decide, by decide, by decide, by decide, by decide, by decide⟩, by decide, by decide, by decide⟩

end Pyb
