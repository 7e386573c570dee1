import Verif.Model.GenValue
import Verif.Lemmas.GenText
import Verif.Lemmas.Str

namespace Pyb
open Py

/-! ## Integers -/

theorem natStrAux_head : ∀ (f n : Nat), n < f → 0 < n → ∃ c r, natStrAux f n = c :: r ∧ c ≠ '0'
  | 0, n, h, _ => by omega
  | f + 1, n, h, hn => by
    simp only [natStrAux]
    split
    · rename_i h10
      refine ⟨_, [], rfl, ?_⟩
      have : ∀ n : Nat, n < 10 → 0 < n → digitChar n ≠ '0' := by decide
      exact this n h10 hn
    · obtain ⟨c, r, e, hc⟩ := natStrAux_head f (n / 10) (by omega) (by omega)
      exact ⟨c, r ++ [digitChar (n % 10)], by rw [e]; rfl, hc⟩

theorem numChar_digit {c : Char} (h : isDigit c = true) : numChar c = true := by simp [numChar, h]

theorem takeWhile_num (p : Char → Bool) : ∀ (w rest : Str), (∀ c ∈ w, p c = true) → (∀ c r, rest = c :: r → p c = false) →
    (w ++ rest).takeWhile p = w ∧ (w ++ rest).dropWhile p = rest
  | [], rest, _, h => by
    cases rest with
    | nil => simp
    | cons c r => simp [List.takeWhile_cons, List.dropWhile_cons, h c r rfl]
  | c :: w, rest, hw, h => by
    have hc := hw c (by simp)
    obtain ⟨h1, h2⟩ := takeWhile_num p w rest (fun c hc => hw c (by simp [hc])) h
    simp [List.takeWhile_cons, List.dropWhile_cons, hc, h1, h2]

theorem readNat_natStr (n : Nat) : readNat (natStr n) = some n := by
  by_cases hn : n = 0
  · subst hn; rfl
  · obtain ⟨c, r, e, hc⟩ := natStrAux_head (n + 1) n (by omega) (by omega)
    have hs : natStr n = c :: r := e
    have hall : (c :: r).all isDigit = true := by
      rw [← hs, List.all_eq_true]
      exact natStr_digits n
    have hv : decVal (c :: r) = n := by
      rw [← hs]
      exact natStr_value n
    rw [hs, readNat, if_neg (fun h => hc h.1), if_neg (fun h => hc h.1), if_pos hall, hv]

/-- What follows does not belong to the number. -/
def NumStop (rest : Str) : Prop := ∀ c r, rest = c :: r → numChar c = false

theorem readInt_neg {t : Str} : readInt ('-' :: t) = (readNat (t.takeWhile numChar)).map fun n : Nat => (-(n : Int), t.dropWhile numChar) := rfl
theorem readInt_pos {t : Str} : readInt ('+' :: t) = (readNat (t.takeWhile numChar)).map fun n : Nat => ((n : Int), t.dropWhile numChar) := rfl
theorem readInt_bare {t : Str} (h1 : t.head? ≠ some '-') (h2 : t.head? ≠ some '+') :
    readInt t = (readNat (t.takeWhile numChar)).map fun n : Nat => ((n : Int), t.dropWhile numChar) := by
  cases t with
  | nil => rfl
  | cons c t =>
    unfold readInt
    split
    · rename_i e; simp at e; exact absurd (by simp [e.1]) h1
    · rename_i e; simp at e; exact absurd (by simp [e.1]) h2
    · rfl

theorem natStr_cons (n : Nat) : ∃ c r, natStr n = c :: r ∧ isDigit c = true := by
  cases h : natStr n with
  | nil => exact absurd h (natStr_ne_nil n)
  | cons c r => exact ⟨c, r, rfl, natStr_digits n c (by rw [h]; simp)⟩

theorem isDigit_not {c : Char} (h : isDigit c = true) : ∀ d : Char, (d.toNat < 48 ∨ 57 < d.toNat) → c ≠ d := by
  rintro d hd rfl
  simp [isDigit] at h
  omega

theorem readInt_intStr (n : Int) (rest : Str) (hr : NumStop rest) : readInt (intStr n ++ rest) = some (n, rest) := by
  cases n with
  | ofNat n =>
    obtain ⟨c, r, e, hc⟩ := natStr_cons n
    have h1 : (natStr n ++ rest).head? = some c := by rw [e]; rfl
    obtain ⟨h2, h3⟩ := takeWhile_num numChar (natStr n) rest (fun c hc => numChar_digit (natStr_digits n c hc)) hr
    rw [intStr, readInt_bare (by rw [h1]; simpa using isDigit_not hc '-' (by decide)) (by rw [h1]; simpa using isDigit_not hc '+' (by decide)), h2, h3,
      readNat_natStr]
    rfl
  | negSucc n =>
    obtain ⟨h2, h3⟩ := takeWhile_num numChar (natStr (n + 1)) rest (fun c hc => numChar_digit (natStr_digits _ c hc)) hr
    rw [intStr, List.cons_append, readInt_neg, h2, h3, readNat_natStr]
    rfl

/-! ## Lists and dicts -/

mutual
def Lit.size : Lit → Nat
  | .none => 1
  | .int _ => 1
  | .str _ => 1
  | .list xs => xs.size + 1
  | .dict xs => xs.size + 1
def Lits.size : Lits → Nat
  | .nil => 1
  | .cons x xs => x.size + xs.size + 1
def LitPairs.size : LitPairs → Nat
  | .nil => 1
  | .cons _ v xs => v.size + xs.size + 1
end

/-- What follows a value. -/
def LitStop (rest : Str) : Prop := ∃ c r, rest = c :: r ∧ c ∈ [',', ')', ']', '}']

theorem LitStop.num {rest : Str} (h : LitStop rest) : NumStop rest := by
  obtain ⟨c, r, rfl, hc⟩ := h
  intro c' r' e
  simp only [List.cons.injEq] at e
  rw [← e.1]
  simp only [List.mem_cons, List.not_mem_nil, or_false] at hc
  rcases hc with rfl | rfl | rfl | rfl <;> decide

theorem LitStop.quote {rest : Str} (h : LitStop rest) : rest.head? ≠ some '\'' := by
  obtain ⟨c, r, rfl, hc⟩ := h
  simp only [List.mem_cons, List.not_mem_nil, or_false] at hc
  rcases hc with rfl | rfl | rfl | rfl <;> simp

/-- How a value begins. -/
def LitStart (c : Char) : Prop := c ≠ ' ' ∧ c ≠ '\t' ∧ c ≠ '\n' ∧ c ≠ ']' ∧ c ≠ '}'

theorem Lit.repr_head (p : Char → Bool) (v : Lit) : ∃ c r, v.repr p = c :: r ∧ LitStart c := by
  cases v with
  | none => exact ⟨_, _, rfl, by unfold LitStart; decide⟩
  | int n =>
    cases n with
    | ofNat n =>
      obtain ⟨c, r, e, hc⟩ := natStr_cons n
      refine ⟨c, r, e, ?_⟩
      exact ⟨isDigit_not hc _ (by decide), isDigit_not hc _ (by decide), isDigit_not hc _ (by decide), isDigit_not hc _ (by decide), isDigit_not hc _ (by decide)⟩
    | negSucc n => exact ⟨'-', _, rfl, by unfold LitStart; decide⟩
  | str s =>
    refine ⟨reprQuote s, _, rfl, ?_⟩
    rcases reprQuote_or s with h | h <;> rw [h] <;> unfold LitStart <;> decide
  | list xs => exact ⟨_, _, rfl, by unfold LitStart; decide⟩
  | dict xs => exact ⟨_, _, rfl, by unfold LitStart; decide⟩

theorem skipWs_start {c : Char} {r : Str} (h : c ≠ ' ' ∧ c ≠ '\t' ∧ c ≠ '\n') : skipWs (c :: r) = c :: r := by
  simp [skipWs, List.dropWhile_cons, h.1, h.2.1, h.2.2]

theorem skipWs_space (r : Str) : skipWs (' ' :: r) = skipWs r := by simp [skipWs, List.dropWhile_cons]

theorem readVal_str (names : Str → Option Char) (p : Char → Bool) (f : Nat) (s rest : Str) (hr : rest.head? ≠ some '\'') :
    readVal names (f + 1) (pyRepr p s ++ rest) = some (.str s, rest) := by
  have h1 : (pyRepr p s ++ rest).head? = some (reprQuote s) := rfl
  simp only [readVal, h1]
  rw [if_pos (reprQuote_or s), readLit_repr names p s rest fun _ => hr]
  rfl

theorem readVal_int (names : Str → Option Char) (f : Nat) (n : Int) (rest : Str) (hr : NumStop rest) :
    readVal names (f + 1) (intStr n ++ rest) = some (.int n, rest) := by
  have h1 : ∃ c r, intStr n ++ rest = c :: r ∧ c ≠ '"' ∧ c ≠ '\'' ∧ c ≠ '[' ∧ c ≠ '{' ∧ c ≠ 'N' := by
    cases n with
    | ofNat n =>
      obtain ⟨c, r, e, hc⟩ := natStr_cons n
      refine ⟨c, r ++ rest, by rw [intStr, e]; rfl, ?_⟩
      exact ⟨isDigit_not hc _ (by decide), isDigit_not hc _ (by decide), isDigit_not hc _ (by decide), isDigit_not hc _ (by decide), isDigit_not hc _ (by decide)⟩
    | negSucc n => exact ⟨'-', _, rfl, by decide⟩
  obtain ⟨c, r, e, c1, c2, c3, c4, c5⟩ := h1
  have hp : (py!"None").isPrefixOf (intStr n ++ rest) = false := by
    rw [e]
    have : ('N' == c) = false := by simpa using Ne.symm c5
    simp [List.isPrefixOf, this]
  simp only [readVal, hp]
  rw [e]
  simp only [List.head?_cons, c1, c2, c3, c4, or_self, if_false, Bool.false_eq_true]
  rw [← e, readInt_intStr n rest hr]
  rfl

theorem Lits.more_cons (p : Char → Bool) (x : Lit) (xs : Lits) : (Lits.cons x xs).more p = ',' :: ' ' :: (Lits.cons x xs).repr p := by
  simp [Lits.more, Lits.repr]

theorem LitPairs.more_cons (p : Char → Bool) (k : Str) (v : Lit) (xs : LitPairs) :
    (LitPairs.cons k v xs).more p = ',' :: ' ' :: (LitPairs.cons k v xs).repr p := by
  simp [LitPairs.more, LitPairs.repr]

mutual
theorem readVal_repr (names : Str → Option Char) (p : Char → Bool) : ∀ (v : Lit) (f : Nat) (rest : Str), v.size ≤ f → LitStop rest →
    readVal names f (v.repr p ++ rest) = some (v, rest)
  | .none, f, rest, hf, _ => by
    cases f with
    | zero => simp [Lit.size] at hf
    | succ f =>
      have : py!"None".isPrefixOf (py!"None" ++ rest) = true := by simp [List.isPrefixOf]
      simp [readVal, Lit.repr]
  | .int n, f, rest, hf, hr => by
    cases f with
    | zero => simp [Lit.size] at hf
    | succ f => exact readVal_int names f n rest hr.num
  | .str s, f, rest, hf, hr => by
    cases f with
    | zero => simp [Lit.size] at hf
    | succ f => exact readVal_str names p f s rest hr.quote
  | .list xs, f, rest, hf, hr => by
    cases f with
    | zero => simp [Lit.size] at hf
    | succ f =>
      have ih := readItems_repr names p xs f rest (by simp only [Lit.size] at hf; omega)
      have e : (Lit.list xs).repr p ++ rest = '[' :: (xs.repr p ++ rest) := rfl
      simp only [e, readVal, List.head?_cons, List.tail_cons, ih]
      simp
  | .dict xs, f, rest, hf, hr => by
    cases f with
    | zero => simp [Lit.size] at hf
    | succ f =>
      have ih := readPairs_repr names p xs f rest (by simp only [Lit.size] at hf; omega)
      have e : (Lit.dict xs).repr p ++ rest = '{' :: (xs.repr p ++ rest) := rfl
      simp only [e, readVal, List.head?_cons, List.tail_cons, ih]
      simp
theorem readItems_repr (names : Str → Option Char) (p : Char → Bool) : ∀ (xs : Lits) (f : Nat) (rest : Str), xs.size ≤ f →
    readItems names f (xs.repr p ++ rest) = some (xs, rest)
  | .nil, f, rest, hf => by
    cases f with
    | zero => simp [Lits.size] at hf
    | succ f =>
      have : skipWs (']' :: rest) = ']' :: rest := skipWs_start (by decide)
      simp [readItems, Lits.repr, this]
  | .cons x xs, f, rest, hf => by
    cases f with
    | zero => simp [Lits.size] at hf
    | succ f =>
      have hsz : x.size ≤ f ∧ xs.size ≤ f := by simp only [Lits.size] at hf; omega
      obtain ⟨c, r, e, hc⟩ := Lit.repr_head p x
      have e0 : (Lits.cons x xs).repr p ++ rest = x.repr p ++ (xs.more p ++ rest) := by simp [Lits.repr]
      have e1 : x.repr p ++ (xs.more p ++ rest) = c :: (r ++ (xs.more p ++ rest)) := by rw [e]; rfl
      have e2 : skipWs (x.repr p ++ (xs.more p ++ rest)) = x.repr p ++ (xs.more p ++ rest) := by
        rw [e1]
        exact skipWs_start ⟨hc.1, hc.2.1, hc.2.2.1⟩
      have e3 : (x.repr p ++ (xs.more p ++ rest)).head? = some c := by rw [e1]; rfl
      have hstop : LitStop (xs.more p ++ rest) := by
        cases xs with
        | nil => exact ⟨']', rest, rfl, by decide⟩
        | cons y ys => exact ⟨',', _, by rw [Lits.more_cons]; rfl, by decide⟩
      have ih := readVal_repr names p x f (xs.more p ++ rest) hsz.1 hstop
      rw [e0, readItems, e2, e3]
      rw [if_neg (by simpa using hc.2.2.2.1), ih]
      simp only [Option.bind_some]
      cases xs with
      | nil =>
        have : skipWs ((Lits.nil).more p ++ rest) = ']' :: rest := skipWs_start (by decide)
        rw [this]
        simp
      | cons y ys =>
        have h1 : (Lits.cons y ys).more p ++ rest = ',' :: ' ' :: ((Lits.cons y ys).repr p ++ rest) := by rw [Lits.more_cons]; rfl
        have h2 : skipWs (',' :: ' ' :: ((Lits.cons y ys).repr p ++ rest)) = ',' :: ' ' :: ((Lits.cons y ys).repr p ++ rest) := skipWs_start (by decide)
        have ih2 := readItems_repr names p (.cons y ys) f rest hsz.2
        have h3 : readItems names f (' ' :: ((Lits.cons y ys).repr p ++ rest)) = readItems names f ((Lits.cons y ys).repr p ++ rest) := by
          cases f with
          | zero => rfl
          | succ f => simp only [readItems, skipWs_space]
        rw [h1, h2]
        simp only [List.head?_cons, if_true, List.tail_cons, h3, ih2]
        rfl
theorem readPairs_repr (names : Str → Option Char) (p : Char → Bool) : ∀ (xs : LitPairs) (f : Nat) (rest : Str), xs.size ≤ f →
    readPairs names f (xs.repr p ++ rest) = some (xs, rest)
  | .nil, f, rest, hf => by
    cases f with
    | zero => simp [LitPairs.size] at hf
    | succ f =>
      have : skipWs ('}' :: rest) = '}' :: rest := skipWs_start (by decide)
      simp [readPairs, LitPairs.repr, this]
  | .cons k v xs, f, rest, hf => by
    cases f with
    | zero => simp [LitPairs.size] at hf
    | succ f =>
      have hsz : v.size ≤ f ∧ xs.size ≤ f := by simp only [LitPairs.size] at hf; omega
      obtain ⟨c, r, e, hc⟩ := Lit.repr_head p (.str k)
      obtain ⟨c', r', e', hc'⟩ := Lit.repr_head p v
      replace e : pyRepr p k = c :: r := e
      have e0 : (LitPairs.cons k v xs).repr p ++ rest = pyRepr p k ++ (':' :: ' ' :: (v.repr p ++ (xs.more p ++ rest))) := by simp [LitPairs.repr]
      generalize hT : v.repr p ++ (xs.more p ++ rest) = T at e0
      have e1 : pyRepr p k ++ (':' :: ' ' :: T) = c :: (r ++ (':' :: ' ' :: T)) := by rw [e]; rfl
      have e2 : skipWs (pyRepr p k ++ (':' :: ' ' :: T)) = pyRepr p k ++ (':' :: ' ' :: T) := by
        rw [e1]
        exact skipWs_start ⟨hc.1, hc.2.1, hc.2.2.1⟩
      have e3 : (pyRepr p k ++ (':' :: ' ' :: T)).head? = some c := by rw [e1]; rfl
      have e4 : skipWs (':' :: ' ' :: T) = ':' :: ' ' :: T := skipWs_start (by decide)
      have e5 : skipWs (' ' :: T) = T := by
        rw [skipWs_space, ← hT, e']
        exact skipWs_start ⟨hc'.1, hc'.2.1, hc'.2.2.1⟩
      have hstop : LitStop (xs.more p ++ rest) := by
        cases xs with
        | nil => exact ⟨'}', rest, rfl, by decide⟩
        | cons k y ys => exact ⟨',', _, by rw [LitPairs.more_cons]; rfl, by decide⟩
      have ih := readVal_repr names p v f (xs.more p ++ rest) hsz.1 hstop
      rw [hT] at ih
      rw [e0, readPairs, e2, e3, if_neg (by simpa using hc.2.2.2.2), readLit_repr names p k _ (fun _ => by simp)]
      simp only [Option.bind_some, e4, List.head?_cons, if_true, List.tail_cons, e5, ih]
      cases xs with
      | nil =>
        have : skipWs ((LitPairs.nil).more p ++ rest) = '}' :: rest := skipWs_start (by decide)
        rw [this]
        simp
      | cons k' y ys =>
        have h1 : (LitPairs.cons k' y ys).more p ++ rest = ',' :: ' ' :: ((LitPairs.cons k' y ys).repr p ++ rest) := by rw [LitPairs.more_cons]; rfl
        have h2 : skipWs (',' :: ' ' :: ((LitPairs.cons k' y ys).repr p ++ rest)) = ',' :: ' ' :: ((LitPairs.cons k' y ys).repr p ++ rest) :=
          skipWs_start (by decide)
        have ih2 := readPairs_repr names p (.cons k' y ys) f rest hsz.2
        have h3 : readPairs names f (' ' :: ((LitPairs.cons k' y ys).repr p ++ rest)) = readPairs names f ((LitPairs.cons k' y ys).repr p ++ rest) := by
          cases f with
          | zero => rfl
          | succ f => simp only [readPairs, skipWs_space]
        rw [h1, h2]
        simp only [List.head?_cons, if_true, List.tail_cons, h3, ih2]
        rfl
end

mutual
theorem Lit.repr_line (p : Char → Bool) : ∀ (v : Lit), ∀ c ∈ v.repr p, c ≠ '\n' ∧ c ≠ '\r'
  | .none => by simp only [Lit.repr]; decide
  | .int n => by
    intro c hc
    cases n with
    | ofNat n =>
      have := natStr_digits n c hc
      exact ⟨isDigit_not this _ (by decide), isDigit_not this _ (by decide)⟩
    | negSucc n =>
      rcases List.mem_cons.1 hc with rfl | hc
      · decide
      · have := natStr_digits _ c hc
        exact ⟨isDigit_not this _ (by decide), isDigit_not this _ (by decide)⟩
  | .str s => pyRepr_line p s
  | .list xs => by
    intro c hc
    rcases List.mem_cons.1 hc with rfl | hc
    · decide
    · exact Lits.repr_line p xs c hc
  | .dict xs => by
    intro c hc
    rcases List.mem_cons.1 hc with rfl | hc
    · decide
    · exact LitPairs.repr_line p xs c hc
theorem Lits.repr_line (p : Char → Bool) : ∀ (xs : Lits), ∀ c ∈ xs.repr p, c ≠ '\n' ∧ c ≠ '\r'
  | .nil => by simp only [Lits.repr]; decide
  | .cons x xs => by
    intro c hc
    simp only [Lits.repr, List.mem_append] at hc
    rcases hc with hc | hc
    · exact Lit.repr_line p x c hc
    · cases xs with
      | nil => simp only [Lits.more, List.mem_singleton] at hc; subst hc; decide
      | cons y ys =>
        rw [Lits.more_cons] at hc
        simp only [List.mem_cons] at hc
        rcases hc with rfl | rfl | hc
        · decide
        · decide
        · exact Lits.repr_line p (.cons y ys) c hc
theorem LitPairs.repr_line (p : Char → Bool) : ∀ (xs : LitPairs), ∀ c ∈ xs.repr p, c ≠ '\n' ∧ c ≠ '\r'
  | .nil => by simp only [LitPairs.repr]; decide
  | .cons k v xs => by
    intro c hc
    simp only [LitPairs.repr, List.mem_append] at hc
    rcases hc with ((hc | hc) | hc) | hc
    · exact pyRepr_line p k c hc
    · revert c; decide
    · exact Lit.repr_line p v c hc
    · cases xs with
      | nil => simp only [LitPairs.more, List.mem_singleton] at hc; subst hc; decide
      | cons k y ys =>
        rw [LitPairs.more_cons] at hc
        simp only [List.mem_cons] at hc
        rcases hc with rfl | rfl | hc
        · decide
        · decide
        · exact LitPairs.repr_line p (.cons k y ys) c hc
end

end Pyb
