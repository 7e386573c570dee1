import Verif.Spec.DecimalText
import Verif.Props.IntText
import Verif.Lemmas.DecText

/-! # C85: which texts are decimals -/

namespace Pyb
open Py Spec

theorem decOfUnsigned_read {ip fp point ex : Str} {n : Int} (hip : ∀ c ∈ ip, isDigit c = true)
    (hfp : ∀ c ∈ fp, isDigit c = true) (hne : ip ++ fp ≠ []) (hpt : point = '.' :: fp ∨ (point = [] ∧ fp = []))
    (hex : (ex = [] ∧ n = 0) ∨ ∃ c e, (c = 'E' ∨ c = 'e') ∧ ex = c :: e ∧ parseSigned e = some n) :
    decOfUnsigned (ip ++ (point ++ ex)) = .ok (decVal (ip ++ fp), n - fp.length) := by
  have hE : ∀ c, isDigit c = true ∨ c = '.' → (c ≠ 'E' && c ≠ 'e') = true := by
    intro c hc
    rcases hc with hc | rfl
    · simp [digit_ne hc (show isDigit 'E' = false by decide), digit_ne hc (show isDigit 'e' = false by decide)]
    · decide
  have hm : ∀ c ∈ ip ++ point, (c ≠ 'E' && c ≠ 'e') = true := by
    intro c hc
    apply hE
    rcases List.mem_append.1 hc with hc | hc
    · exact .inl (hip c hc)
    · rcases hpt with rfl | ⟨rfl, rfl⟩
      · rcases List.mem_cons.1 hc with rfl | hc
        · exact .inr rfl
        · exact .inl (hfp c hc)
      · simp at hc
  have hh : ∀ x, ex.head? = some x → (x ≠ 'E' && x ≠ 'e') = false := by
    intro x hx
    rcases hex with ⟨rfl, _⟩ | ⟨c, e, hc, rfl, _⟩
    · simp at hx
    · simp at hx; subst hx; rcases hc with rfl | rfl <;> decide
  obtain ⟨t1, d1⟩ := takeWhile_append_of hm hh
  have t2 : (ip ++ point).takeWhile (· ≠ '.') = ip ∧ (ip ++ point).dropWhile (· ≠ '.') = point := by
    apply takeWhile_append_of
    · intro c hc; simpa using digit_ne (hip c hc) (show isDigit '.' = false by decide)
    · intro x hx
      rcases hpt with rfl | ⟨rfl, rfl⟩
      · simp at hx; subst hx; decide
      · simp at hx
  have tl : point.tail = fp := by
    rcases hpt with rfl | ⟨rfl, rfl⟩ <;> rfl
  rw [← List.append_assoc]
  simp only [decOfUnsigned, t1, d1, t2.1, t2.2, tl]
  rw [if_neg]
  · rcases hex with ⟨rfl, rfl⟩ | ⟨c, e, hc, rfl, he⟩
    · simp
    · simp [he]
  · simp only [not_or]
    refine ⟨hne, ?_⟩
    simp only [Bool.not_eq_true', Bool.not_eq_false, List.all_eq_true]
    intro c hc
    rcases List.mem_append.1 hc with hc | hc
    · exact hip c hc
    · exact hfp c hc

theorem dropWhile_first {α} (p : α → Bool) : ∀ (s : List α) (c : α) (r : List α), s.dropWhile p = c :: r → p c = false
  | [], _, _, h => by simp at h
  | x :: s, c, r, h => by
    cases hx : p x with
    | true => rw [List.dropWhile_cons_of_pos hx] at h; exact dropWhile_first p s c r h
    | false =>
      rw [List.dropWhile_cons_of_neg (by simp [hx])] at h
      rw [← (List.cons.inj h).1]; exact hx

theorem decOfUnsigned_sound (s : Str) (m : Nat) (k : Int) (h : decOfUnsigned s = .ok (m, k)) :
    ∃ ip fp point ex n, (∀ c ∈ ip, isDigit c = true) ∧ (∀ c ∈ fp, isDigit c = true) ∧ ip ++ fp ≠ [] ∧
      (point = '.' :: fp ∨ (point = [] ∧ fp = [])) ∧
      ((ex = [] ∧ n = 0) ∨ ∃ c e, (c = 'E' ∨ c = 'e') ∧ ex = c :: e ∧ parseSigned e = some n) ∧
      s = ip ++ (point ++ ex) ∧ m = decVal (ip ++ fp) ∧ k = n - fp.length := by
  have s1 := List.takeWhile_append_dropWhile (p := fun c => (c ≠ 'E' && c ≠ 'e')) (l := s)
  have s2 := List.takeWhile_append_dropWhile (p := fun c : Char => decide (c ≠ '.')) (l := s.takeWhile (fun c => (c ≠ 'E' && c ≠ 'e')))
  have f1 := dropWhile_first (fun c => (c ≠ 'E' && c ≠ 'e')) s
  have f2 := dropWhile_first (fun c : Char => decide (c ≠ '.')) (s.takeWhile (fun c => (c ≠ 'E' && c ≠ 'e')))
  simp only [decOfUnsigned] at h
  generalize s.dropWhile (fun c => (c ≠ 'E' && c ≠ 'e')) = ex at *
  generalize s.takeWhile (fun c => (c ≠ 'E' && c ≠ 'e')) = body at *
  generalize body.takeWhile (fun c : Char => decide (c ≠ '.')) = ip at *
  generalize body.dropWhile (fun c : Char => decide (c ≠ '.')) = point at *
  split at h
  · simp at h
  · next hd =>
    simp only [not_or] at hd
    obtain ⟨hne, hall⟩ := hd
    simp only [Bool.not_eq_true', Bool.not_eq_false, List.all_eq_true] at hall
    have hip : ∀ c ∈ ip, isDigit c = true := fun c hc => hall c (by simp [hc])
    have hfp : ∀ c ∈ point.tail, isDigit c = true := fun c hc => hall c (List.mem_append.2 (.inr hc))
    have hpt : point = '.' :: point.tail ∨ (point = [] ∧ point.tail = []) := by
      cases point with
      | nil => exact .inr ⟨rfl, rfl⟩
      | cons c r =>
        have := f2 c r rfl
        have hc : c = '.' := by simpa using this
        exact .inl (by rw [hc]; rfl)
    have hs : s = ip ++ (point ++ ex) := by rw [← s1, ← s2, List.append_assoc]
    cases ex with
    | nil =>
      simp only [Except.ok.injEq, Prod.mk.injEq] at h
      exact ⟨ip, point.tail, point, [], 0, hip, hfp, hne, hpt, .inl ⟨rfl, rfl⟩, hs, h.1.symm, by omega⟩
    | cons c e =>
      have hc : c = 'E' ∨ c = 'e' := by
        have := f1 c e rfl
        by_cases h1 : c = 'E'
        · exact .inl h1
        · refine .inr ?_
          simpa [h1] using this
      cases hp : parseSigned e with
      | none => simp [hp] at h
      | some n =>
        simp only [hp, Except.ok.injEq, Prod.mk.injEq] at h
        exact ⟨ip, point.tail, point, c :: e, n, hip, hfp, hne, hpt, .inr ⟨c, e, hc, rfl, hp⟩, hs, h.1.symm, h.2.symm⟩

theorem signed_digits (e : Str) (n : Int) (hu : '_' ∉ e) : parseSigned e = some n ↔
    ∃ sg ds, IsSign sg ∧ ds ≠ [] ∧ (∀ d ∈ ds, isDigit d = true) ∧ e = sg ++ ds ∧ n = withSign sg (digitsValue ds) := by
  rw [parseSigned_iff]
  constructor
  · rintro ⟨sg, gs, a, b, c, rfl, d⟩
    cases gs with
    | nil => exact absurd rfl b
    | cons g gs =>
      cases gs with
      | nil => exact ⟨sg, g, a, (c g (by simp)).1, (c g (by simp)).2, rfl, by simpa [withSign] using d⟩
      | cons g' gs => exact absurd (by rw [grouped_cons]; simp) hu
  · rintro ⟨sg, ds, a, b, c, rfl, d⟩
    exact ⟨sg, [ds], a, by simp, by simpa using ⟨b, c⟩, rfl, by simpa [withSign] using d⟩

theorem exponent_iff (ex : Str) (n : Int) (hu : '_' ∉ ex) :
    ((ex = [] ∧ n = 0) ∨ ∃ c e, (c = 'E' ∨ c = 'e') ∧ ex = c :: e ∧ parseSigned e = some n) ↔ WrittenExponent ex n := by
  unfold WrittenExponent
  constructor
  · rintro (h | ⟨c, e, hc, rfl, hp⟩)
    · exact .inl h
    · obtain ⟨sg, ds, a, b, d, rfl, f⟩ := (signed_digits e n (fun h => hu (by simp [h]))).1 hp
      exact .inr ⟨c, sg, ds, hc, a, b, d, rfl, f⟩
  · rintro (h | ⟨c, sg, ds, hc, a, b, d, rfl, f⟩)
    · exact .inl h
    · exact .inr ⟨c, _, hc, rfl, (signed_digits _ n (fun h => hu (List.mem_cons_of_mem _ h))).2 ⟨sg, ds, a, b, d, rfl, f⟩⟩

theorem decVal_digits (s : Str) : decVal s = digitsValue s := rfl

/-- Without the sign. -/
theorem decOfUnsigned_iff (s : Str) (m : Nat) (k : Int) (hu : '_' ∉ s) : decOfUnsigned s = .ok (m, k) ↔
    ∃ ip fp point ex e, (∀ d ∈ ip, isDigit d = true) ∧ (∀ d ∈ fp, isDigit d = true) ∧ ip ++ fp ≠ [] ∧
      (point = '.' :: fp ∨ (point = [] ∧ fp = [])) ∧ WrittenExponent ex e ∧ s = ip ++ (point ++ ex) ∧
      m = digitsValue (ip ++ fp) ∧ k = e - fp.length := by
  constructor
  · intro h
    obtain ⟨ip, fp, point, ex, n, a, b, c, d, e, rfl, f, g⟩ := decOfUnsigned_sound s m k h
    exact ⟨ip, fp, point, ex, n, a, b, c, d, (exponent_iff ex n (fun h => hu (by simp [h]))).1 e, rfl, f, g⟩
  · rintro ⟨ip, fp, point, ex, n, a, b, c, d, e, rfl, rfl, rfl⟩
    exact decOfUnsigned_read a b c d ((exponent_iff ex n (fun h => hu (by simp [h]))).2 e)

/-- The text does not begin with a sign. -/
theorem unsigned_head {ip fp point ex : Str} (hip : ∀ d ∈ ip, isDigit d = true) (hne : ip ++ fp ≠ [])
    (hpt : point = '.' :: fp ∨ (point = [] ∧ fp = [])) : ∃ c r, ip ++ (point ++ ex) = c :: r ∧ (isDigit c = true ∨ c = '.') := by
  cases ip with
  | cons c ip => exact ⟨c, _, rfl, .inl (hip c (by simp))⟩
  | nil =>
    rcases hpt with rfl | ⟨rfl, rfl⟩
    · exact ⟨'.', _, rfl, .inr rfl⟩
    · exact absurd rfl hne

theorem decOfBare_iff (t : Str) (x : Dec) (hu : '_' ∉ t) : decOfBare t = .ok x ↔ BareDecimal t x := by
  have map_iff : ∀ (u : Str) (f : Nat → Int), (decOfUnsigned u).map (fun r => (⟨f r.1, r.2⟩ : Dec)) = .ok x ↔
      ∃ m k, decOfUnsigned u = .ok (m, k) ∧ x = ⟨f m, k⟩ := by
    intro u f
    cases decOfUnsigned u with
    | error e => simp [Except.map]
    | ok r =>
      obtain ⟨m, k⟩ := r
      simp only [Except.map, Except.ok.injEq, Prod.mk.injEq]
      constructor
      · rintro rfl; exact ⟨m, k, ⟨rfl, rfl⟩, rfl⟩
      · rintro ⟨m', k', ⟨rfl, rfl⟩, rfl⟩; rfl
  constructor
  · intro h
    unfold decOfBare at h
    split at h
    · next s =>
      obtain ⟨m, k, h1, rfl⟩ := (map_iff s (fun m => -(m : Int))).1 h
      obtain ⟨ip, fp, point, ex, e, a, b, c, d, f, rfl, rfl, rfl⟩ := (decOfUnsigned_iff s m k (fun h => hu (List.mem_cons_of_mem _ h))).1 h1
      exact ⟨['-'], ip, fp, point, ex, e, .inr (.inr rfl), a, b, c, d, f, rfl, by simp [withSign]⟩
    · next s =>
      obtain ⟨m, k, h1, rfl⟩ := (map_iff s (fun m => (m : Int))).1 h
      obtain ⟨ip, fp, point, ex, e, a, b, c, d, f, rfl, rfl, rfl⟩ := (decOfUnsigned_iff s m k (fun h => hu (List.mem_cons_of_mem _ h))).1 h1
      exact ⟨['+'], ip, fp, point, ex, e, .inr (.inl rfl), a, b, c, d, f, rfl, by simp [withSign]⟩
    · obtain ⟨m, k, h1, rfl⟩ := (map_iff t (fun m => (m : Int))).1 h
      obtain ⟨ip, fp, point, ex, e, a, b, c, d, f, g, rfl, rfl⟩ := (decOfUnsigned_iff t m k hu).1 h1
      exact ⟨[], ip, fp, point, ex, e, .inl rfl, a, b, c, d, f, g, by simp [withSign]⟩
  · rintro ⟨sg, ip, fp, point, ex, e, hs, a, b, c, d, f, rfl, rfl⟩
    have hr := (decOfUnsigned_iff (ip ++ (point ++ ex)) (digitsValue (ip ++ fp)) (e - fp.length) (fun h => hu (List.mem_append.2 (.inr h)))).2
      ⟨ip, fp, point, ex, e, a, b, c, d, f, rfl, rfl, rfl⟩
    rcases hs with rfl | rfl | rfl
    · obtain ⟨ch, r, he, hc⟩ := unsigned_head (ex := ex) a c d
      rw [List.nil_append]
      rw [he] at hr ⊢
      have e1 : ch ≠ '-' := by rcases hc with hc | rfl; exact digit_ne hc (by decide); decide
      have e2 : ch ≠ '+' := by rcases hc with hc | rfl; exact digit_ne hc (by decide); decide
      unfold decOfBare
      split
      · rename_i heq; simp at heq; exact absurd heq.1 e1
      · rename_i heq; simp at heq; exact absurd heq.1 e2
      · rw [hr]; simp [Except.map, withSign]
    · simp only [List.singleton_append, decOfBare, hr, Except.map]; simp [withSign]
    · simp only [List.singleton_append, decOfBare, hr, Except.map]; simp [withSign]

theorem isSign_bare {sg : Str} (h : IsSign sg) : ∀ c ∈ sg, isSpace c = false := by
  rcases h with rfl | rfl | rfl <;> simp <;> decide

/-- A number has no spaces. -/
theorem bareDecimal_bare {t : Str} {x : Dec} (h : BareDecimal t x) : t ≠ [] ∧ ∀ c ∈ t, isSpace c = false := by
  obtain ⟨sg, ip, fp, point, ex, e, hs, a, b, c, d, f, rfl, rfl⟩ := h
  constructor
  · obtain ⟨ch, r, he, _⟩ := unsigned_head (ex := ex) a c d
    rw [he]; simp
  · intro ch hc
    simp only [List.mem_append] at hc
    rcases hc with hc | hc | hc | hc
    · exact isSign_bare hs ch hc
    · exact isSpace_of_isDigit (a ch hc)
    · rcases d with rfl | ⟨rfl, rfl⟩
      · rcases List.mem_cons.1 hc with rfl | hc
        · decide
        · exact isSpace_of_isDigit (b ch hc)
      · simp at hc
    · rcases f with ⟨rfl, _⟩ | ⟨c0, sg', ds, h1, h2, h3, h4, rfl, _⟩
      · simp at hc
      · rcases List.mem_cons.1 hc with rfl | hc
        · rcases h1 with rfl | rfl <;> decide
        · rcases List.mem_append.1 hc with hc | hc
          · exact isSign_bare h2 ch hc
          · exact isSpace_of_isDigit (h4 ch hc)

/-- C85: the texts decimal64 leaves convert, and to what, exactly (before digits and ranges are looked at). -/
theorem C85_decimal_text (s : Str) (x : Dec) : decOfStr s = .ok x ↔ WrittenDecimal s x := by
  have hu : ∀ t : Str, '_' ∉ t.filter (· ≠ '_') := by intro t h; simp at h
  unfold decOfStr
  rw [decOfBare_iff _ _ (hu _)]
  constructor
  · intro h
    obtain ⟨l, r, h1, h2, h3⟩ := strip_split s
    exact ⟨l, strip s, r, h1, h2, h3, h⟩
  · rintro ⟨l, t, r, h1, h2, rfl, h⟩
    obtain ⟨hne, hns⟩ := bareDecimal_bare h
    have ht : ∀ c ∈ t, isSpace c = false := by
      intro c hc
      by_cases e : c = '_'
      · subst e; decide
      · exact hns c (List.mem_filter.2 ⟨hc, by simpa using e⟩)
    have hn : t ≠ [] := by rintro rfl; exact hne rfl
    have e : strip (l ++ t ++ r) = t := by
      refine strip_spaces l t r h1 h2 ?_ ⟨t.dropLast, t.getLast hn, (List.dropLast_concat_getLast hn).symm, ht _ (List.getLast_mem hn)⟩
      cases t with
      | nil => exact absurd rfl hn
      | cons c u => exact ⟨c, u, rfl, ht c (by simp)⟩
    rw [e]; exact h

example : decOfStr py!" -1_0.5e+2\n" = .ok ⟨-105, 1⟩ := by decide
example : WrittenDecimal py!" -1_0.5e+2\n" ⟨-105, 1⟩ := (C85_decimal_text _ _).1 (by decide)
example : decOfStr py!"1 0" = .error .invalidOperation := by decide

end Pyb
