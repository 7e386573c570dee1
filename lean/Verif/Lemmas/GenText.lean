import Verif.Lemmas.Literal
import Verif.Spec.GenText

namespace Pyb
open Py Spec

/-! ## Texts without escapes -/

theorem noEscapes_tail {c : Char} {s : Str} (h : NoEscapes (c :: s)) : NoEscapes s := by
  intro a b e
  exact h (c :: a) b (by rw [e]; rfl)

theorem noEscapes_cons {c : Char} {s : Str} (hc : c ≠ '\\') (h : NoEscapes s) : NoEscapes (c :: s) := by
  intro a b e
  cases a with
  | nil => simp at e; exact absurd e.1 hc
  | cons x a => simp only [List.cons_append, List.cons.injEq] at e; exact h a b e.2

theorem noEscapes_pair {d : Char} {s : Str} (hd : d ∉ escapeChars) (h : NoEscapes s) : NoEscapes ('\\' :: d :: s) := by
  have hd' : d ≠ '\\' := by rintro rfl; revert hd; decide
  intro a b e
  cases a with
  | nil => simp only [List.nil_append, List.cons.injEq, true_and] at e; exact ⟨d, s, e.symm, hd⟩
  | cons x a => simp only [List.cons_append, List.cons.injEq] at e; exact noEscapes_cons hd' h a b e.2

theorem backStep_plain {d : Char} (hd : d ∉ escapeChars) : backStep d = (['\\', d], .none) := by
  simp only [escapeChars, List.mem_cons, List.not_mem_nil, or_false, not_or] at hd
  obtain ⟨h1, h2, h3, h4, h5, h6, h7, h8, h9, h10, h11, h12, h13, h14, h15, h16, h17, h18, h19, h20, h21, h22, h23⟩ := hd
  have ho : octVal d = none := by
    unfold octVal
    rw [if_neg]
    rintro ⟨l, u⟩
    have hd : d = Char.ofNat d.toNat := (Char.ofNat_toNat d).symm
    have : d.toNat = 48 ∨ d.toNat = 49 ∨ d.toNat = 50 ∨ d.toNat = 51 ∨ d.toNat = 52 ∨ d.toNat = 53 ∨ d.toNat = 54 ∨ d.toNat = 55 := by omega
    rcases this with e | e | e | e | e | e | e | e <;> rw [e] at hd
    · exact h16 hd
    · exact h17 hd
    · exact h18 hd
    · exact h19 hd
    · exact h20 hd
    · exact h21 hd
    · exact h22 hd
    · exact h23 hd
  simp [backStep, simpleEsc, *]

theorem backStep_escape : ∀ d ∈ escapeChars, (∃ o, o.length ≤ 1 ∧ backStep d = (o, .none)) ∨ (∃ k, backStep d = ([], .hex k 0)) ∨
    backStep d = ([], .brace) ∨ ∃ v, backStep d = ([], .oct 2 v) := by
  intro d hd
  simp only [escapeChars, List.mem_cons, List.not_mem_nil, or_false] at hd
  rcases hd with rfl | rfl | rfl | rfl | rfl | rfl | rfl | rfl | rfl | rfl | rfl | rfl | rfl | rfl | rfl | rfl | rfl | rfl | rfl | rfl | rfl | rfl | rfl <;>
    first
    | exact .inl ⟨_, by decide, rfl⟩
    | exact .inr (.inl ⟨_, rfl⟩)
    | exact .inr (.inr (.inl rfl))
    | exact .inr (.inr (.inr ⟨_, rfl⟩))

theorem unesc_noEscapes (names : Str → Option Char) : ∀ s : Str, NoEscapes s → unesc names .none s = some s
  | [], _ => rfl
  | c :: s, h => by
    by_cases hc : c = '\\'
    · subst hc
      obtain ⟨d, r, rfl, hd⟩ := h [] s rfl
      have ih := unesc_noEscapes names r (noEscapes_tail (noEscapes_tail h))
      have h1 : plainStep '\\' = ([], .back) := rfl
      simp only [unesc, escStep, h1, backStep_plain hd, ih]
      rfl
    · have ih := unesc_noEscapes names s (noEscapes_tail h)
      have h1 : plainStep c = ([c], .none) := by simp [plainStep, hc]
      simp only [unesc, escStep, h1, ih]
      rfl

/-- How much longer than what is left the text can get. -/
def _root_.Py.Esc.extra : Esc → Nat
  | .back => 1
  | .oct _ _ => 1
  | _ => 0

theorem plainStep_len (c : Char) : (plainStep c).1.length + (plainStep c).2.extra ≤ 1 := by
  unfold plainStep
  split <;> simp [Esc.extra]

theorem backStep_len (c : Char) : (backStep c).1.length + (backStep c).2.extra ≤ 2 := by
  by_cases h : c ∈ escapeChars
  · rcases backStep_escape c h with ⟨o, ho, e⟩ | ⟨k, e⟩ | e | ⟨v, e⟩ <;> rw [e] <;> simp [Esc.extra]
    omega
  · rw [backStep_plain h]
    simp [Esc.extra]

theorem escStep_len (names : Str → Option Char) (m : Esc) (c : Char) (o : Str) (m' : Esc) (h : escStep names m c = some (o, m')) :
    o.length + m'.extra ≤ 1 + m.extra := by
  cases m with
  | none =>
    simp only [escStep, Option.some.injEq] at h
    have := plainStep_len c
    rw [h] at this
    simpa [Esc.extra] using this
  | back =>
    simp only [escStep, Option.some.injEq] at h
    have := backStep_len c
    rw [h] at this
    simpa [Esc.extra] using this
  | hex left val =>
    simp only [escStep] at h
    split at h
    · simp at h
    · split at h
      · rename_i d _ _
        cases hx : chrOf (val * 16 + d) with
        | none => simp [hx] at h
        | some x => simp [hx] at h; obtain ⟨rfl, rfl⟩ := h; simp [Esc.extra]
      · simp at h; obtain ⟨rfl, rfl⟩ := h; simp [Esc.extra]
  | oct left val =>
    simp only [escStep] at h
    split at h
    · simp at h; obtain ⟨rfl, rfl⟩ := h; simp [Esc.extra]
    · cases hx : chrOf val with
      | none => simp [hx] at h
      | some x =>
        simp [hx] at h
        obtain ⟨rfl, rfl⟩ := h
        have := plainStep_len c
        simp [Esc.extra] at this ⊢
        omega
  | brace =>
    simp only [escStep] at h
    split at h
    · simp at h; obtain ⟨rfl, rfl⟩ := h; simp [Esc.extra]
    · simp at h
  | name acc =>
    simp only [escStep] at h
    split at h
    · cases hx : names acc.reverse with
      | none => simp [hx] at h
      | some x => simp [hx] at h; obtain ⟨rfl, rfl⟩ := h; simp [Esc.extra]
    · simp at h; obtain ⟨rfl, rfl⟩ := h; simp [Esc.extra]

/-- Reading escapes does not make a text longer. -/
theorem unesc_len (names : Str → Option Char) : ∀ (b : Str) (m : Esc) (v : Str), unesc names m b = some v → v.length ≤ b.length + m.extra
  | [], m, v, h => by
    cases m <;> simp only [unesc, escEnd, reduceCtorEq] at h
    · cases h; simp
    · rename_i l val
      cases hx : chrOf val with
      | none => simp [hx] at h
      | some x => simp [hx] at h; subst h; simp [Esc.extra]
  | c :: b, m, v, h => by
    simp only [unesc] at h
    split at h
    · simp at h
    · rename_i o m' hs
      cases hu : unesc names m' b with
      | none => simp [hu] at h
      | some w =>
        simp only [hu, Option.map_some, Option.some.injEq] at h
        subst h
        have h1 := unesc_len names b m' w hu
        have h2 := escStep_len names m c o m' hs
        simp only [List.length_append, List.length_cons]
        omega

/-- If it does not make it shorter either, there were none. -/
theorem unesc_same (names : Str → Option Char) : ∀ (b v : Str), unesc names .none b = some v → v.length = b.length → v = b ∧ NoEscapes b
  | [], v, h, _ => by
    simp only [unesc, escEnd, Option.some.injEq] at h
    subst h
    exact ⟨rfl, fun a b e => by simp at e⟩
  | c :: b, v, h, hl => by
    by_cases hc : c = '\\'
    · subst hc
      have h1 : plainStep '\\' = ([], .back) := rfl
      cases b with
      | nil => simp [unesc, escStep, h1, escEnd] at h
      | cons d b =>
        simp only [unesc, escStep, h1] at h
        by_cases hd : d ∈ escapeChars
        · exfalso
          have hlt : (backStep d).1.length + (backStep d).2.extra < 2 := by
            rcases backStep_escape d hd with ⟨o, ho, e⟩ | ⟨k, e⟩ | e | ⟨w, e⟩ <;> rw [e] <;> simp [Esc.extra]
            omega
          cases hu : unesc names (backStep d).2 b with
          | none => simp [hu] at h
          | some w =>
            simp only [hu, Option.map_some, Option.some.injEq] at h
            subst h
            have := unesc_len names b _ w hu
            simp only [List.nil_append, List.length_append, List.length_cons] at hl
            omega
        · simp only [backStep_plain hd] at h
          cases hu : unesc names .none b with
          | none => simp [hu] at h
          | some w =>
            simp only [hu, Option.map_some, Option.some.injEq, List.nil_append] at h
            subst h
            obtain ⟨rfl, h2⟩ := unesc_same names b w hu (by simpa using hl)
            exact ⟨rfl, noEscapes_pair hd h2⟩
    · have h1 : plainStep c = ([c], .none) := by simp [plainStep, hc]
      simp only [unesc, escStep, h1] at h
      cases hu : unesc names .none b with
      | none => simp [hu] at h
      | some w =>
        simp only [hu, Option.map_some, Option.some.injEq] at h
        subst h
        obtain ⟨rfl, h2⟩ := unesc_same names b w hu (by simpa using hl)
        exact ⟨rfl, noEscapes_cons hc h2⟩

/-! ## Ends of literals -/

theorem shortEnd_split (q : Char) : ∀ (t : Str) (e : Bool) (body rest : Str), shortEnd q e t = some (body, rest) → t = body ++ q :: rest
  | [], e, body, rest, h => by cases e <;> simp [shortEnd] at h
  | c :: t, e, body, rest, h => by
    have key : ∀ e', (shortEnd q e' t).map (fun x => (c :: x.1, x.2)) = some (body, rest) → c :: t = body ++ q :: rest := by
      intro e' h
      cases hs : shortEnd q e' t with
      | none => simp [hs] at h
      | some x =>
        obtain ⟨b', r'⟩ := x
        simp [hs] at h
        obtain ⟨rfl, rfl⟩ := h
        rw [shortEnd_split q t e' b' r' hs]
        rfl
    cases e with
    | true =>
      simp only [shortEnd] at h
      split at h
      · simp at h
      · exact key _ h
    | false =>
      simp only [shortEnd] at h
      split at h
      · rename_i hc
        simp at h
        obtain ⟨rfl, rfl⟩ := h
        rw [hc]
        rfl
      · split at h
        · simp at h
        · exact key _ h

theorem longEnd_split (q : Char) : ∀ (t : Str) (e : Bool) (body rest : Str), longEnd q e t = some (body, rest) → t = body ++ q :: q :: q :: rest
  | [], e, body, rest, h => by cases e <;> simp [longEnd] at h
  | c :: t, e, body, rest, h => by
    have key : ∀ e', (longEnd q e' t).map (fun x => (c :: x.1, x.2)) = some (body, rest) → c :: t = body ++ q :: q :: q :: rest := by
      intro e' h
      cases hs : longEnd q e' t with
      | none => simp [hs] at h
      | some x =>
        obtain ⟨b', r'⟩ := x
        simp [hs] at h
        obtain ⟨rfl, rfl⟩ := h
        rw [longEnd_split q t e' b' r' hs]
        rfl
    cases e with
    | true =>
      simp only [longEnd] at h
      split at h
      · simp at h
      · exact key _ h
    | false =>
      simp only [longEnd] at h
      split at h
      · rename_i hc
        simp at h
        obtain ⟨rfl, rfl⟩ := h
        obtain ⟨rfl, hc⟩ := hc
        have := List.take_append_drop 2 t
        rw [hc] at this
        exact congrArg _ this.symm
      · split at h
        · simp at h
        · exact key _ h

/-- The characters of a body without escapes. -/
theorem shortEnd_chars (q : Char) : ∀ (t body rest : Str), (q = '"' ∨ q = '\'') → shortEnd q false t = some (body, rest) → NoEscapes body →
    ∀ c ∈ body, c ≠ q ∧ c ≠ '\n' ∧ c ≠ '\x00'
  | [], body, rest, _, h, _ => by simp [shortEnd] at h
  | c :: t, body, rest, hq, h, hn => by
    simp only [shortEnd] at h
    split at h
    · simp at h
      obtain ⟨rfl, rfl⟩ := h
      simp
    rename_i hcq
    split at h
    · simp at h
    rename_i hc
    simp only [not_or] at hc
    by_cases hb : c = '\\'
    · subst hb
      cases t with
      | nil => simp [shortEnd] at h
      | cons d t =>
        simp only [decide_true, shortEnd] at h
        split at h
        · simp at h
        rename_i hd0
        cases hs : shortEnd q false t with
        | none => simp [hs] at h
        | some x =>
          obtain ⟨b', r'⟩ := x
          simp [hs] at h
          obtain ⟨rfl, rfl⟩ := h
          obtain ⟨d', r, e, hd⟩ := hn [] _ rfl
          simp only [List.cons.injEq] at e
          obtain ⟨rfl, rfl⟩ := e
          have ih := shortEnd_chars q t _ _ hq hs (noEscapes_tail (noEscapes_tail hn))
          intro x hx
          simp only [List.mem_cons] at hx
          rcases hx with rfl | rfl | hx
          · exact ⟨hcq, hc⟩
          · refine ⟨?_, ?_, hd0⟩
            · rintro rfl
              rcases hq with h | h <;> subst h <;> revert hd <;> decide
            · rintro rfl
              revert hd; decide
          · exact ih x hx
    · simp only [hb, decide_false] at h
      cases hs : shortEnd q false t with
      | none => simp [hs] at h
      | some x =>
        obtain ⟨b', r'⟩ := x
        simp [hs] at h
        obtain ⟨rfl, rfl⟩ := h
        have ih := shortEnd_chars q t _ _ hq hs (noEscapes_tail hn)
        intro x hx
        rcases List.mem_cons.1 hx with rfl | hx
        · exact ⟨hcq, hc⟩
        · exact ih x hx

theorem shortEnd_plain (q : Char) (hq : q = '"' ∨ q = '\'') (rest : Str) : ∀ s : Str, (∀ c ∈ s, c ≠ q ∧ c ≠ '\n' ∧ c ≠ '\x00') → NoEscapes s →
    shortEnd q false (s ++ q :: rest) = some (s, rest)
  | [], _, _ => by simp [shortEnd]
  | c :: s, h, hn => by
    obtain ⟨h1, h2, h3⟩ := h c (by simp)
    by_cases hc : c = '\\'
    · subst hc
      obtain ⟨d, r, rfl, hd⟩ := hn [] s rfl
      have ih := shortEnd_plain q hq rest r (fun c hc => h c (by simp [hc])) (noEscapes_tail (noEscapes_tail hn))
      rw [List.cons_append, List.cons_append, shortEnd_escaped q hq d (h d (by simp)).2.2, ih]
      rfl
    · have ih := shortEnd_plain q hq rest s (fun c hc => h c (by simp [hc])) (noEscapes_tail hn)
      rw [← List.singleton_append, List.append_assoc, shortEnd_ordinary q [c] _ (by simpa using ⟨h1, h2, h3, hc⟩), ih]
      rfl

/-! ## Line ends -/

theorem srcNl_len : ∀ (s : Str) (b : Bool), (srcNl b s).length ≤ s.length
  | [], b => by simp [srcNl]
  | c :: s, b => by
    simp only [srcNl]
    split
    · simpa using srcNl_len s true
    · split
      · exact Nat.le_succ_of_le (srcNl_len s false)
      · simpa using srcNl_len s false

theorem srcNl_noCR : ∀ (s : Str) (b : Bool), '\r' ∉ srcNl b s
  | [], b => by simp [srcNl]
  | c :: s, b => by
    simp only [srcNl]
    split
    · have := srcNl_noCR s true
      simp [this]
    · rename_i h
      split
      · exact srcNl_noCR s false
      · have := srcNl_noCR s false
        simp only [List.mem_cons, not_or]
        exact ⟨fun e => h e.symm, this⟩

/-- A character that is no line end separates. -/
theorem srcNl_sep (q : Char) (h1 : q ≠ '\n') (h2 : q ≠ '\r') (r : Str) : ∀ (s : Str) (b : Bool), srcNl b (s ++ q :: r) = srcNl b s ++ q :: srcNl false r
  | [], b => by simp [srcNl, h1, h2]
  | c :: s, b => by
    simp only [List.cons_append, srcNl]
    split
    · rw [srcNl_sep q h1 h2 r s true]; rfl
    · split
      · rw [srcNl_sep q h1 h2 r s false]
      · rw [srcNl_sep q h1 h2 r s false]; rfl

theorem srcNl_id : ∀ s : Str, '\r' ∉ s → srcNl false s = s
  | [], _ => rfl
  | c :: s, h => by
    simp only [List.mem_cons, not_or] at h
    have := srcNl_id s h.2
    simp only [srcNl]
    rw [if_neg (fun e => h.1 e.symm), if_neg (by simp), this]

theorem srcNl_head (q : Char) (h1 : q ≠ '\n') : ∀ s : Str, (srcNl false s).head? = some q → s.head? = some q
  | [], h => by simp [srcNl] at h
  | c :: s, h => by
    simp only [srcNl] at h
    split at h
    · simp at h; exact absurd h.symm h1
    · simpa using h

/-! ## Triple quotes -/

/-- A text in which every backslash is followed by a character it belongs to. -/
inductive WellEsc : Str → Prop where
  | nil : WellEsc []
  | ord {c : Char} {s : Str} : c ≠ '\\' → c ≠ '\x00' → WellEsc s → WellEsc (c :: s)
  | pair {d : Char} {s : Str} : d ≠ '\x00' → WellEsc s → WellEsc ('\\' :: d :: s)

theorem WellEsc.append {a b : Str} (ha : WellEsc a) (hb : WellEsc b) : WellEsc (a ++ b) := by
  induction ha with
  | nil => exact hb
  | ord h1 h2 _ ih => exact .ord h1 h2 ih
  | pair h1 _ ih => exact .pair h1 ih

theorem wellEsc_clean : ∀ s : Str, Clean s → WellEsc s
  | [], _ => .nil
  | c :: s, h => .ord (h c (by simp)).1 (h c (by simp)).2 (wellEsc_clean s fun c hc => h c (by simp [hc]))

theorem wellEsc_plain : ∀ s : Str, (∀ c ∈ s, c ≠ '\x00') → NoEscapes s → WellEsc s
  | [], _, _ => .nil
  | c :: s, h, hn => by
    by_cases hc : c = '\\'
    · subst hc
      obtain ⟨d, r, rfl, hd⟩ := hn [] s rfl
      exact .pair (h d (by simp)) (wellEsc_plain r (fun c hc => h c (by simp [hc])) (noEscapes_tail (noEscapes_tail hn)))
    · exact .ord hc (h c (by simp)) (wellEsc_plain s (fun c hc => h c (by simp [hc])) (noEscapes_tail hn))

theorem wellEsc_reprChar (p : Char → Bool) (q c : Char) (hq : q = '"' ∨ q = '\'') : WellEsc (reprChar p q c) := by
  have hx : ∀ (x : Char) (k : Nat), x ≠ '\x00' → WellEsc ('\\' :: x :: hexDigits k c.toNat) := by
    intro x k hx
    refine .pair hx (wellEsc_clean _ ?_)
    intro d hd
    obtain ⟨e, he, rfl⟩ := hexDigits_mem _ _ _ hd
    obtain ⟨h1, _, _, _, _, h6⟩ := hexChar_plain he
    exact ⟨h1, h6⟩
  have e1 : ∀ x : Char, x ≠ '\x00' → WellEsc ['\\', x] := fun x hx => .pair hx .nil
  unfold reprChar
  split
  · rename_i h
    refine e1 c ?_
    rcases h with h | h
    · rcases hq with h' | h' <;> subst h' <;> subst h <;> decide
    · subst h; decide
  rename_i h0
  split
  · exact e1 't' (by decide)
  split
  · exact e1 'n' (by decide)
  split
  · exact e1 'r' (by decide)
  split
  · exact hx 'x' 2 (by decide)
  rename_i hlow
  split
  · refine .ord (fun h => h0 (.inr h)) ?_ .nil
    rintro rfl
    exact hlow (.inl (by decide))
  split
  · exact hx 'x' 2 (by decide)
  split
  · exact hx 'u' 4 (by decide)
  · exact hx 'U' 8 (by decide)

theorem triple_cons {q c : Char} {s : Str} (h : ¬ Triple q (c :: s)) : ¬ Triple q s := by
  rintro ⟨a, b, rfl⟩
  exact h ⟨c :: a, b, rfl⟩

/-- A text without three quotes does not end the literal. -/
theorem longEnd_well (q : Char) (hq : q = '"' ∨ q = '\'') (post : Str) (hp : post.head? ≠ some q) (hp' : post ≠ []) : ∀ {w : Str}, WellEsc w → ¬ Triple q w →
    longEnd q false (w ++ post) = (longEnd q false post).map fun x => (w ++ x.1, x.2) := by
  intro w hw
  induction hw with
  | nil => intro _; cases h : longEnd q false post <;> simp [h]
  | @ord c s h1 h2 _ ih =>
    intro ht
    have hc : ¬ (c = q ∧ (s ++ post).take 2 = [q, q]) := by
      rintro ⟨rfl, h⟩
      cases s with
      | nil =>
        cases post with
        | nil => exact hp' rfl
        | cons x post => simp at h; exact hp (by simp [h.1])
      | cons x s =>
        cases s with
        | nil =>
          cases post with
          | nil => exact hp' rfl
          | cons y post => simp at h; exact hp (by simp [h.2])
        | cons y s =>
          simp at h
          obtain ⟨rfl, rfl⟩ := h
          exact ht ⟨[], s, rfl⟩
    rw [List.cons_append, longEnd, if_neg hc, if_neg h2]
    simp only [h1, decide_false, ih (triple_cons ht)]
    cases longEnd q false post <;> simp
  | @pair d s h1 _ ih =>
    intro ht
    have hb : '\\' ≠ q := by rcases hq with h | h <;> subst h <;> decide
    rw [List.cons_append, List.cons_append, longEnd, if_neg (fun h => hb h.1), if_neg (by decide)]
    simp only [decide_true, longEnd, h1, if_false, ih (triple_cons (triple_cons ht))]
    cases longEnd q false post <;> simp

theorem triple_srcNl (q : Char) (h1 : q ≠ '\n') : ∀ (s : Str) (b : Bool), Triple q (srcNl b s) → Triple q s := by
  intro s
  induction s with
  | nil => intro b h; obtain ⟨a, r, h⟩ := h; simp [srcNl] at h
  | cons c s ih =>
    intro b h
    have up : Triple q s → Triple q (c :: s) := by
      rintro ⟨a, r, rfl⟩
      exact ⟨c :: a, r, rfl⟩
    simp only [srcNl] at h
    split at h
    · obtain ⟨a, r, h⟩ := h
      cases a with
      | nil => simp at h; exact absurd h.1.symm h1
      | cons x a => simp at h; exact up (ih true ⟨a, r, h.2⟩)
    · split at h
      · exact up (ih false h)
      · obtain ⟨a, r, h⟩ := h
        cases a with
        | cons x a => simp at h; exact up (ih false ⟨a, r, h.2⟩)
        | nil =>
          simp only [List.nil_append, List.cons.injEq] at h
          obtain ⟨rfl, h⟩ := h
          have hs : s.head? = some c := srcNl_head c h1 s (by rw [h]; rfl)
          cases s with
          | nil => simp at hs
          | cons x s =>
            simp only [List.head?_cons, Option.some.injEq] at hs
            subst hs
            rename_i hr _
            simp only [srcNl, hr, if_false, h1, false_and, List.cons.injEq, true_and] at h
            have hs : s.head? = some x := srcNl_head x h1 s (by rw [h]; rfl)
            cases s with
            | nil => simp at hs
            | cons y s =>
              simp only [List.head?_cons, Option.some.injEq] at hs
              subst hs
              exact ⟨[], s, rfl⟩

theorem triple_left {q : Char} : ∀ {a s : Str}, q ∉ a → Triple q (a ++ s) → Triple q s
  | [], _, _, h => h
  | c :: a, s, hq, h => by
    simp only [List.mem_cons, not_or] at hq
    obtain ⟨x, y, e⟩ := h
    cases x with
    | nil => simp at e; exact absurd e.1.symm hq.1
    | cons z x => simp only [List.cons_append, List.cons.injEq] at e; exact triple_left hq.2 ⟨x, y, e.2⟩

theorem triple_mem {q : Char} {s : Str} (h : Triple q s) : q ∈ s := by
  obtain ⟨a, b, rfl⟩ := h
  simp

theorem triple_right {q : Char} : ∀ {s b : Str}, q ∉ b → Triple q (s ++ b) → Triple q s
  | [], b, hq, h => absurd (triple_mem h) hq
  | c :: s, b, hq, h => by
    obtain ⟨x, y, e⟩ := h
    cases x with
    | cons z x =>
      simp only [List.cons_append, List.cons.injEq] at e
      obtain ⟨a, r, h⟩ := triple_right hq ⟨x, y, e.2⟩
      exact ⟨c :: a, r, by rw [h]; rfl⟩
    | nil =>
      simp only [List.cons_append, List.nil_append, List.cons.injEq] at e
      obtain ⟨rfl, e⟩ := e
      cases s with
      | nil => exfalso; apply hq; rw [List.nil_append] at e; rw [e]; simp
      | cons z s =>
        simp only [List.cons_append, List.cons.injEq] at e
        obtain ⟨rfl, e⟩ := e
        cases s with
        | nil => exfalso; apply hq; rw [List.nil_append] at e; rw [e]; simp
        | cons w s =>
          simp only [List.cons_append, List.cons.injEq] at e
          obtain ⟨rfl, e⟩ := e
          exact ⟨[], s, rfl⟩

theorem srcNl_clean : ∀ (s : Str) (b : Bool), Clean s → Clean (srcNl b s)
  | [], _, _ => by simp [srcNl, Clean]
  | c :: s, b, h => by
    have hs : Clean s := fun c hc => h c (by simp [hc])
    simp only [srcNl]
    split
    · intro d hd
      rcases List.mem_cons.1 hd with rfl | hd
      · decide
      · exact srcNl_clean s true hs d hd
    · split
      · exact srcNl_clean s false hs
      · intro d hd
        rcases List.mem_cons.1 hd with rfl | hd
        · exact h d (by simp)
        · exact srcNl_clean s false hs d hd

theorem unesc_clean (names : Str → Option Char) : ∀ (s b : Str), (∀ c ∈ s, c ≠ '\\') → unesc names .none (s ++ b) = (unesc names .none b).map (s ++ ·)
  | [], b, _ => by simp
  | c :: s, b, h => by
    have h1 : plainStep c = ([c], .none) := by simp [plainStep, h c (by simp)]
    simp only [List.cons_append, unesc, escStep, h1, unesc_clean names s b fun c hc => h c (by simp [hc])]
    cases unesc names .none b <;> rfl

theorem unesc_plainAppend (names : Str → Option Char) : ∀ (s b : Str), NoEscapes s → unesc names .none (s ++ b) = (unesc names .none b).map (s ++ ·)
  | [], b, _ => by simp
  | c :: s, b, h => by
    by_cases hc : c = '\\'
    · subst hc
      obtain ⟨d, r, rfl, hd⟩ := h [] s rfl
      have ih := unesc_plainAppend names r b (noEscapes_tail (noEscapes_tail h))
      have h1 : plainStep '\\' = ([], .back) := rfl
      simp only [List.cons_append, unesc, escStep, h1, backStep_plain hd, ih]
      cases unesc names .none b <;> rfl
    · have ih := unesc_plainAppend names s b (noEscapes_tail h)
      have h1 : plainStep c = ([c], .none) := by simp [plainStep, hc]
      simp only [List.cons_append, unesc, escStep, h1, ih]
      cases unesc names .none b <;> rfl

theorem unesc_reprAppend (names : Str → Option Char) (p : Char → Bool) (q : Char) (hq : q = '"' ∨ q = '\'') :
    ∀ s b : Str, unesc names .none (s.flatMap (reprChar p q) ++ b) = (unesc names .none b).map (s ++ ·)
  | [], b => by simp
  | c :: s, b => by
    rw [List.flatMap_cons, List.append_assoc, unesc_reprChar names p q c hq, unesc_reprAppend names p q hq s]
    cases unesc names .none b <;> rfl

theorem wellEsc_repr (p : Char → Bool) (q : Char) (hq : q = '"' ∨ q = '\'') : ∀ s : Str, WellEsc (s.flatMap (reprChar p q))
  | [] => .nil
  | c :: s => (wellEsc_reprChar p q c hq).append (wellEsc_repr p q hq s)

/-- One piece of the arguments of a class. -/
theorem piece_ok (names : Str → Option Char) (p : Char → Bool) (x : Piece) (h : PieceOk x) :
    WellEsc (x.text p) ∧ '\r' ∉ x.text p ∧ ∃ v, ∀ b, unesc names .none (x.text p ++ b) = (unesc names .none b).map (v ++ ·) := by
  have quote : ∀ q, q = '"' ∨ q = '\'' → q ≠ '\\' ∧ q ≠ '\x00' ∧ q ≠ '\r' := by
    rintro q (rfl | rfl) <;> decide
  have wrap : ∀ q t v, (q = '"' ∨ q = '\'') → (∀ b, unesc names .none (t ++ b) = (unesc names .none b).map (v ++ ·)) →
      ∀ b, unesc names .none ((q :: (t ++ [q])) ++ b) = (unesc names .none b).map ((q :: (v ++ [q])) ++ ·) := by
    intro q t v hq ht b
    have h1 : plainStep q = ([q], .none) := by simp [plainStep, (quote q hq).1]
    rw [List.cons_append, List.append_assoc, unesc]
    simp only [escStep, h1]
    rw [ht, List.singleton_append, unesc]
    simp only [escStep, h1]
    cases unesc names .none b <;> simp
  cases x with
  | code t =>
    refine ⟨wellEsc_clean t h.1, h.2, t, fun b => unesc_clean names t b fun c hc => (h.1 c hc).1⟩
  | repr s =>
    have hq := reprQuote_or s
    obtain ⟨h1, h2, h3⟩ := quote _ hq
    refine ⟨.ord h1 h2 ((wellEsc_repr p _ hq s).append (.ord h1 h2 .nil)), ?_, _, wrap _ _ s hq (unesc_reprAppend names p _ hq s)⟩
    intro hm
    exact (pyRepr_line p s _ hm).2 rfl
  | quoted q s =>
    obtain ⟨hq, hc, hn⟩ := h
    obtain ⟨h1, h2, h3⟩ := quote _ hq
    refine ⟨.ord h1 h2 ((wellEsc_plain s (fun c hs => (hc c hs).2.2.2) hn).append (.ord h1 h2 .nil)), ?_, _, wrap q s s hq (fun b => unesc_plainAppend names s b hn)⟩
    simp only [Piece.text, Pyb.quoted, List.mem_cons, List.mem_append, List.not_mem_nil, or_false, not_or]
    exact ⟨fun e => h3 e.symm, fun h => (hc _ h).2.2.1 rfl, fun e => h3 e.symm⟩

theorem pieces_ok (names : Str → Option Char) (p : Char → Bool) : ∀ ps : List Piece, (∀ x ∈ ps, PieceOk x) →
    WellEsc (argText p ps) ∧ '\r' ∉ argText p ps ∧ ∃ v, ∀ b, unesc names .none (argText p ps ++ b) = (unesc names .none b).map (v ++ ·)
  | [], _ => ⟨.nil, by simp [argText], [], by simp [argText]⟩
  | x :: ps, h => by
    obtain ⟨h1, h2, v, h3⟩ := piece_ok names p x (h x (by simp))
    obtain ⟨i1, i2, w, i3⟩ := pieces_ok names p ps fun x hx => h x (by simp [hx])
    refine ⟨h1.append i1, ?_, v ++ w, ?_⟩
    · show '\r' ∉ x.text p ++ argText p ps
      simp [h2, i2]
    · intro b
      show unesc names .none ((x.text p ++ argText p ps) ++ b) = _
      rw [List.append_assoc, h3, i3]
      cases unesc names .none b <;> simp

end Pyb
