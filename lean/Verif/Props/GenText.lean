import Verif.Lemmas.GenText

/-! # Texts in the generated program (C90)

`readLit (srcNewlines t) = some (v, rest)` says that Python, where it reads the program text
`t`, finds a string literal with the value `v` and goes on with `rest`; `none` is a
`SyntaxError`.  `names` are the names of characters (for `\N{...}`) and `printable` is
`str.isprintable`; both are arbitrary. -/

namespace Pyb
open Py Spec

/-- C90: patterns, lengths, ranges, names of enumerations, identities, bits, choices and
arguments of extensions, which are written by `repr`: Python reads the text there was. -/
theorem C90_repr (names : Str → Option Char) (printable : Char → Bool) (s rest : Str) (hr : s = [] → rest.head? ≠ some '\'') :
    readLit names (srcNewlines (pyRepr printable s ++ rest)) = some (s, srcNewlines rest) := by
  have : srcNewlines (pyRepr printable s ++ rest) = pyRepr printable s ++ srcNewlines rest :=
    srcNl_ordinary _ _ (pyRepr_line printable s) (by simp [pyRepr]) false
  rw [this]
  exact readLit_repr names printable s _ fun h e => hr h (srcNl_head _ (by decide) _ e)

example : pyRepr (fun _ => true) py!"[\\w'\"]+\n" = py!"'[\\\\w\\'\"]+\\n'" := rfl
example : pyRepr (fun _ => true) py!"don't" = py!"\"don't\"" := rfl
example : readLit (fun _ => none) (srcNewlines (py!"'[\\\\w\\'\"]+\\n', 'length': ")) = some (py!"[\\w'\"]+\n", py!", 'length': ") := rfl

/-- C90: defaults, namespaces, leafref paths …, which are written between two quote
characters: Python reads the text there was iff it has no quote of that kind, no line end,
and no backslash before a character with a meaning there. -/
theorem C90_quoted_partial (names : Str → Option Char) (q : Char) (hq : q = '"' ∨ q = '\'') (s rest : Str) (hr : s = [] → rest.head? ≠ some q) :
    readLit names (srcNewlines (quoted q s ++ rest)) = some (s, srcNewlines rest) ↔ PlainIn q s := by
  have q1 : q ≠ '\n' := by rcases hq with h | h <;> subst h <;> decide
  have q2 : q ≠ '\r' := by rcases hq with h | h <;> subst h <;> decide
  have e : srcNewlines (quoted q s ++ rest) = q :: (srcNl false s ++ q :: srcNewlines rest) := by
    unfold quoted srcNewlines
    rw [List.cons_append, List.append_assoc, List.singleton_append, srcNl, if_neg q2, if_neg (fun h => q1 h.1), srcNl_sep q q1 q2]
  rw [e, readLit, if_pos hq]
  constructor
  · intro h
    split at h
    · rename_i ht
      exfalso
      cases hl : longEnd q false ((srcNl false s ++ q :: srcNewlines rest).drop 2) with
      | none => simp [hl] at h
      | some x =>
        obtain ⟨body, r⟩ := x
        simp only [hl, Option.bind_some] at h
        cases hu : unesc names .none body with
        | none => simp [hu] at h
        | some v =>
          simp only [hu, Option.map_some, Option.some.injEq, Prod.mk.injEq] at h
          obtain ⟨rfl, rfl⟩ := h
          have h1 := longEnd_split q _ _ _ _ hl
          have h2 := congrArg List.length h1
          have h3 := unesc_len names body _ v hu
          have h4 := srcNl_len v false
          simp only [List.length_drop, List.length_append, List.length_cons, Esc.extra, Nat.add_zero] at h2 h3
          omega
    · cases hl : shortEnd q false (srcNl false s ++ q :: srcNewlines rest) with
      | none => simp [hl] at h
      | some x =>
        obtain ⟨body, r⟩ := x
        simp only [hl, Option.bind_some] at h
        cases hu : unesc names .none body with
        | none => simp [hu] at h
        | some v =>
          simp only [hu, Option.map_some, Option.some.injEq, Prod.mk.injEq] at h
          obtain ⟨rfl, rfl⟩ := h
          have h1 := shortEnd_split q _ _ _ _ hl
          have hb : srcNl false v = body := List.append_cancel_right h1
          have h3 := unesc_len names body _ v hu
          have h4 := srcNl_len v false
          rw [hb] at h4
          simp only [Esc.extra, Nat.add_zero] at h3
          obtain ⟨h5, h6⟩ := unesc_same names body v hu (by omega)
          have h7 := shortEnd_chars q _ _ _ hq hl h6
          have h8 := srcNl_noCR v false
          rw [hb] at h8
          subst h5
          exact ⟨fun c hc => ⟨(h7 c hc).1, (h7 c hc).2.1, fun h => h8 (h ▸ hc), (h7 c hc).2.2⟩, h6⟩
  · rintro ⟨h1, h2⟩
    have hcr : '\r' ∉ s := fun h => (h1 _ h).2.2.1 rfl
    rw [srcNl_id s hcr]
    have ht : ¬ ((s ++ q :: srcNewlines rest).take 2 = [q, q]) := by
      cases s with
      | nil =>
        intro h
        cases hn : srcNewlines rest with
        | nil => rw [hn] at h; simp at h
        | cons x r =>
          rw [hn] at h
          simp at h
          exact hr rfl (srcNl_head q q1 rest (by unfold srcNewlines at hn; rw [hn]; simp [h]))
      | cons c s =>
        intro h
        simp at h
        exact (h1 c (by simp)).1 h.1
    rw [if_neg ht, shortEnd_plain q hq _ s (fun c hc => ⟨(h1 c hc).1, (h1 c hc).2.1, (h1 c hc).2.2.2⟩) h2]
    simp [unesc_noEscapes names s h2]

/-- What identifiers and URIs usually look like. -/
theorem plainIn_clean {q : Char} {s : Str} (h : ∀ c ∈ s, c ≠ q ∧ c ≠ '\n' ∧ c ≠ '\r' ∧ c ≠ '\x00' ∧ c ≠ '\\') : PlainIn q s := by
  refine ⟨fun c hc => ⟨(h c hc).1, (h c hc).2.1, (h c hc).2.2.1, (h c hc).2.2.2.1⟩, ?_⟩
  rintro a b rfl
  exact absurd rfl (h '\\' (by simp)).2.2.2.2

example : PlainIn '\'' py!"http://example.com/ns?x=\"1\"" := plainIn_clean (by decide)
example : readLit (fun _ => none) (srcNewlines (quoted '"' py!"\\d+ \\." ++ py!")")) = some (py!"\\d+ \\.", py!")") := rfl

/-- C90 fails for a default with a double quote: what follows the quote is read as part of
the program. -/
theorem C90_injection_refuted (names : Str → Option Char) (a b rest : Str) (ha : PlainIn '"' a) (hn : a ≠ []) :
    readLit names (srcNewlines (quoted '"' (a ++ '"' :: b) ++ rest)) = some (a, srcNewlines (b ++ '"' :: rest)) := by
  have e : quoted '"' (a ++ '"' :: b) ++ rest = quoted '"' a ++ (b ++ '"' :: rest) := by simp [quoted]
  rw [e]
  exact (C90_quoted_partial names '"' (.inl rfl) a _ (fun h => absurd h hn)).2 ha

example : readLit (fun _ => none) (srcNewlines (quoted '"' py!"x\") or exit() or (\"" ++ py!"), is_leaf=True")) =
    some (py!"x", py!") or exit() or (\"\"), is_leaf=True") := rfl

/-- C90 fails for a default with a backslash: `\temp` becomes a tab and `emp`, and `\users` or
a backslash at the end keep the program from being read. -/
theorem C90_backslash_refuted (names : Str → Option Char) :
    readLit names (srcNewlines (quoted '"' py!"\\temp" ++ py!")")) = some (py!"\temp", py!")") ∧
    readLit names (srcNewlines (quoted '"' py!"\\users" ++ py!")")) = none ∧
    readLit names (srcNewlines (quoted '"' py!"C:\\" ++ py!")\n")) = none := ⟨rfl, rfl, rfl⟩

/-- C90 fails for a default of several lines. -/
theorem C90_lines_refuted (names : Str → Option Char) (a b rest : Str) (h : PlainIn '"' a) :
    readLit names (srcNewlines (quoted '"' (a ++ '\n' :: b) ++ rest)) = none := by
  have key : ∀ (a t : Str), (∀ c ∈ a, c ≠ '"' ∧ c ≠ '\n' ∧ c ≠ '\r' ∧ c ≠ '\x00') → NoEscapes a → ∀ e, shortEnd '"' false (a ++ '\n' :: t) = e → e = none := by
    intro a t h hn
    have : ∀ (n : Nat) (a : Str), a.length ≤ n → (∀ c ∈ a, c ≠ '"' ∧ c ≠ '\n' ∧ c ≠ '\r' ∧ c ≠ '\x00') → NoEscapes a →
        shortEnd '"' false (a ++ '\n' :: t) = none := by
      intro n
      induction n with
      | zero =>
        intro a hl _ _
        have : a = [] := List.length_eq_zero_iff.1 (by omega)
        subst this
        rfl
      | succ n ih =>
        intro a hl h hn
        cases a with
        | nil => rfl
        | cons c a =>
          obtain ⟨h1, h2, h3, h4⟩ := h c (by simp)
          by_cases hc : c = '\\'
          · subst hc
            obtain ⟨d, r, rfl, hd⟩ := hn [] a rfl
            rw [List.cons_append, List.cons_append, shortEnd_escaped '"' (.inl rfl) d (h d (by simp)).2.2.2,
              ih r (by simp at hl; omega) (fun c hc => h c (by simp [hc])) (noEscapes_tail (noEscapes_tail hn))]
            rfl
          · rw [← List.singleton_append, List.append_assoc, shortEnd_ordinary '"' [c] _ (by simpa using ⟨h1, h2, h4, hc⟩),
              ih a (by simp at hl; omega) (fun c hc => h c (by simp [hc])) (noEscapes_tail hn)]
            rfl
    rintro e rfl
    exact this a.length a (Nat.le_refl _) h hn
  obtain ⟨h1, h2⟩ := h
  have hcr : '\r' ∉ a := fun h => (h1 _ h).2.2.1 rfl
  have e : srcNewlines (quoted '"' (a ++ '\n' :: b) ++ rest) = '"' :: (a ++ '\n' :: srcNl false (b ++ '"' :: rest)) := by
    have : ∀ (a t : Str), '\r' ∉ a → srcNl false (a ++ '\n' :: t) = a ++ '\n' :: srcNl false t := by
      intro a t h
      induction a with
      | nil => rfl
      | cons c a ih =>
        simp only [List.mem_cons, not_or] at h
        simp only [List.cons_append, srcNl]
        rw [if_neg (fun e => h.1 e.symm), if_neg (by simp), ih h.2]
    have e2 : quoted '"' (a ++ '\n' :: b) ++ rest = '"' :: (a ++ '\n' :: (b ++ '"' :: rest)) := by simp [quoted]
    rw [e2]
    show srcNl false ('"' :: (a ++ '\n' :: (b ++ '"' :: rest))) = _
    rw [srcNl, if_neg (by decide), if_neg (by decide), this _ _ hcr]
  have ht : ¬ ((a ++ '\n' :: srcNl false (b ++ '"' :: rest)).take 2 = ['"', '"']) := by
    cases a with
    | nil => intro h; simp at h
    | cons c a => intro h; simp at h; exact (h1 c (by simp)).1 h.1
  rw [e, readLit, if_pos (.inl rfl), if_neg ht, key a _ h1 h2 _ rfl]
  rfl

/-! ## Descriptions -/

/-- C90: a description without backslash and without three double quotes in a row ends where
it should, and is in the doc string as it is (line ends are LF).

Missing: backslashes, some of which do no harm. -/
theorem C90_doc_partial (names : Str → Option Char) (name path type d rest : Str) (hd : Clean d) (ht : ¬ Triple '"' d)
    (hn : ∀ c ∈ name ++ path ++ type, c ≠ '\\' ∧ c ≠ '\x00' ∧ c ≠ '"') :
    readLit names (srcNewlines (getterDoc name path type (some d) ++ rest)) =
      some (srcNewlines (py!"\n    Getter method for " ++ name ++ py!", mapped from YANG variable " ++ path ++ py!" (" ++ type ++ py!")\n\n    YANG Description: " ++
        d ++ py!"\n    "), srcNewlines rest) := by
  generalize hA : py!"\n    Getter method for " ++ name ++ py!", mapped from YANG variable " ++ path ++ py!" (" ++ type ++ py!")\n\n    YANG Description: " = A
  have hAc : Clean A ∧ '"' ∉ A := by
    have : ∀ c ∈ A, c ≠ '\\' ∧ c ≠ '\x00' ∧ c ≠ '"' := by
      subst hA
      intro c hc
      simp only [List.mem_append] at hc
      rcases hc with ((((((hc | hc) | hc) | hc) | hc) | hc) | hc)
      · revert c; decide
      · exact hn c (by simp [hc])
      · revert c; decide
      · exact hn c (by simp [hc])
      · revert c; decide
      · exact hn c (by simp [hc])
      · revert c; decide
    exact ⟨fun c hc => ⟨(this c hc).1, (this c hc).2.1⟩, fun h => (this _ h).2.2 rfl⟩
  have e1 : getterDoc name path type (some d) ++ rest = '"' :: '"' :: '"' :: ((A ++ d ++ py!"\n   ") ++ ' ' :: '"' :: '"' :: '"' :: rest) := by
    subst hA
    simp [getterDoc]
  have hcl : Clean (A ++ d ++ py!"\n   ") := by
    intro c hc
    simp only [List.mem_append] at hc
    rcases hc with (hc | hc) | hc
    · exact hAc.1 c hc
    · exact hd c hc
    · revert c; decide
  have hno : ¬ Triple '"' (A ++ d ++ py!"\n   ") := fun h => ht (triple_left hAc.2 (triple_right (by decide) h))
  have e2 : A ++ d ++ py!"\n    " = (A ++ d ++ py!"\n   ") ++ [' '] := by simp
  rw [e2]
  generalize A ++ d ++ py!"\n   " = w at e1 hcl hno
  rw [e1]
  have e3 : srcNewlines ('"' :: '"' :: '"' :: (w ++ ' ' :: '"' :: '"' :: '"' :: rest)) =
      '"' :: '"' :: '"' :: (srcNl false w ++ ' ' :: '"' :: '"' :: '"' :: srcNewlines rest) := by
    have q : ∀ r, srcNl false ('"' :: r) = '"' :: srcNl false r := fun r => by simp [srcNl]
    unfold srcNewlines
    rw [q, q, q, srcNl_sep ' ' (by decide) (by decide), q, q, q]
  have e4 : srcNewlines (w ++ [' ']) = srcNl false w ++ [' '] := by
    unfold srcNewlines
    rw [srcNl_sep ' ' (by decide) (by decide)]
    rfl
  rw [e3, e4]
  have hw := srcNl_clean w false hcl
  have hl := longEnd_well '"' (.inl rfl) (' ' :: '"' :: '"' :: '"' :: srcNewlines rest) (by simp) (by simp) (wellEsc_clean _ hw)
    (fun h => hno (triple_srcNl '"' (by decide) w false h))
  have hp : longEnd '"' false (' ' :: '"' :: '"' :: '"' :: srcNewlines rest) = some ([' '], srcNewlines rest) := by
    simp [longEnd]
  rw [hp] at hl
  simp only [readLit, true_or, if_true, List.take, List.drop]
  rw [hl]
  simp only [Option.map_some, Option.bind_some]
  rw [unesc_clean names _ [' '] fun c hc => (hw c hc).1]
  rfl

example : Clean py!"The \"name\" of\r\nit" ∧ ¬ Triple '"' py!"The \"name\" of\r\nit" := by
  constructor
  · unfold Clean; decide
  · rintro ⟨a, b, h⟩
    have : ∀ (a b s : Str), s = a ++ '"' :: '"' :: '"' :: b → 3 ≤ s.count '"' := by
      rintro a b s rfl
      simp [List.count_cons]
      omega
    have := this a b _ h
    revert this; decide

/-- C90 fails for a description with three double quotes: the program goes on with what
follows them. -/
theorem C90_doc_refuted (names : Str → Option Char) (a b name path type rest : Str) (ha : Clean a) (hq : '"' ∉ a)
    (hn : ∀ c ∈ name ++ path ++ type, c ≠ '\\' ∧ c ≠ '\x00' ∧ c ≠ '"') (ha' : a.getLast? = some ' ') :
    ∃ v, readLit names (srcNewlines (getterDoc name path type (some (a ++ py!"\"\"\"" ++ b)) ++ rest)) =
      some (v, srcNewlines (b ++ py!"\n    \"\"\"" ++ rest)) := by
  obtain ⟨u, rfl⟩ : ∃ u, a = u ++ [' '] := by
    rw [List.getLast?_eq_some_iff] at ha'
    exact ha'
  generalize hA : py!"\n    Getter method for " ++ name ++ py!", mapped from YANG variable " ++ path ++ py!" (" ++ type ++ py!")\n\n    YANG Description: " = A
  have hAc : ∀ c ∈ A ++ u, (c ≠ '\\' ∧ c ≠ '\x00') ∧ c ≠ '"' := by
    subst hA
    intro c hc
    simp only [List.mem_append] at hc
    have hw : ∀ c ∈ name ++ path ++ type, (c ≠ '\\' ∧ c ≠ '\x00') ∧ c ≠ '"' := fun c hc => ⟨⟨(hn c hc).1, (hn c hc).2.1⟩, (hn c hc).2.2⟩
    rcases hc with (((((((hc | hc) | hc) | hc) | hc) | hc) | hc) | hc)
    · revert c; decide
    · exact hw c (by simp [hc])
    · revert c; decide
    · exact hw c (by simp [hc])
    · revert c; decide
    · exact hw c (by simp [hc])
    · revert c; decide
    · exact ⟨ha c (by simp [hc]), fun e => hq (by rw [← e]; simp [hc])⟩
  have e1 : getterDoc name path type (some (u ++ [' '] ++ py!"\"\"\"" ++ b)) ++ rest =
      '"' :: '"' :: '"' :: ((A ++ u) ++ ' ' :: '"' :: '"' :: '"' :: (b ++ py!"\n    \"\"\"" ++ rest)) := by
    subst hA
    simp [getterDoc]
  have hcl : Clean (A ++ u) := fun c hc => (hAc c hc).1
  have hno : ¬ Triple '"' (A ++ u) := fun h => (hAc _ (triple_mem h)).2 rfl
  rw [e1]
  generalize A ++ u = w at hcl hno
  generalize b ++ py!"\n    \"\"\"" ++ rest = rest
  have e3 : srcNewlines ('"' :: '"' :: '"' :: (w ++ ' ' :: '"' :: '"' :: '"' :: rest)) =
      '"' :: '"' :: '"' :: (srcNl false w ++ ' ' :: '"' :: '"' :: '"' :: srcNewlines rest) := by
    have q : ∀ r, srcNl false ('"' :: r) = '"' :: srcNl false r := fun r => by simp [srcNl]
    unfold srcNewlines
    rw [q, q, q, srcNl_sep ' ' (by decide) (by decide), q, q, q]
  rw [e3]
  have hw := srcNl_clean w false hcl
  have hl := longEnd_well '"' (.inl rfl) (' ' :: '"' :: '"' :: '"' :: srcNewlines rest) (by simp) (by simp) (wellEsc_clean _ hw)
    (fun h => hno (triple_srcNl '"' (by decide) w false h))
  have hp : longEnd '"' false (' ' :: '"' :: '"' :: '"' :: srcNewlines rest) = some ([' '], srcNewlines rest) := by
    simp [longEnd]
  rw [hp] at hl
  refine ⟨srcNl false w ++ [' '], ?_⟩
  simp only [readLit, true_or, if_true, List.take, List.drop]
  rw [hl]
  simp only [Option.map_some, Option.bind_some]
  rw [unesc_clean names _ [' '] fun c hc => (hw c hc).1]
  rfl

set_option maxRecDepth 8000 in
/-- So it does for some backslashes: the program cannot be read. -/
theorem C90_doc_backslash_refuted (names : Str → Option Char) :
    readLit names (srcNewlines (getterDoc py!"path" py!"/path" py!"string" (some py!"as in C:\\users") ++ py!"\n")) = none := by
  rfl

/-! ## The error messages of setters -/

/-- C90: the text of the arguments of a class, once more in triple quotes in the error of the
setter, ends where it should if there are no three double quotes in it. -/
theorem C90_message_partial (names : Str → Option Char) (printable : Char → Bool) (cls : Str) (ps : List Piece) (rest : Str)
    (hp : ∀ x ∈ ps, PieceOk x) (hc : PieceOk (.code cls)) (ht : ¬ Triple '"' (cls ++ py!"(" ++ argText printable ps)) :
    ∃ v, readLit names (srcNewlines (typeMsg printable cls ps ++ rest)) = some (v, srcNewlines rest) := by
  have hps : ∀ x ∈ Piece.code cls :: .code py!"(" :: ps, PieceOk x := by
    intro x hx
    simp only [List.mem_cons] at hx
    rcases hx with rfl | rfl | hx
    · exact hc
    · exact ⟨by unfold Clean; decide, by decide⟩
    · exact hp x hx
  obtain ⟨h1, h2, v, h3⟩ := pieces_ok names printable _ hps
  have e0 : argText printable (Piece.code cls :: .code py!"(" :: ps) = cls ++ py!"(" ++ argText printable ps := by
    simp [argText, Piece.text]
  rw [e0] at h1 h2 h3
  have e1 : typeMsg printable cls ps ++ rest = '"' :: '"' :: '"' :: ((cls ++ py!"(" ++ argText printable ps) ++ ')' :: '"' :: '"' :: '"' :: rest) := by
    simp [typeMsg]
  rw [e1]
  generalize cls ++ py!"(" ++ argText printable ps = w at h1 h2 h3 ht
  have e3 : srcNewlines ('"' :: '"' :: '"' :: (w ++ ')' :: '"' :: '"' :: '"' :: rest)) =
      '"' :: '"' :: '"' :: (w ++ ')' :: '"' :: '"' :: '"' :: srcNewlines rest) := by
    have q : ∀ r, srcNl false ('"' :: r) = '"' :: srcNl false r := fun r => by simp [srcNl]
    unfold srcNewlines
    rw [q, q, q, srcNl_sep ')' (by decide) (by decide), srcNl_id w h2, q, q, q]
  rw [e3]
  have hl := longEnd_well '"' (.inl rfl) (')' :: '"' :: '"' :: '"' :: srcNewlines rest) (by simp) (by simp) h1 ht
  have hp : longEnd '"' false (')' :: '"' :: '"' :: '"' :: srcNewlines rest) = some ([')'], srcNewlines rest) := by
    simp [longEnd]
  rw [hp] at hl
  refine ⟨v ++ [')'], ?_⟩
  simp only [readLit, true_or, if_true, List.take, List.drop]
  rw [hl]
  simp only [Option.map_some, Option.bind_some]
  rw [h3]
  rfl

/-- The pieces of a leaf with a pattern and a default. -/
def patternArgs (pattern default : Str) : List Piece :=
  [.code py!"base=RestrictedClassType(base_type=str, restriction_dict={", .repr py!"pattern", .code py!": ", .repr pattern,
   .code py!"}), default=str(", .quoted '"' default, .code py!"), is_leaf=True"]

example : ∀ x ∈ patternArgs py!"[a\\d\"]{1,3}" py!"a0", PieceOk x := by
  have hc : ∀ t : Str, (∀ c ∈ t, (c ≠ '\\' ∧ c ≠ '\x00') ∧ c ≠ '\r') → PieceOk (.code t) := fun t h =>
    ⟨fun c hc => (h c hc).1, fun hm => (h _ hm).2 rfl⟩
  intro x hx
  simp only [patternArgs, List.mem_cons, List.not_mem_nil, or_false] at hx
  rcases hx with rfl | rfl | rfl | rfl | rfl | rfl | rfl
  · exact hc _ (by decide)
  · trivial
  · exact hc _ (by decide)
  · trivial
  · exact hc _ (by decide)
  · exact ⟨.inl rfl, plainIn_clean (by decide)⟩
  · exact hc _ (by decide)

set_option maxRecDepth 8000 in
/-- C90 fails for a pattern with three double quotes: it ends the literal, although the class
itself has the pattern as it is. -/
theorem C90_message_refuted (names : Str → Option Char) (printable : Char → Bool) :
    (readLit names (srcNewlines (typeMsg printable py!"YANGDynClass" (patternArgs py!"a\"\"\"b" py!"") ++ py!",\n"))).map Prod.snd =
      some (py!"b'}), default=str(\"\"), is_leaf=True)\"\"\",\n") := by
  rfl

end Pyb
