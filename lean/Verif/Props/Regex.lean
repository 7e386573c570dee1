import Verif.Lemmas.Regex
import Verif.Props.Restricted

/-! # C13: patterns are anchored to the whole value

`IsRegexMatch P rx` says what is assumed of the third-party function `regex.match`, on the
texts read by `parseRx .py`; `P` is what its sets and `.` contain, `X` is the same for XML
Schema. -/

namespace Pyb
open Py Spec

/-- The leaf `leaf x { type string { pattern p; } }` accepts `s`. -/
def PatternLeaf (rx : Str → Str → Bool) (p s : Str) : Prop :=
  setLeaf rx (genRTy (.base .str) [p] none none) (.str s) = .ok (.str s)

theorem pattern_leaf_eq (rx : Str → Str → Bool) {p : Str} (hp : p ≠ []) (s : Str) :
    setLeaf rx (genRTy (.base .str) [p] none none) (.str s) = if patTest rx p s then .ok (.str s) else .error .valueError := by
  have h := pattern_run rx hp s
  have hb : BaseTy.str.conv (.str s) = .ok (.str s) := rfl
  cases ht : patTest rx p s <;>
    simp [setLeaf, dynLeaf, genRTy, genRestrs, RTy.cls, RTy.init, buildTests, anyOf, allOf, initCheck, h, ht, hb, bind, Except.bind, pure, Except.pure, Except.map]

theorem pattern_leaf (rx : Str → Str → Bool) {p : Str} (hp : p ≠ []) (s : Str) : PatternLeaf rx p s ↔ patTest rx p s = true := by
  unfold PatternLeaf
  rw [pattern_leaf_eq rx hp s]
  cases patTest rx p s <;> simp

theorem agree_mono {X P : Sets} {r q : Rx} {s w : Str} (h : Agree X P r s) (hw : ∀ c ∈ w, c ∈ s) (hq : ∀ n ∈ setsOf q, n ∈ setsOf r) : Agree X P q w :=
  fun c hc => ⟨(h c (hw c hc)).1, fun n hn => (h c (hw c hc)).2 n (hq n hn)⟩

theorem lang_match {X P : Sets} {r : Rx} (hn : NoAnchor r) {s w post : Str} (ha : Agree X P r s) (hw : ∀ c ∈ w, c ∈ s) (pre : Str) :
    Match P r pre w post ↔ InLang X r w :=
  ⟨fun h => lang_of_match h hn (agree_mono ha hw fun _ h => h), fun h => match_of_lang h (agree_mono ha hw fun _ h => h) _ _⟩

theorem match_fin {P : Sets} {r : Rx} {s : Str} :
    (∃ w post, s = w ++ post ∧ Match P (.cat r .fin) [] w post) ↔ Match P r [] s [] ∨ ∃ s', s = s' ++ ['\n'] ∧ Match P r [] s' ['\n'] := by
  constructor
  · rintro ⟨w, post, rfl, h⟩
    cases h with
    | cat h1 h2 =>
      cases h2 with
      | fin _ _ hp =>
        rcases hp with rfl | rfl
        · left; simpa using h1
        · right; exact ⟨_, by rw [List.append_nil], by simpa using h1⟩
  · rintro (h | ⟨s', rfl, h⟩)
    · exact ⟨s, [], by simp, by simpa using Match.cat (u := s) (v := []) (post := []) (by simpa using h) (.fin _ _ (.inl rfl))⟩
    · exact ⟨s', ['\n'], rfl, by simpa using Match.cat (u := s') (v := []) (post := ['\n']) (by simpa using h) (.fin _ _ (.inr rfl))⟩

/-- What the code accepts, for a pattern with the reading `r`. -/
def Accepted (X : Sets) (s : Str) : Rx → Prop
  | .alt a b => (∃ w post, s = w ++ post ∧ InLang X a w) ∨ InLang X b s ∨ ∃ s', s = s' ++ ['\n'] ∧ InLang X b s'
  | r => InLang X r s ∨ ∃ s', s = s' ++ ['\n'] ∧ InLang X r s'

theorem accepts_iff {X P : Sets} {rx : Str → Str → Bool} (hrx : IsRegexMatch P rx) {p : Str} {r : Rx} (hr : parseRx .xsd p = some r)
    (hne : p ≠ []) (hl : p.getLast? ≠ some '$') (hc : NoCaret p) {s : Str} (ha : Agree X P r s) :
    PatternLeaf rx p s ↔ Accepted X s r := by
  rw [pattern_leaf rx hne s]
  have hts : ∃ ts, lexRx .xsd .norm p = some ts := by
    cases h : lexRx .xsd .norm p with
    | none => simp [parseRx, h] at hr
    | some ts => exact ⟨ts, rfl⟩
  obtain ⟨ts, hts⟩ := hts
  have hna : NoAnchor r := by
    simp only [parseRx, hts, Option.bind_some] at hr
    exact parseToks_noAnchor ⟨by simp, by simp⟩ (by simp) hr
  obtain ⟨text, h, h', e1, e2, e3, e4⟩ := convert_parse hne hl hts (hc ts hts) hr
  have e5 : patTest rx p s = rx text s := by simp [patTest, e1]
  rw [e5, hrx text _ s e2]
  cases e3 with
  | first cur =>
    have e6 : ((Group.push ⟨none, cur ++ [(.start, false)]⟩ .fin false).close) = .cat (branchOf (cur ++ [(.start, false)])) .fin := rfl
    rw [e6, match_fin]
    have e7 : r = branchOf cur := e4
    have e8 : Accepted X s r = (InLang X r s ∨ ∃ s', s = s' ++ ['\n'] ∧ InLang X r s') := by
      rw [e7]; cases cur <;> rfl
    rw [e8]
    have k1 : ∀ w post, Match P (branchOf (cur ++ [(.start, false)])) [] w post ↔ Match P r [] w post := by
      rw [e7]; exact front_match (.branch cur)
    constructor
    · rintro (h | ⟨s', rfl, h⟩)
      · exact .inl ((lang_match hna ha (fun _ h => h) []).1 ((k1 _ _).1 h))
      · exact .inr ⟨s', rfl, (lang_match hna ha (fun _ h => by simp [h]) []).1 ((k1 _ _).1 h)⟩
    · rintro (h | ⟨s', rfl, h⟩)
      · exact .inl ((k1 _ _).2 ((lang_match hna ha (fun _ h => h) []).2 h))
      · exact .inr ⟨s', rfl, (k1 _ _).2 ((lang_match hna ha (fun _ h => by simp [h]) []).2 h)⟩
  | @later a a' cur hf =>
    have e6 : ((Group.push ⟨some a', cur⟩ .fin false).close) = .alt a' (.cat (branchOf cur) .fin) := rfl
    have e7 : r = .alt a (branchOf cur) := e4
    subst e7
    rw [e6]
    show _ ↔ (∃ w post, s = w ++ post ∧ InLang X a w) ∨ InLang X (branchOf cur) s ∨ ∃ s', s = s' ++ ['\n'] ∧ InLang X (branchOf cur) s'
    have ha1 : Agree X P a s := agree_mono ha (fun _ h => h) (by simp +contextual [setsOf])
    have ha2 : Agree X P (branchOf cur) s := agree_mono ha (fun _ h => h) (by simp +contextual [setsOf])
    constructor
    · rintro ⟨w, post, rfl, h⟩
      cases h with
      | altl h => exact .inl ⟨w, post, rfl, (lang_match hna.1 ha1 (fun _ h => by simp [h]) []).1 ((front_match hf _ _).1 h)⟩
      | altr h =>
        rcases match_fin.1 ⟨w, post, rfl, h⟩ with h | ⟨s', e, h⟩
        · exact .inr (.inl ((lang_match hna.2 ha2 (fun _ h => h) []).1 h))
        · exact .inr (.inr ⟨s', e, (lang_match hna.2 ha2 (fun _ h => by simp [e, h]) []).1 h⟩)
    · rintro (⟨w, post, rfl, h⟩ | h)
      · exact ⟨w, post, rfl, .altl ((front_match hf _ _).2 ((lang_match hna.1 ha1 (fun _ h => by simp [h]) []).2 h))⟩
      · have : Match P (branchOf cur) [] s [] ∨ ∃ s', s = s' ++ ['\n'] ∧ Match P (branchOf cur) [] s' ['\n'] := by
          rcases h with h | ⟨s', e, h⟩
          · exact .inl ((lang_match hna.2 ha2 (fun _ h => h) []).2 h)
          · exact .inr ⟨s', e, (lang_match hna.2 ha2 (fun _ h => by simp [e, h]) []).2 h⟩
        obtain ⟨w, post, e, h⟩ := match_fin.2 this
        exact ⟨w, post, e, .altr h⟩

/-- C13, for the patterns with one branch, without a bare `^` and not ending in `$`: a leaf
accepts a string that does not end in a newline iff the whole string is in the language
of the pattern, as far as XML Schema and `regex` agree on the pattern's sets.  Missing:
alternatives (`C13_alternation_refuted`), strings that end in a newline
(`C13_newline_refuted`), `^` and `$` (`C13_dollar_refuted`, `C13_caret_refuted`), the
empty pattern (`C13_empty_refuted`), characters on which the sets differ
(`C13_sets_refuted`). -/
theorem C13_anchored_partial {X P : Sets} {rx : Str → Str → Bool} (hrx : IsRegexMatch P rx) {p : Str} {r : Rx} (hr : parseRx .xsd p = some r)
    (hne : p ≠ []) (hl : p.getLast? ≠ some '$') (hc : NoCaret p) (halt : r.isAlt = false) {s : Str} (hs : s.getLast? ≠ some '\n') (ha : Agree X P r s) :
    PatternLeaf rx p s ↔ InLang X r s := by
  rw [accepts_iff hrx hr hne hl hc ha]
  have key : InLang X r s ∨ (∃ s', s = s' ++ ['\n'] ∧ InLang X r s') ↔ InLang X r s := by
    constructor
    · rintro (h | ⟨s', rfl, _⟩)
      · exact h
      · simp at hs
    · exact .inl
  cases r <;> first | exact key | simp [Rx.isAlt] at halt

/-- C13, the last branch of a pattern with several: it is anchored at the end, and at the
beginning, because `regex.match` looks there. -/
theorem C13_last_branch_partial {X P : Sets} {rx : Str → Str → Bool} (hrx : IsRegexMatch P rx) {p : Str} {a b : Rx} (hr : parseRx .xsd p = some (.alt a b))
    (hne : p ≠ []) (hl : p.getLast? ≠ some '$') (hc : NoCaret p) {s : Str} (hs : s.getLast? ≠ some '\n') (ha : Agree X P (.alt a b) s) :
    PatternLeaf rx p s ↔ InLang X b s ∨ ∃ w post, s = w ++ post ∧ InLang X a w := by
  rw [accepts_iff hrx hr hne hl hc ha]
  constructor
  · rintro (h | h | ⟨s', rfl, _⟩)
    · exact .inr h
    · exact .inl h
    · simp at hs
  · rintro (h | h)
    · exact .inr (.inl h)
    · exact .inl h

/-- A value that matches the whole pattern is accepted, whatever the number of branches. -/
theorem C13_complete_partial {X P : Sets} {rx : Str → Str → Bool} (hrx : IsRegexMatch P rx) {p : Str} {r : Rx} (hr : parseRx .xsd p = some r)
    (hne : p ≠ []) (hl : p.getLast? ≠ some '$') (hc : NoCaret p) {s : Str} (ha : Agree X P r s) (h : InLang X r s) : PatternLeaf rx p s := by
  rw [accepts_iff hrx hr hne hl hc ha]
  cases r <;> first
    | exact .inl h
    | (cases h with
      | altl h => exact .inl ⟨s, [], by simp, h⟩
      | altr h => exact .inr (.inl h))

/-- C13 is false for a pattern with several branches: whatever comes after a string that
matches one of the first branches is accepted. -/
theorem C13_alternation_refuted {X P : Sets} {rx : Str → Str → Bool} (hrx : IsRegexMatch P rx) {p : Str} {a b : Rx} (hr : parseRx .xsd p = some (.alt a b))
    (hne : p ≠ []) (hl : p.getLast? ≠ some '$') (hc : NoCaret p) {u v : Str} (ha : Agree X P (.alt a b) (u ++ v)) (h : InLang X a u) :
    PatternLeaf rx p (u ++ v) :=
  (accepts_iff hrx hr hne hl hc ha).2 (.inl ⟨u, v, rfl, h⟩)

/-- C13 is false for a newline at the end: it is accepted after every string in the
language of the pattern. -/
theorem C13_newline_refuted {X P : Sets} {rx : Str → Str → Bool} (hrx : IsRegexMatch P rx) {p : Str} {r : Rx} (hr : parseRx .xsd p = some r)
    (hne : p ≠ []) (hl : p.getLast? ≠ some '$') (hc : NoCaret p) {s : Str} (ha : Agree X P r (s ++ ['\n'])) (h : InLang X r s) :
    PatternLeaf rx p (s ++ ['\n']) := by
  rw [accepts_iff hrx hr hne hl hc ha]
  cases r <;> first
    | exact .inr ⟨s, rfl, h⟩
    | (cases h with
      | altl h => exact .inl ⟨s, ['\n'], rfl, h⟩
      | altr h => exact .inr (.inr ⟨s, rfl, h⟩))

/-- C13 in terms of what the sets contain in `regex`. -/
theorem C13_library_partial {P : Sets} {rx : Str → Str → Bool} (hrx : IsRegexMatch P rx) {p : Str} {r : Rx} (hr : parseRx .xsd p = some r)
    (hne : p ≠ []) (hl : p.getLast? ≠ some '$') (hc : NoCaret p) (halt : r.isAlt = false) {s : Str} (hs : s.getLast? ≠ some '\n') :
    PatternLeaf rx p s ↔ InLang P r s :=
  C13_anchored_partial hrx hr hne hl hc halt hs fun _ _ => ⟨rfl, fun _ _ => rfl⟩

theorem replace_append (p q : Str) : replaceBy '$' py!"\\$" (p ++ q) = replaceBy '$' py!"\\$" p ++ replaceBy '$' py!"\\$" q := by
  simp [replaceBy]

theorem replace_head {p : Str} (hne : p ≠ []) (q : Str) : (replaceBy '$' py!"\\$" p ++ q).head? = some '^' ↔ p.head? = some '^' := by
  cases p with
  | nil => exact absurd rfl hne
  | cons c p => by_cases hc : c = '$' <;> simp [replaceBy, hc]

theorem convert_dollar {p : Str} (hne : p ≠ []) (hl : p.getLast? ≠ some '$') : convertRegexp (p ++ py!"$") = convertRegexp p := by
  unfold convertRegexp
  cases hlast : p.getLast? with
  | none => rw [List.getLast?_eq_none_iff] at hlast; exact absurd hlast hne
  | some c =>
    have hc : c ≠ '$' := fun e => hl (by rw [hlast, e])
    have e1 : (p ++ py!"$").getLast? = some '$' := by simp
    have e2 : (p ++ py!"$").dropLast = p := by simp
    have hq := getLast?_replace hl
    rw [hlast] at hq
    rw [e1]
    simp only [hc, decide_false, decide_true, if_true, e2, Bool.false_eq_true, if_false, Except.ok.injEq]
    by_cases hh : p.head? = some '^'
    · have h2 := (replace_head hne []).2 hh
      rw [List.append_nil] at h2
      rw [if_pos ((replace_head hne _).2 hh), if_pos h2, if_pos (by simp), if_neg (by rw [hq]; simpa using hc)]
    · have h2 : ¬ (replaceBy '$' py!"\\$" p).head? = some '^' := fun h => hh ((replace_head hne []).1 (by rw [List.append_nil]; exact h))
      rw [if_neg fun h => hh ((replace_head hne _).1 h), if_neg h2, ← List.cons_append, if_pos (by rw [List.getLast?_append]; rfl),
        if_neg (by rw [List.getLast?_cons, hq]; simpa using hc)]

theorem convert_caret {p : Str} (hne : p ≠ []) (hh : p.head? ≠ some '^') : convertRegexp ('^' :: p) = convertRegexp p := by
  have hlast : ('^' :: p).getLast? = p.getLast? := by
    cases p with
    | nil => exact absurd rfl hne
    | cons a p => simp
  have hdrop : ('^' :: p).dropLast = '^' :: p.dropLast := by
    cases p with
    | nil => exact absurd rfl hne
    | cons a p => simp
  have hrep : ∀ q, replaceBy '$' py!"\\$" ('^' :: q) = '^' :: replaceBy '$' py!"\\$" q := fun q => by simp [replaceBy]
  unfold convertRegexp
  rw [hlast]
  cases hl : p.getLast? with
  | none => rfl
  | some c =>
    by_cases hc : c = '$'
    · have h1 : (replaceBy '$' py!"\\$" p.dropLast ++ py!"$").head? ≠ some '^' := by
        cases p with
        | nil => exact absurd rfl hne
        | cons a p =>
          cases p with
          | nil => simp [replaceBy]
          | cons b p =>
            rw [List.dropLast_cons₂]
            intro h
            rw [replace_head (by simp)] at h
            exact hh (by simpa using h)
      simp only [hc, decide_true, if_true, hdrop, hrep, List.cons_append, List.head?_cons]
      rw [if_neg h1]
      rfl
    · have h1 : ¬ (replaceBy '$' py!"\\$" p).head? = some '^' := fun h => hh ((replace_head hne []).1 (by rw [List.append_nil]; exact h))
      simp only [hc, decide_false, Bool.false_eq_true, if_false, hrep, List.head?_cons, if_true]
      rw [if_neg h1]

/-- C13 is false for a `$` at the end of a pattern, an ordinary character in XML Schema: it
makes no difference. -/
theorem C13_dollar_refuted (rx : Str → Str → Bool) {p : Str} (hne : p ≠ []) (hl : p.getLast? ≠ some '$') (s : Str) :
    PatternLeaf rx (p ++ py!"$") s ↔ PatternLeaf rx p s := by
  rw [pattern_leaf rx (by simp) s, pattern_leaf rx hne s]
  simp [patTest, convert_dollar hne hl]

/-- C13 is false for a `^` at the beginning: it makes no difference. -/
theorem C13_caret_refuted (rx : Str → Str → Bool) {p : Str} (hne : p ≠ []) (hh : p.head? ≠ some '^') (s : Str) :
    PatternLeaf rx ('^' :: p) s ↔ PatternLeaf rx p s := by
  rw [pattern_leaf rx (by simp) s, pattern_leaf rx hne s]
  simp [patTest, convert_caret hne hh]

/-- In XML Schema, the pattern `^a$` has the one word `^a$`. -/
theorem C13_anchors_lang (X : Sets) (s : Str) : (∃ r, parseRx .xsd py!"^a$" = some r ∧ InLang X r s) ↔ s = py!"^a$" := by
  have e : parseRx .xsd py!"^a$" = some (.cat (.cat (.cat .eps (.lit '^')) (.lit 'a')) (.lit '$')) := by rfl
  rw [e]
  constructor
  · rintro ⟨r, h, hl⟩
    simp at h; subst h
    cases hl with | cat h1 h2 =>
    cases h1 with | cat h1 h3 =>
    cases h1 with | cat h1 h4 =>
    cases h1; cases h2; cases h3; cases h4; rfl
  · rintro rfl
    exact ⟨_, rfl, .cat (u := py!"^a") (v := py!"$") (.cat (u := py!"^") (v := py!"a") (.cat (u := []) (v := py!"^") .eps (.lit _)) (.lit _)) (.lit _)⟩

/-- The leaf takes `a` and nothing else but `a` with a newline. -/
theorem C13_anchors_refuted {P : Sets} {rx : Str → Str → Bool} (hrx : IsRegexMatch P rx) (s : Str) :
    PatternLeaf rx py!"^a$" s ↔ s = py!"a" ∨ s = py!"a\n" := by
  have h1 : PatternLeaf rx py!"^a$" s ↔ PatternLeaf rx py!"a" s :=
    (C13_caret_refuted rx (p := py!"a$") (by simp) (by simp) s).trans (C13_dollar_refuted rx (p := py!"a") (by simp) (by simp) s)
  have e : parseRx .xsd py!"a" = some (.cat .eps (.lit 'a')) := by rfl
  have hc : NoCaret py!"a" := by intro ts h; have : lexRx .xsd .norm py!"a" = some [.lit 'a'] := rfl; rw [this] at h; simp at h; subst h; simp
  rw [h1, accepts_iff (X := P) hrx e (by simp) (by simp) hc fun _ _ => ⟨rfl, fun _ _ => rfl⟩]
  have k : ∀ s, InLang P (.cat .eps (.lit 'a')) s ↔ s = ['a'] := by
    intro s
    constructor
    · intro h
      cases h with | cat h1 h2 => cases h1; cases h2; rfl
    · rintro rfl; exact .cat (u := []) (v := ['a']) .eps (.lit _)
  simp only [Accepted, k]
  constructor
  · rintro (h | ⟨s', h, rfl⟩)
    · exact .inl h
    · exact .inr h
  · rintro (h | h)
    · exact .inl h
    · exact .inr ⟨_, h, rfl⟩

/-- C13 is false for a `^` elsewhere: a leaf with the pattern `a^b` accepts nothing, not even
`a^b`. -/
theorem C13_inner_caret_refuted {P : Sets} {rx : Str → Str → Bool} (hrx : IsRegexMatch P rx) (s : Str) : ¬ PatternLeaf rx py!"a^b" s := by
  rw [pattern_leaf rx (by simp) s]
  have e1 : patTest rx py!"a^b" s = rx py!"^a^b$" s := rfl
  have e2 : parseRx .py py!"^a^b$" = some (.cat (.cat (.cat (.cat (.cat .eps .start) (.lit 'a')) .start) (.lit 'b')) .fin) := by rfl
  rw [e1, hrx _ _ _ e2]
  rintro ⟨w, post, _, h⟩
  cases h with | cat h h5 =>
  cases h with | cat h h4 =>
  cases h with | @cat _ _ _ u v _ h h3 =>
  cases h with | cat h h2 =>
  cases h2
  generalize hx : [] ++ (_ ++ ['a']) = x at h3
  cases h3
  simp at hx

/-- C13 is false for the empty pattern: every assignment ends with an `IndexError`. -/
theorem C13_empty_refuted (rx : Str → Str → Bool) (s : Str) : setLeaf rx (genRTy (.base .str) [[]] none none) (.str s) = .error .indexError := by
  rfl

/-- C13 is false where the sets differ: `\w` has no `_` in XML Schema (it is punctuation) and
has it in `regex`. -/
theorem C13_sets_refuted {X P : Sets} {rx : Str → Str → Bool} (hrx : IsRegexMatch P rx) (hX : X.set ['w'] '_' = false) (hP : P.set ['w'] '_' = true) :
    PatternLeaf rx py!"\\w" py!"_" ∧ ¬ ∃ r, parseRx .xsd py!"\\w" = some r ∧ InLang X r py!"_" := by
  have e : parseRx .xsd py!"\\w" = some (.cat .eps (.set ['w'])) := by rfl
  have hc : NoCaret py!"\\w" := by intro ts h; have : lexRx .xsd .norm py!"\\w" = some [.set ['w']] := rfl; rw [this] at h; simp at h; subst h; simp
  constructor
  · exact (C13_library_partial hrx e (by simp) (by simp) hc rfl (by simp)).2 (.cat (u := []) (v := ['_']) .eps (.set _ _ hP))
  · rintro ⟨r, h, hl⟩
    rw [e] at h; simp at h; subst h
    generalize hs : py!"_" = s at hl
    cases hl with | cat h1 h2 =>
    cases h1
    cases h2 with | set _ c hc =>
    simp at hs
    subst hs
    rw [hX] at hc; simp at hc

/-- There is such a function, whatever the sets contain. -/
theorem C13_matcher_exists (P : Sets) : ∃ rx, IsRegexMatch P rx := by
  classical
  refine ⟨fun text v => decide (∃ r, parseRx .py text = some r ∧ ∃ w post, v = w ++ post ∧ Match P r [] w post), ?_⟩
  intro text r v h
  simp [h]

/-! ## An instance: the hypotheses of `C13_anchored_partial` hold for the pattern
`([a-c]|\$)+$x\d?`, those of `C13_alternation_refuted` for `a|b` -/

example : parseRx .xsd py!"([a-c]|$)+x\\d?" = some (.cat (.cat (.cat .eps (.rep (.alt (.cat .eps (.cls false [.range 'a' 'c'])) (.cat .eps (.lit '$'))) 1 none)) (.lit 'x')) (.rep (.set ['d']) 0 (some 1))) := by rfl
example : NoCaret py!"([a-c]|$)+x\\d?" := by
  intro ts h
  have : lexRx .xsd .norm py!"([a-c]|$)+x\\d?" = some [.lp, .cls false [.range 'a' 'c'], .bar, .dollar, .rp, .quant 1 none, .lit 'x', .set ['d'], .quant 0 (some 1)] := by rfl
  rw [this] at h; simp at h; subst h; simp
example : parseRx .xsd py!"a|b" = some (.alt (.cat .eps (.lit 'a')) (.cat .eps (.lit 'b'))) := by rfl
example {X : Sets} : InLang X (.cat .eps (.lit 'a')) py!"a" ∧ ¬ InLang X (.alt (.cat .eps (.lit 'a')) (.cat .eps (.lit 'b'))) py!"axyz" := by
  refine ⟨.cat (u := []) (v := ['a']) .eps (.lit _), ?_⟩
  generalize hs : py!"axyz" = s
  intro h
  cases h with
  | altl h => cases h with | cat h1 h2 => cases h1; cases h2; simp at hs
  | altr h => cases h with | cat h1 h2 => cases h1; cases h2; simp at hs

end Pyb
