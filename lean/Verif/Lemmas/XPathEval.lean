import Verif.Lemmas.XPathText

namespace Pyb
open Py Spec

/-! ## The expression made for a path -/

/-- The comparisons as they are written. -/
def attrBody : List (Str × Str) → Str
  | [] => []
  | [p] => '@' :: p.1 ++ '=' :: '\'' :: p.2 ++ ['\'']
  | p :: q :: r => '@' :: p.1 ++ '=' :: '\'' :: p.2 ++ '\'' :: ' ' :: 'a' :: 'n' :: 'd' :: ' ' :: attrBody (q :: r)

/-- A step as it is written. -/
def xText (s : PStep) : Str := if s.keys = [] then s.tag else s.tag ++ '[' :: attrBody s.keys ++ [']']

/-- A step as it is read. -/
def toXStep (s : PStep) : XStep := .child s.tag s.keys

theorem attrText_body (ks : List (Str × Str)) (h : ks ≠ []) : attrText ks = attrBody ks ++ py!" and " := by
  fun_induction attrBody ks with
  | case1 => exact absurd rfl h
  | case2 p => simp [attrText]
  | case3 p q r ih => rw [attrText, ih (by simp)]; simp

theorem attrBody_last (ks : List (Str × Str)) (hne : ks ≠ []) : ∃ cs, attrBody ks = cs ++ ['\''] := by
  fun_induction attrBody ks with
  | case1 => exact absurd rfl hne
  | case2 p => exact ⟨_, rfl⟩
  | case3 p q r ih =>
    obtain ⟨cs, h⟩ := ih (by simp)
    exact ⟨'@' :: p.1 ++ '=' :: '\'' :: p.2 ++ '\'' :: ' ' :: 'a' :: 'n' :: 'd' :: ' ' :: cs, by rw [h]; simp⟩

theorem encodeStep_keys (e : Str) {tag : Str} (ht : ':' ∉ tag) {ks : List (Str × Str)} (hne : ks ≠ []) :
    encodeStep e tag (some ks) = e ++ (tag ++ '[' :: attrBody ks ++ [']']) ++ ['/'] := by
  obtain ⟨cs, hcs⟩ := attrBody_last ks hne
  rw [encodeStep, localName_plain ht, attrText_body ks hne, hcs]
  have e1 : e ++ tag ++ '[' :: (cs ++ ['\''] ++ py!" and ") = (e ++ tag ++ '[' :: cs) ++ ['\''] ++ py!" and " := by simp
  rw [e1, rstripBy_tail _ _ (by decide) (by decide), rstripBy_last _ (by decide)]
  simp

theorem hasCurrent_false {v : Str} (h : ¬ Contains v py!"current()") : hasCurrent v = false := by
  induction v with
  | nil => rfl
  | cons c cs ih =>
    simp only [hasCurrent, Bool.or_eq_false_iff]
    constructor
    · apply Bool.eq_false_iff.2
      intro hs
      obtain ⟨t, ht⟩ := List.isPrefixOf_iff_prefix.1 hs
      exact h ⟨[], t, by simpa using ht.symm⟩
    · exact ih fun ⟨a, b, hab⟩ => h ⟨c :: a, b, by simp [hab]⟩

theorem resolveAttrs_plain (look) (caller) (ks : List (Str × Str)) (h : ∀ k ∈ ks, ¬ Contains k.2 py!"current()") :
    resolveAttrs look caller ks = .ok ks := by
  induction ks with
  | nil => rfl
  | cons p ks ih =>
    have h1 := hasCurrent_false (h p (by simp))
    have h2 := ih fun k hk => h k (by simp [hk])
    simp [resolveAttrs, h1, h2, Except.map]

/-- What is needed to read comparisons again. -/
structure AttrsOk (ks : List (Str × Str)) : Prop where
  names : ∀ k ∈ ks, ∀ c ∈ k.1, cmdChar c = true
  values : ∀ k ∈ ks, '\'' ∉ k.2

theorem KeysOk.attrs {ks : List (Str × Str)} (hk : KeysOk ks) : AttrsOk ks where
  names := fun k h c hc => ((hk.names k h).2 c hc).1
  values := fun k h hm => absurd ((hk.values k h).2 _ hm).1 (by decide)

theorem AttrsOk.tail {p : Str × Str} {ks : List (Str × Str)} (h : AttrsOk (p :: ks)) : AttrsOk ks where
  names := fun k hk => h.names k (List.mem_cons_of_mem _ hk)
  values := fun k hk => h.values k (List.mem_cons_of_mem _ hk)

/-- A step whose text is read again. -/
structure XOk (s : PStep) : Prop where
  tag : validName s.tag = true
  attrs : AttrsOk s.keys

theorem good_tag {s : PStep} (h : s.Good) : validName s.tag = true := ident_valid h.tag

theorem _root_.Spec.PStep.Good.xok {s : PStep} (h : s.Good) : XOk s := ⟨good_tag h, h.keysOk.attrs⟩

theorem tagAttrs_text {s : PStep} (h : s.Good) : tagAttrs s.text = .ok (s.tag, if s.keys = [] then none else some s.keys) := by
  by_cases hk : s.keys = []
  · simp [PStep.text, hk, tagAttrs_plain (good_tag h)]
  · simp [PStep.text, hk, tagAttrs_keys (good_tag h) h.keysOk hk]

theorem encodeGo_text (look) (caller) : ∀ (p : List PStep) (e : Str), (∀ s ∈ p, s.Good) →
    encodeGo look caller e (p.map PStep.text) = .ok (e ++ p.flatMap fun s => xText s ++ ['/']) := by
  intro p
  induction p with
  | nil => intro e _; simp [encodeGo]
  | cons s p ih =>
    intro e h
    have hs := h s (by simp)
    have hcol : ':' ∉ s.tag := fun hm => ((name_chars (good_tag hs)).2 _ hm).2.2.2.2.2.2.1 rfl
    rw [List.map_cons, encodeGo, tagAttrs_text hs]
    by_cases hk : s.keys = []
    · simp only [hk, if_true]
      rw [ih _ fun t ht => h t (by simp [ht])]
      simp [encodeStep, localName_plain hcol, xText, hk]
    · simp only [hk, if_false]
      rw [resolveAttrs_plain look caller s.keys fun k hk => (hs.values k hk).2.2]
      simp only
      rw [encodeStep_keys e hcol hk, ih _ fun t ht => h t (by simp [ht])]
      simp [xText, hk]

theorem xText_ne (s : PStep) (h : XOk s) : ∃ cs c, xText s = cs ++ [c] ∧ c ≠ '/' := by
  by_cases hk : s.keys = []
  · obtain ⟨h1, h2⟩ := name_chars h.tag
    rcases List.eq_nil_or_concat s.tag with he | ⟨cs, c, he⟩
    · exact absurd he h1
    · rw [List.concat_eq_append] at he
      exact ⟨cs, c, by simp [xText, hk, he], (h2 c (by rw [he]; simp)).2.2.1⟩
  · exact ⟨s.tag ++ '[' :: attrBody s.keys, ']', by simp [xText, hk], by decide⟩

/-- The text of the steps with `/` between them. -/
def stepsText : List PStep → Str
  | [] => []
  | s :: p => '/' :: xText s ++ stepsText p

theorem stepsText_rstrip : ∀ (p : List PStep) (e : Str), p ≠ [] → (∀ s ∈ p, s.Good) →
    rstripBy (· = '/') (e ++ '/' :: p.flatMap fun s => xText s ++ ['/']) = e ++ stepsText p := by
  intro p
  induction p with
  | nil => intro e h; exact absurd rfl h
  | cons s p ih =>
    intro e _ h
    by_cases hp : p = []
    · subst hp
      obtain ⟨cs, c, h1, h2⟩ := xText_ne s (h s (by simp)).xok
      have := rstripBy_tail (p := (· = '/')) (e ++ '/' :: cs) ['/'] (c := c) (by simpa using h2) (by simp)
      simpa [stepsText, h1] using this
    · have := ih (e ++ '/' :: xText s) hp fun t ht => h t (by simp [ht])
      simpa [stepsText] using this

theorem text_rel {s : PStep} (h : s.Good) : isRelative s.text = false ∧ s.text ≠ [] := by
  obtain ⟨h1, h2⟩ := name_chars (good_tag h)
  have h3 := ident_head (good_tag h)
  obtain ⟨c, cs, hc⟩ := List.exists_cons_of_ne_nil h1
  by_cases hk : s.keys = []
  · simp [PStep.text, hk, h1, h3]
  · simp only [PStep.text, hk, if_false, hc] at h3 ⊢
    refine ⟨?_, by simp⟩
    simpa [isRelative, startsWith, List.isPrefixOf] using h3

/-- The expression made for a path. -/
theorem encodePath_text (look) (caller) (p : List PStep) (hne : p ≠ []) (h : ∀ s ∈ p, s.Good) :
    encodePath look caller (p.map PStep.text) = .ok (stepsText p) := by
  cases p with
  | nil => exact absurd rfl hne
  | cons s p =>
    obtain ⟨h1, h2⟩ := text_rel (h s (by simp))
    have hgo := encodeGo_text look caller (s :: p) ['/'] h
    simp only [List.map_cons] at hgo
    simp only [encodePath, List.map_cons, h1, h2, if_false, hgo, Except.map, Bool.false_eq_true]
    have := stepsText_rstrip (s :: p) [] hne h
    simpa using this

/-! ## The expression is read -/

def prependHd (a : Str) : List Str → List Str
  | [] => [a]
  | p :: ps => (a ++ p) :: ps

theorem prependHd_append (a b : Str) (l : List Str) : prependHd a (prependHd b l) = prependHd (a ++ b) l := by
  cases l <;> simp [prependHd]

/-- A text without `/` outside quotes, in which quotes are closed. -/
def Bal (a : Str) : Prop := ∀ t, splitSteps false (a ++ t) = prependHd a (splitSteps false t)

theorem splitSteps_ne (q : Bool) (t : Str) : splitSteps q t ≠ [] := by
  cases t with
  | nil => simp [splitSteps]
  | cons c t =>
    simp only [splitSteps]
    split
    · simp
    · split <;> simp

theorem splitSteps_cons {q : Bool} {c : Char} (t : Str) (h : ¬ (c = '/' ∧ q = false)) :
    splitSteps q (c :: t) = prependHd [c] (splitSteps (if c = '\'' then !q else q) t) := by
  rw [splitSteps, if_neg h]
  cases hs : splitSteps (if c = '\'' then !q else q) t with
  | nil => exact absurd hs (splitSteps_ne _ _)
  | cons p ps => rfl

theorem bal_nil : Bal [] := by
  intro t
  cases hs : splitSteps false t with
  | nil => exact absurd hs (splitSteps_ne _ _)
  | cons p ps => simp [prependHd, hs]

theorem bal_append {a b : Str} (ha : Bal a) (hb : Bal b) : Bal (a ++ b) := by
  intro t
  rw [List.append_assoc, ha, hb, prependHd_append]

theorem bal_char {c : Char} (h1 : c ≠ '/') (h2 : c ≠ '\'') : Bal [c] := by
  intro t
  rw [List.cons_append, List.nil_append, splitSteps_cons t (by simp [h1]), if_neg h2]

theorem bal_chars {a : Str} (h : ∀ c ∈ a, c ≠ '/' ∧ c ≠ '\'') : Bal a := by
  induction a with
  | nil => exact bal_nil
  | cons c a ih => exact bal_append (a := [c]) (bal_char (h c (by simp)).1 (h c (by simp)).2) (ih fun d hd => h d (by simp [hd]))

theorem quoted_go {v : Str} (h : '\'' ∉ v) (t : Str) : splitSteps true (v ++ '\'' :: t) = prependHd (v ++ ['\'']) (splitSteps false t) := by
  induction v with
  | nil => rw [List.nil_append, splitSteps_cons t (by simp)]; simp
  | cons c v ih =>
    have hc : c ≠ '\'' := fun e => h (by simp [e])
    rw [List.cons_append, splitSteps_cons _ (by simp), if_neg hc, ih fun hm => h (by simp [hm]), prependHd_append]
    rfl

theorem bal_quoted {v : Str} (h : '\'' ∉ v) : Bal ('\'' :: v ++ ['\'']) := by
  intro t
  have e : '\'' :: v ++ ['\''] ++ t = '\'' :: (v ++ '\'' :: t) := by simp
  rw [e, splitSteps_cons _ (by simp)]
  simp only [if_true, Bool.not_false]
  rw [quoted_go h, prependHd_append]
  rfl

theorem bal_attr {k v : Str} (hk : ∀ c ∈ k, cmdChar c = true) (hv : '\'' ∉ v) : Bal ('@' :: k ++ '=' :: '\'' :: v ++ ['\'']) := by
  have h1 : Bal ('@' :: k ++ ['=']) := by
    apply bal_chars
    intro c hc
    simp only [List.cons_append, List.mem_cons, List.mem_append, List.not_mem_nil, or_false] at hc
    rcases hc with rfl | hc | rfl
    · decide
    · refine ⟨?_, (cmdChar_not c (hk c hc)).2.2.2.2.1⟩
      rintro rfl
      exact absurd (hk _ hc) (by decide)
    · decide
  have := bal_append h1 (bal_quoted hv)
  simpa using this

theorem bal_attrBody (ks : List (Str × Str)) (hk : AttrsOk ks) : Bal (attrBody ks) := by
  fun_induction attrBody ks with
  | case1 => exact bal_nil
  | case2 p => exact bal_attr (hk.names p (by simp)) (hk.values p (by simp))
  | case3 p q r ih =>
    have h1 := bal_attr (hk.names p (by simp)) (hk.values p (by simp))
    have h2 := ih hk.tail
    have h3 : Bal py!" and " := bal_chars (by decide)
    have := bal_append h1 (bal_append h3 h2)
    simpa using this

theorem bal_xText {s : PStep} (h : XOk s) : Bal (xText s) := by
  have ht : Bal s.tag := bal_chars fun c hc => by
    have := (name_chars h.tag).2 c hc
    exact ⟨this.2.2.1, this.2.2.2.1⟩
  by_cases hk : s.keys = []
  · simpa [xText, hk] using ht
  · have := bal_append ht (bal_append (bal_char (c := '[') (by decide) (by decide))
      (bal_append (bal_attrBody s.keys h.attrs) (bal_char (c := ']') (by decide) (by decide))))
    simpa [xText, hk] using this

theorem splitSteps_text : ∀ (p : List PStep) (a : Str), Bal a → (∀ s ∈ p, s.Good) →
    splitSteps false (a ++ stepsText p) = a :: p.map xText := by
  intro p
  induction p with
  | nil =>
    intro a ha _
    have := ha []
    simpa [stepsText, splitSteps, prependHd] using this
  | cons s p ih =>
    intro a ha h
    have h1 := ih (xText s) (bal_xText (h s (by simp)).xok) fun t ht => h t (by simp [ht])
    rw [stepsText, ha, List.cons_append, splitSteps, if_pos (by simp), h1]
    simp [prependHd]

theorem parseAttrs_body (ks : List (Str × Str)) : ∀ f, AttrsOk ks → ks ≠ [] → ks.length ≤ f →
    parseAttrs f (attrBody ks ++ [']']) = some ks := by
  fun_induction attrBody ks with
  | case1 => intro f _ h; exact absurd rfl h
  | case2 p =>
    intro f hk _ hf
    obtain ⟨f, rfl⟩ : ∃ g, f = g + 1 := ⟨f - 1, by simp at hf; omega⟩
    have h1 := takeWhile_stop (p := (· ≠ '=')) (a := p.1) (c := '=') (b := '\'' :: p.2 ++ ['\'', ']']) (by
      intro x hx
      have := cmdChar_not x (hk.names p (by simp) x hx)
      simp [this.2.1]) (by simp)
    have h2 := takeWhile_stop (p := (· ≠ '\'')) (a := p.2) (c := '\'') (b := [']']) (by
      intro x hx
      have : x ≠ '\'' := fun e => hk.values p (by simp) (e ▸ hx)
      simp [this]) (by simp)
    have e : '@' :: p.1 ++ '=' :: '\'' :: p.2 ++ ['\''] ++ [']'] = '@' :: (p.1 ++ '=' :: ('\'' :: p.2 ++ ['\'', ']'])) := by simp
    rw [e]
    simp only [parseAttrs]
    rw [h1.1, h1.2]
    simp only [List.cons_append]
    rw [h2.1, h2.2]
    rfl
  | case3 p q r ih =>
    intro f hk _ hf
    obtain ⟨f, rfl⟩ : ∃ g, f = g + 1 := ⟨f - 1, by simp at hf; omega⟩
    have ih' := ih f hk.tail (by simp) (by simp at hf ⊢; omega)
    generalize hT : attrBody (q :: r) ++ [']'] = T at ih'
    have h1 := takeWhile_stop (p := (· ≠ '=')) (a := p.1) (c := '=') (b := '\'' :: (p.2 ++ '\'' :: ' ' :: 'a' :: 'n' :: 'd' :: ' ' :: T)) (by
      intro x hx
      have := cmdChar_not x (hk.names p (by simp) x hx)
      simp [this.2.1]) (by simp)
    have h2 := takeWhile_stop (p := (· ≠ '\'')) (a := p.2) (c := '\'') (b := ' ' :: 'a' :: 'n' :: 'd' :: ' ' :: T) (by
      intro x hx
      have : x ≠ '\'' := fun e => hk.values p (by simp) (e ▸ hx)
      simp [this]) (by simp)
    have e : '@' :: p.1 ++ '=' :: '\'' :: p.2 ++ '\'' :: ' ' :: 'a' :: 'n' :: 'd' :: ' ' :: attrBody (q :: r) ++ [']'] =
        '@' :: (p.1 ++ '=' :: '\'' :: (p.2 ++ '\'' :: ' ' :: 'a' :: 'n' :: 'd' :: ' ' :: T)) := by simp [← hT]
    rw [e]
    simp only [parseAttrs]
    rw [h1.1, h1.2]
    simp only
    rw [h2.1, h2.2]
    have hst : startsWith (' ' :: 'a' :: 'n' :: 'd' :: ' ' :: T) py!" and " = true := by
      simp [startsWith, List.isPrefixOf]
    show (if startsWith (' ' :: 'a' :: 'n' :: 'd' :: ' ' :: T) py!" and " = true then
      (parseAttrs f ((' ' :: 'a' :: 'n' :: 'd' :: ' ' :: T).drop 5)).map (fun x => (p.1, p.2) :: x) else none) = some (p :: q :: r)
    rw [hst]
    simp only [if_true, List.drop_succ_cons, List.drop_zero]
    rw [ih']
    rfl

theorem attrBody_length (ks : List (Str × Str)) : ks.length ≤ (attrBody ks).length := by
  fun_induction attrBody ks with
  | case1 => simp
  | case2 p => simp
  | case3 p q r ih => simp at ih ⊢; omega

theorem parseStep_text {s : PStep} (h : XOk s) : parseStep (xText s) = some (toXStep s) := by
  obtain ⟨h1, h2⟩ := name_chars h.tag
  have h3 := ident_head h.tag
  have hx : ∀ d : Str, isRelative d = true → xText s ≠ d := by
    intro d hd e
    obtain ⟨c, cs, hc⟩ := List.exists_cons_of_ne_nil h1
    rw [hc] at h3
    have h4 : isRelative (xText s) = false := by
      by_cases hk : s.keys = [] <;> simpa [xText, hk, hc, isRelative, startsWith, List.isPrefixOf] using h3
    rw [e, hd] at h4
    cases h4
  rw [parseStep, if_neg (hx py!".." (by decide)), if_neg (hx py!"." (by decide))]
  by_cases hk : s.keys = []
  · have := takeWhile_all (p := (· ≠ '[')) (a := s.tag) (by intro x hx; simp [(h2 x hx).1])
    simp only [xText, hk, if_true]
    rw [this.1, this.2, h.tag]
    simp [toXStep, hk]
  · have := takeWhile_stop (p := (· ≠ '[')) (a := s.tag) (c := '[') (b := attrBody s.keys ++ [']']) (by intro x hx; simp [(h2 x hx).1]) (by simp)
    have e : xText s = s.tag ++ '[' :: (attrBody s.keys ++ [']']) := by simp [xText, hk]
    rw [e, this.1, this.2, h.tag]
    simp only [if_true]
    rw [parseAttrs_body s.keys _ h.attrs hk (by have := attrBody_length s.keys; simp; omega)]
    rfl

theorem parseStepList_text (p : List PStep) (h : ∀ s ∈ p, s.Good) : parseStepList (p.map xText) = some (p.map toXStep) := by
  induction p with
  | nil => rfl
  | cons s p ih =>
    rw [List.map_cons, parseStepList, parseStep_text (h s (by simp)).xok, ih fun t ht => h t (by simp [ht])]
    rfl

/-- A lookup by an exact path walks down the steps. -/
theorem getEtree_text (hp : Helper) (look) (caller) (p : List PStep) (hne : p ≠ []) (h : ∀ s ∈ p, s.Good) :
    hp.getEtree look (p.map PStep.text) caller = .ok ((p.map toXStep).foldl (evalStep hp.elems) (hp.elems.take 1)) := by
  have hpx : parseXPath ('.' :: stepsText p) = some (.self :: p.map toXStep) := by
    have h1 := splitSteps_text p ['.'] (bal_char (by decide) (by decide)) h
    rw [parseXPath]
    have e : '.' :: stepsText p = ['.'] ++ stepsText p := rfl
    rw [e, h1, parseStepList, parseStepList_text p h]
    rfl
  have hfx : ∃ c cs, stepsText p = '/' :: c :: cs := by
    cases p with
    | nil => exact absurd rfl hne
    | cons s p =>
      obtain ⟨cs, c, h1, _⟩ := xText_ne s (h s (by simp)).xok
      have : xText s ≠ [] := by rw [h1]; simp
      obtain ⟨d, ds, hd⟩ := List.exists_cons_of_ne_nil this
      exact ⟨d, ds ++ stepsText p, by simp [stepsText, hd]⟩
  obtain ⟨c, cs, hfx⟩ := hfx
  have hr : isRelative (stepsText p) = false := by rw [hfx]; simp [isRelative, startsWith, List.isPrefixOf]
  have hn : stepsText p ≠ py!"/" := by rw [hfx]; simp
  rw [Helper.getEtree, encodePath_text look caller p hne h]
  simp only [hr, Bool.false_eq_true, false_and, if_false, hn, Helper.xpath]
  rw [if_neg (by simp), hpx]
  rfl

end Pyb
