import Verif.Lemmas.XPathParts
import Verif.Spec.Query

namespace Pyb
open Py Spec

/-! ## Expressions with parents -/

/-- A step of an expression: to the parent, or to children. -/
inductive XP where
  | up
  | node (s : PStep)

def XP.text : XP → Str
  | .up => py!".."
  | .node s => xText s

def XP.step : XP → XStep
  | .up => .parent
  | .node s => toXStep s

def XP.Ok : XP → Prop
  | .up => True
  | .node s => XOk s

theorem XP.last (x : XP) (h : x.Ok) : ∃ cs c, x.text = cs ++ [c] ∧ c ≠ '/' := by
  cases x with
  | up => exact ⟨py!".", '.', rfl, by decide⟩
  | node s => exact xText_ne s h

theorem XP.bal (x : XP) (h : x.Ok) : Bal x.text := by
  cases x with
  | up => exact bal_chars (by decide)
  | node s => exact bal_xText h

theorem XP.parse (x : XP) (h : x.Ok) : parseStep x.text = some x.step := by
  cases x with
  | up => rfl
  | node s => exact parseStep_text h

/-- The steps, each after a `/`. -/
def xpText : List XP → Str
  | [] => []
  | x :: xs => '/' :: x.text ++ xpText xs

theorem xpText_append (xs ys : List XP) : xpText (xs ++ ys) = xpText xs ++ xpText ys := by
  induction xs with
  | nil => rfl
  | cons x xs ih => simp [xpText, ih]

theorem xpText_rstrip : ∀ (xs : List XP) (e : Str), xs ≠ [] → (∀ x ∈ xs, x.Ok) →
    rstripBy (· = '/') (e ++ '/' :: xs.flatMap fun x => x.text ++ ['/']) = e ++ xpText xs := by
  intro xs
  induction xs with
  | nil => intro e h; exact absurd rfl h
  | cons x xs ih =>
    intro e _ h
    by_cases hp : xs = []
    · subst hp
      obtain ⟨cs, c, h1, h2⟩ := x.last (h x (by simp))
      have := rstripBy_tail (p := (· = '/')) (e ++ '/' :: cs) ['/'] (c := c) (by simpa using h2) (by simp)
      simpa [xpText, h1] using this
    · have := ih (e ++ '/' :: x.text) hp fun t ht => h t (by simp [ht])
      simpa [xpText] using this

theorem xpText_rstrip_rel (x : XP) (xs : List XP) (h : ∀ y ∈ x :: xs, y.Ok) :
    rstripBy (· = '/') ((x :: xs).flatMap fun x => x.text ++ ['/']) = x.text ++ xpText xs := by
  by_cases hp : xs = []
  · subst hp
    obtain ⟨cs, c, h1, h2⟩ := x.last (h x (by simp))
    have := rstripBy_tail (p := (· = '/')) cs ['/'] (c := c) (by simpa using h2) (by simp)
    simpa [xpText, h1] using this
  · have := xpText_rstrip xs x.text hp fun t ht => h t (by simp [ht])
    simpa using this

theorem splitSteps_xp : ∀ (xs : List XP) (a : Str), Bal a → (∀ x ∈ xs, x.Ok) →
    splitSteps false (a ++ xpText xs) = a :: xs.map XP.text := by
  intro xs
  induction xs with
  | nil =>
    intro a ha _
    have := ha []
    simpa [xpText, splitSteps, prependHd] using this
  | cons x xs ih =>
    intro a ha h
    have h1 := ih x.text (x.bal (h x (by simp))) fun t ht => h t (by simp [ht])
    rw [xpText, ha, List.cons_append, splitSteps, if_pos (by simp), h1]
    simp [prependHd]

theorem parseStepList_xp (xs : List XP) (h : ∀ x ∈ xs, x.Ok) : parseStepList (xs.map XP.text) = some (xs.map XP.step) := by
  induction xs with
  | nil => rfl
  | cons x xs ih =>
    rw [List.map_cons, parseStepList, x.parse (h x (by simp)), ih fun t ht => h t (by simp [ht])]
    rfl

theorem xpath_xp (hp : Helper) (xs : List XP) (hne : xs ≠ []) (h : ∀ x ∈ xs, x.Ok) :
    hp.xpath ('.' :: xpText xs) = .ok ((xs.map XP.step).foldl (evalStep hp.elems) (hp.elems.take 1)) := by
  have hpx : parseXPath ('.' :: xpText xs) = some (.self :: xs.map XP.step) := by
    have h1 := splitSteps_xp xs ['.'] (bal_char (by decide) (by decide)) h
    rw [parseXPath]
    have e : '.' :: xpText xs = ['.'] ++ xpText xs := rfl
    rw [e, h1, parseStepList, parseStepList_xp xs h]
    rfl
  rw [Helper.xpath, if_neg (by simp), hpx]
  rfl

theorem xpText_head (xs : List XP) (hne : xs ≠ []) (h : ∀ x ∈ xs, x.Ok) : ∃ c cs, xpText xs = '/' :: c :: cs := by
  cases xs with
  | nil => exact absurd rfl hne
  | cons s p =>
    obtain ⟨cs, c, h1, _⟩ := s.last (h s (by simp))
    have : s.text ≠ [] := by rw [h1]; simp
    obtain ⟨d, ds, hd⟩ := List.exists_cons_of_ne_nil this
    exact ⟨d, ds ++ xpText p, by simp [xpText, hd]⟩

/-- A lookup from the root. -/
theorem getEtree_xp (hp : Helper) (look caller path) {xs : List XP} (hne : xs ≠ []) (h : ∀ x ∈ xs, x.Ok)
    (he : encodePath look caller path = .ok (xpText xs)) :
    hp.getEtree look path caller = .ok ((xs.map XP.step).foldl (evalStep hp.elems) (hp.elems.take 1)) := by
  obtain ⟨c, cs, hfx⟩ := xpText_head xs hne h
  have hr : isRelative (xpText xs) = false := by rw [hfx]; simp [isRelative, startsWith, List.isPrefixOf]
  have hn : xpText xs ≠ py!"/" := by rw [hfx]; simp
  rw [Helper.getEtree, he]
  simp only [hr, Bool.false_eq_true, false_and, if_false, hn]
  exact xpath_xp hp xs hne h

/-- A lookup from the caller. -/
theorem getEtree_rel (hp : Helper) (look path) {c : List Str} {xs ys : List XP} (hc : c ≠ []) (h : ∀ x ∈ ys ++ .up :: xs, x.Ok)
    (he : encodePath look (some c) path = .ok (XP.up.text ++ xpText xs)) (hcal : encodePath look none c = .ok (xpText ys)) :
    hp.getEtree look path (some c) = .ok (((ys ++ .up :: xs).map XP.step).foldl (evalStep hp.elems) (hp.elems.take 1)) := by
  have hr : isRelative (XP.up.text ++ xpText xs) = true := by simp [XP.text, isRelative, startsWith, List.isPrefixOf]
  rw [Helper.getEtree, he]
  simp only [hr, Option.getD_some, true_and, ne_eq, hc, not_false_eq_true, if_true, hcal]
  have := xpath_xp hp (ys ++ .up :: xs) (by simp) h
  rw [xpText_append] at this
  simpa [xpText] using this

/-! ## Encoding -/

/-- The text is encoded as the step. -/
def Enc (look : List Str → Except Err (List Str)) (caller : Option (List Str)) (t : Str) (x : XP) : Prop :=
  ∀ e rest, encodeGo look caller e (t :: rest) = encodeGo look caller (e ++ x.text ++ ['/']) rest

theorem encodeGo_all {look caller} : ∀ (l : List (Str × XP)) (e : Str), (∀ y ∈ l, Enc look caller y.1 y.2) →
    encodeGo look caller e (l.map Prod.fst) = .ok (e ++ (l.map Prod.snd).flatMap fun x => x.text ++ ['/']) := by
  intro l
  induction l with
  | nil => intro e _; simp [encodeGo]
  | cons y l ih =>
    intro e h
    rw [List.map_cons, h y (by simp), ih _ fun z hz => h z (by simp [hz])]
    simp

theorem encodePath_root {look caller} (l : List (Str × XP)) (hne : l ≠ []) (h : ∀ y ∈ l, Enc look caller y.1 y.2 ∧ y.2.Ok) :
    encodePath look caller ([] :: l.map Prod.fst) = .ok (xpText (l.map Prod.snd)) := by
  have hgo := encodeGo_all l ['/'] fun y hy => (h y hy).1
  have hr : isRelative [] = false := rfl
  simp only [encodePath, hr, if_true, Bool.false_eq_true, if_false, hgo, Except.map]
  have := xpText_rstrip (l.map Prod.snd) [] (by simpa using hne) (by
    intro x hx
    obtain ⟨y, hy, rfl⟩ := List.mem_map.1 hx
    exact (h y hy).2)
  simpa using this

theorem encodePath_abs {look caller} (l : List (Str × XP)) (y : Str × XP) (h1 : isRelative y.1 = false) (h2 : y.1 ≠ [])
    (h : ∀ z ∈ y :: l, Enc look caller z.1 z.2 ∧ z.2.Ok) :
    encodePath look caller ((y :: l).map Prod.fst) = .ok (xpText ((y :: l).map Prod.snd)) := by
  have := encodePath_root (y :: l) (by simp) h
  rw [← this, List.map_cons]
  have hr : isRelative [] = false := rfl
  simp only [encodePath, h1, h2, hr, if_true, if_false, Bool.false_eq_true]

theorem encodePath_rel {look caller} (l : List (Str × XP)) (y : Str × XP) (h1 : isRelative y.1 = true)
    (h : ∀ z ∈ y :: l, Enc look caller z.1 z.2 ∧ z.2.Ok) :
    encodePath look caller ((y :: l).map Prod.fst) = .ok (y.2.text ++ xpText (l.map Prod.snd)) := by
  have hgo := encodeGo_all (y :: l) [] fun z hz => (h z hz).1
  have h2 : y.1 ≠ [] := by rintro e; rw [e] at h1; cases h1
  rw [List.map_cons] at hgo
  simp only [encodePath, List.map_cons, h1, h2, if_true, if_false, hgo, Except.map]
  have := xpText_rstrip_rel y.2 (l.map Prod.snd) (by
    intro x hx
    rw [← List.map_cons] at hx
    obtain ⟨z, hz, rfl⟩ := List.mem_map.1 hx
    exact (h z hz).2)
  simpa using this

theorem enc_up (look caller) : Enc look caller py!".." .up := by
  intro e rest
  rw [encodeGo]
  have : tagAttrs py!".." = .ok (py!"..", none) := by decide
  rw [this]
  have hl : localName py!".." = py!".." := by decide
  simp [encodeStep, hl, XP.text]

theorem enc_text {look caller} {s : PStep} (hs : s.Good) : Enc look caller s.text (.node s) := by
  intro e rest
  have hcol : ':' ∉ s.tag := fun hm => ((name_chars (good_tag hs)).2 _ hm).2.2.2.2.2.2.1 rfl
  rw [encodeGo, tagAttrs_text hs]
  by_cases hk : s.keys = []
  · simp only [hk, if_true]
    simp [encodeStep, localName_plain hcol, XP.text, xText, hk]
  · simp only [hk, if_false]
    rw [resolveAttrs_plain look caller s.keys fun k hk => (hs.values k hk).2.2]
    simp only
    rw [encodeStep_keys e hcol hk]
    simp [XP.text, xText, hk]

/-! ## Names -/

theorem ident_chars {s : Str} (h : Identifier s) : s ≠ [] ∧ ∀ c ∈ s, c ≠ '[' ∧ c ≠ ']' ∧ c ≠ '/' ∧ c ≠ '\'' ∧ c ≠ '=' ∧ c ≠ '|' ∧ c ≠ ':' ∧ c ≠ ' ' ∧ c ≠ '"' :=
  name_chars (ident_valid h)

theorem ident_arg {s : Str} (h : Identifier s) : ∀ c ∈ s, argChar c = true := by
  intro c hc
  have h1 := (ident_chars h).2 c hc
  have h2 : c ≠ '^' := by
    rintro rfl
    rcases h.1 _ hc with h | h
    · revert h; unfold PlainChar; decide
    · revert h; decide
  simp [argChar, h1, h2]

theorem qname_local {n : QName} (h : n.Good) : localName n.text = n.name := by
  have h1 : ':' ∉ n.name := fun hm => ((ident_chars h.name).2 _ hm).2.2.2.2.2.2.1 rfl
  cases hp : n.pfx with
  | none => rw [QName.text, hp]; exact localName_plain h1
  | some p =>
    have h2 : ':' ∉ p := fun hm => ((ident_chars (h.pfx p hp)).2 _ hm).2.2.2.2.2.2.1 rfl
    rw [QName.text, hp]
    simp only [localName]
    rw [if_pos (by simp), splitOn_append_sep _ _ _ h2, splitOn_of_not_mem h1]
    rfl

theorem qname_chars {n : QName} (h : n.Good) : n.text ≠ [] ∧ isRelative n.text = false ∧
    ∀ c ∈ n.text, c ≠ '[' ∧ c ≠ ']' ∧ c ≠ '/' ∧ c ≠ '\'' ∧ c ≠ '=' ∧ c ≠ '|' ∧ c ≠ ' ' ∧ c ≠ '"' ∧ argChar c = true := by
  have h1 := ident_chars h.name
  have h2 := ident_arg h.name
  cases hp : n.pfx with
  | none =>
    rw [QName.text, hp]
    exact ⟨h1.1, ident_head (ident_valid h.name), fun c hc => by simp [h1.2 c hc, h2 c hc]⟩
  | some p =>
    have h3 := ident_chars (h.pfx p hp)
    have h4 := ident_arg (h.pfx p hp)
    rw [QName.text, hp]
    refine ⟨by simp, ?_, fun c hc => ?_⟩
    · have := ident_head (ident_valid (h.pfx p hp))
      obtain ⟨c, cs, he⟩ := List.exists_cons_of_ne_nil h3.1
      simp only [he, isRelative, startsWith, List.isPrefixOf, List.cons_append] at this ⊢
      exact this
    · simp only [List.mem_append, List.mem_cons] at hc
      rcases hc with hc | rfl | hc
      · simp [h3.2 c hc, h4 c hc]
      · decide
      · simp [h1.2 c hc, h2 c hc]

theorem key_cmd {n : QName} (h : n.GoodKey) : ∀ c ∈ n.text, cmdChar c = true := by
  have key : ∀ s : Str, Identifier s → '.' ∉ s → ∀ c ∈ s, cmdChar c = true := by
    intro s hs hd c hc
    rcases hs.1 c hc with h | rfl
    · exact (plain_cmd h).1
    · exact absurd hc hd
  cases hp : n.pfx with
  | none => rw [QName.text, hp]; exact key _ h.name h.dot
  | some p =>
    rw [QName.text, hp]
    intro c hc
    simp only [List.mem_append, List.mem_cons] at hc
    rcases hc with hc | rfl | hc
    · exact key _ (h.pfx p hp) (h.pfxDot p hp) c hc
    · decide
    · exact key _ h.name h.dot c hc

theorem tagAttrs_none {t : Str} (h : '[' ∉ t) : tagAttrs t = .ok (t, none) := by
  have := takeWhile_all (p := (· ≠ '[')) (a := t) (by
    intro x hx
    have : x ≠ '[' := fun e => h (e ▸ hx)
    simp [this])
  rw [tagAttrs, attrRe, this.2, if_pos (.inr rfl)]

theorem enc_name {look caller} {n : QName} (h : n.Good) : Enc look caller n.text (.node ⟨n.name, []⟩) := by
  intro e rest
  have hb : '[' ∉ n.text := fun hm => ((qname_chars h).2.2 _ hm).1 rfl
  rw [encodeGo, tagAttrs_none hb]
  simp [encodeStep, qname_local h, XP.text, xText]

theorem xok_name {n : QName} (h : n.Good) : XP.Ok (.node ⟨n.name, []⟩) := ⟨ident_valid h.name, by simp, by simp⟩

/-! ## Comparisons -/

theorem drop_spaces (n : Nat) {x : Char} (hx : x ≠ ' ') (r : Str) : (List.replicate n ' ' ++ x :: r).dropWhile (· = ' ') = x :: r := by
  induction n with
  | zero => simp [hx]
  | succ n ih => simpa [List.replicate_succ] using ih

/-- The value as it is read. -/
def _root_.Spec.QVal.raw : QVal → Str
  | .lit _ v => v
  | .current rs => QVal.text (.current rs)

theorem current_chars {rs : List RStep} (h : GoodCurrent rs) : ∀ c ∈ QVal.text (.current rs), argChar c = true ∧ c ≠ '|' ∧ c ≠ ']' ∧ c ≠ '[' ∧ c ≠ '"' := by
  intro c hc
  have h0 : ∀ c ∈ py!"current()", argChar c = true ∧ c ≠ '|' ∧ c ≠ ']' ∧ c ≠ '[' ∧ c ≠ '"' := by decide
  rw [QVal.text] at hc
  rcases List.mem_append.1 hc with hc | hc
  · exact h0 c hc
  simp only [List.mem_flatMap, List.mem_cons] at hc
  obtain ⟨r, hr, rfl | hc⟩ := hc
  · decide
  · cases r with
    | up =>
      have h1 : ∀ c ∈ py!"..", argChar c = true ∧ c ≠ '|' ∧ c ≠ ']' ∧ c ≠ '[' ∧ c ≠ '"' := by decide
      exact h1 c hc
    | name n =>
      have := (qname_chars (h.1 n hr)).2.2 c hc
      exact ⟨this.2.2.2.2.2.2.2.2, this.2.2.2.2.2.1, this.2.1, this.1, this.2.2.2.2.2.2.2.1⟩

theorem raw_chars {v : QVal} (h : v.Good) : v.raw ≠ [] ∧ '|' ∉ v.raw ∧ ']' ∉ v.raw := by
  cases v with
  | lit q w =>
    obtain ⟨_, h1, h2, _⟩ := h
    exact ⟨h1, fun hm => (h2 _ hm).2.2.2.2.2.1 rfl, fun hm => (h2 _ hm).2.2.2.2.1 rfl⟩
  | current rs =>
    have := current_chars h
    refine ⟨by simp [QVal.raw, QVal.text], fun hm => (this _ hm).2.1 rfl, fun hm => (this _ hm).2.2.1 rfl⟩

/-- Reading a value. -/
theorem argValue_val {v : QVal} (h : v.Good) {rest : Str} (hr : rest = [] ∨ ∃ r, rest = ' ' :: r) :
    argValue (dropOne isQuote (v.text ++ rest)) = some (v.raw, rest.dropWhile (· = ' ')) := by
  cases v with
  | lit q w =>
    obtain ⟨hq, h1, h2, _⟩ := h
    have hqq : isQuote q = true := by rcases hq with rfl | rfl <;> decide
    have hqa : argChar q = false := by rcases hq with rfl | rfl <;> decide
    have hw : ∀ c ∈ w, argChar c = true := by
      intro c hc
      obtain ⟨a1, a2, a3, a4, _⟩ := h2 c hc
      simp [argChar, a1, a2, a3, a4]
    have e : QVal.text (.lit q w) ++ rest = q :: (w ++ q :: rest) := by simp [QVal.text]
    have hst := takeWhile_stop (p := argChar) (a := w) (c := q) (b := rest) hw hqa
    have hd : dropOne isQuote (q :: (w ++ q :: rest)) = w ++ q :: rest := by simp [dropOne, hqq]
    rw [e, hd, argValue, hst.1, hst.2, if_neg h1]
    simp [dropOne, hqq, QVal.raw]
  | current rs =>
    have hc := current_chars h
    have hd : dropOne isQuote (QVal.text (.current rs) ++ rest) = QVal.text (.current rs) ++ rest := rfl
    have hne : QVal.text (.current rs) ≠ [] := by simp [QVal.text]
    rw [hd, argValue]
    rcases hr with rfl | ⟨r, rfl⟩
    · have := takeWhile_all (p := argChar) (a := QVal.text (.current rs)) fun c h => (hc c h).1
      rw [List.append_nil, this.1, this.2, if_neg hne]
      rfl
    · have := takeWhile_stop (p := argChar) (a := QVal.text (.current rs)) (c := ' ') (b := r) (fun c h => (hc c h).1) (by decide)
      rw [this.1, this.2, if_neg hne]
      rfl

theorem takeWhile_cmd {k : Str} (hk : ∀ c ∈ k, cmdChar c = true) (n : Nat) (r : Str) :
    (k ++ (List.replicate n ' ' ++ '=' :: r)).takeWhile cmdChar = k ∧
    (k ++ (List.replicate n ' ' ++ '=' :: r)).dropWhile cmdChar = List.replicate n ' ' ++ '=' :: r := by
  cases n with
  | zero => exact takeWhile_stop hk (by decide)
  | succ n => exact takeWhile_stop (c := ' ') (b := List.replicate n ' ' ++ '=' :: r) hk (by decide)

/-- The text of a comparison after the name. -/
theorem comp_text (c : QComp) (rest : Str) : c.text ++ rest = (if c.sign then ['@'] else []) ++
    (c.name.text ++ (List.replicate c.before ' ' ++ '=' :: (List.replicate c.after ' ' ++ (c.val.text ++ rest)))) := by
  simp [QComp.text]

theorem val_head {v : QVal} (h : v.Good) : ∃ c cs, v.text = c :: cs ∧ c ≠ ' ' := by
  cases v with
  | lit q w => exact ⟨q, w ++ [q], rfl, by rcases h.1 with rfl | rfl <;> decide⟩
  | current rs => exact ⟨'c', _, rfl, by decide⟩

/-- Reading a comparison. -/
theorem argCore_comp {c : QComp} (hn : c.name.GoodKey) (hv : c.val.Good) {rest : Str} (hr : rest = [] ∨ ∃ r, rest = ' ' :: r) :
    argCore (c.text ++ rest) = some (c.name.text, c.val.raw, rest.dropWhile (· = ' ')) := by
  have hk := key_cmd hn
  have hne := (qname_chars hn.toGood).1
  obtain ⟨x, xs, hx⟩ := List.exists_cons_of_ne_nil hne
  have hat : dropOne (· = '@') (c.text ++ rest) =
      c.name.text ++ (List.replicate c.before ' ' ++ '=' :: (List.replicate c.after ' ' ++ (c.val.text ++ rest))) := by
    rw [comp_text]
    cases c.sign with
    | true => simp [dropOne]
    | false =>
      have : x ≠ '@' := (cmdChar_not x (hk x (by simp [hx]))).1
      simp [hx, dropOne, this]
  obtain ⟨y, ys, hy, hy'⟩ := val_head hv
  have hsp := drop_spaces c.after hy' (ys ++ rest)
  rw [argCore, hat, (takeWhile_cmd hk _ _).1, (takeWhile_cmd hk _ _).2, if_neg hne, drop_spaces _ (by decide)]
  simp only
  have e : c.val.text ++ rest = y :: (ys ++ rest) := by simp [hy]
  rw [e, hsp, ← e, argValue_val hv hr]
  rfl

/-- The first comparison of a predicate: its name may be `and` or `or`. -/
theorem argRe_comp {c : QComp} (hn : c.name.GoodKey) (hv : c.val.Good) {rest : Str} (hr : rest = [] ∨ ∃ r, rest = ' ' :: r) :
    argRe (c.text ++ rest) = some (c.name.text, c.val.raw, rest.dropWhile (· = ' ')) := by
  have hcore := argCore_comp hn hv hr
  have key : ∀ w : Str, (∀ c ∈ w, cmdChar c = true) → w ≠ [] → startsWith (c.text ++ rest) (w ++ [' ']) = true →
      argCore ((c.text ++ rest).drop (w.length + 1)) = none := by
    intro w hw hwne hs
    obtain ⟨t, ht⟩ := List.isPrefixOf_iff_prefix.1 hs
    have hd : (c.text ++ rest).drop (w.length + 1) = t := by
      rw [← ht]
      have : w.length + 1 = (w ++ [' ']).length := by simp
      rw [this, List.drop_left]
    rw [hd]
    rw [comp_text] at ht
    cases hsg : c.sign with
    | true =>
      obtain ⟨x, xs, hx⟩ := List.exists_cons_of_ne_nil hwne
      rw [hsg, hx] at ht
      simp only [if_true, List.cons_append, List.nil_append, List.cons.injEq] at ht
      exact absurd ht.1 (cmdChar_not x (hw x (by simp [hx]))).1
    | false =>
      rw [hsg] at ht
      simp only [Bool.false_eq_true, if_false, List.nil_append, List.append_assoc, List.cons_append] at ht
      have h1 := takeWhile_stop (p := cmdChar) (a := w) (c := ' ') (b := t) hw (by decide)
      rw [ht] at h1
      have h2 := takeWhile_cmd (key_cmd hn) c.before (List.replicate c.after ' ' ++ (c.val.text ++ rest))
      have h3 : List.replicate c.before ' ' ++ '=' :: (List.replicate c.after ' ' ++ (c.val.text ++ rest)) = ' ' :: t := h2.2.symm.trans h1.2
      cases hb : c.before with
      | zero => rw [hb] at h3; simp at h3
      | succ n =>
        rw [hb] at h3
        simp only [List.replicate_succ, List.cons_append, List.cons.injEq, true_and] at h3
        rw [← h3]
        cases n <;> simp [argCore, dropOne, cmdChar, isDigit, List.replicate_succ]
  unfold argRe
  split
  · rename_i hs
    have := key py!"and" (by decide) (by decide) hs
    simp only [List.length_cons, List.length_nil] at this
    rw [this, hcore]
    rfl
  · split
    · rename_i hs
      have := key py!"or" (by decide) (by decide) hs
      simp only [List.length_cons, List.length_nil] at this
      rw [this, hcore]
      rfl
    · exact hcore

/-- A comparison after `and`. -/
theorem argRe_and {c : QComp} (hn : c.name.GoodKey) (hv : c.val.Good) {rest : Str} (hr : rest = [] ∨ ∃ r, rest = ' ' :: r) :
    argRe (py!"and " ++ (c.text ++ rest)) = some (c.name.text, c.val.raw, rest.dropWhile (· = ' ')) := by
  have hs : startsWith (py!"and " ++ (c.text ++ rest)) py!"and " = true := by simp [startsWith, List.isPrefixOf]
  have hd : (py!"and " ++ (c.text ++ rest)).drop 4 = c.text ++ rest := rfl
  rw [argRe, if_pos hs, hd, argCore_comp hn hv hr]
  rfl

/-- What is needed of the comparisons of a step. -/
structure CompsOk (cs : List QComp) : Prop where
  each : ∀ c ∈ cs, c.name.GoodKey ∧ c.val.Good
  nodup : (cs.map fun c => c.name.name).Nodup

def _root_.Spec.QComp.pair (c : QComp) : Str × Str := (c.name.name, c.val.raw)

theorem comp_nobar {c : QComp} (hn : c.name.GoodKey) (hv : c.val.Good) : '|' ∉ c.text ∧ ']' ∉ c.text := by
  have h1 := (qname_chars hn.toGood).2.2
  have h2 : '|' ∉ c.val.text ∧ ']' ∉ c.val.text := by
    have := raw_chars hv
    cases hcv : c.val with
    | lit q w =>
      rw [hcv] at this hv
      have hq : q ≠ '|' ∧ q ≠ ']' := by rcases hv.1 with rfl | rfl <;> decide
      simp only [QVal.raw] at this
      simp [QVal.text, this, Ne.symm hq.1, Ne.symm hq.2]
    | current rs => rw [hcv] at this; exact this.2
  constructor <;> rw [← List.append_nil c.text, comp_text] <;>
  · simp only [List.mem_append, List.mem_cons, not_or, List.append_nil]
    refine ⟨by split <;> simp, fun h => ?_, by simp, by decide, by simp, by first | exact h2.1 | exact h2.2⟩
    first | exact (h1 _ h).2.2.2.2.2.1 rfl | exact (h1 _ h).2.1 rfl

theorem comps_nobar : ∀ (cs : List QComp), (∀ c ∈ cs, c.name.GoodKey ∧ c.val.Good) → '|' ∉ compsText cs ∧ ']' ∉ compsText cs := by
  intro cs
  fun_induction compsText cs with
  | case1 => simp
  | case2 c => intro h; exact comp_nobar (h c (by simp)).1 (h c (by simp)).2
  | case3 c d r ih =>
    intro h
    have h1 := comp_nobar (h c (by simp)).1 (h c (by simp)).2
    have h2 := ih fun x hx => h x (List.mem_cons_of_mem _ hx)
    simp [h1, h2]

theorem argLoop_comps (cs : List QComp) : ∀ (b : Bool) (f : Nat) (d : Dict Str), CompsOk cs → (∀ c ∈ cs, c.name.name ∉ d.map (·.1)) →
    cs ≠ [] → cs.length ≤ f →
    argLoop f d ((if b then py!"and " else []) ++ compsText cs) = .ok (d ++ cs.map QComp.pair) := by
  induction cs with
  | nil => intro b f d _ _ h; exact absurd rfl h
  | cons c cs ih =>
    intro b f d hk hd _ hf
    obtain ⟨f, rfl⟩ : ∃ g, f = g + 1 := ⟨f - 1, by simp at hf; omega⟩
    obtain ⟨hn, hv⟩ := hk.each c (by simp)
    have hk' : CompsOk cs := ⟨fun x hx => hk.each x (by simp [hx]), (List.nodup_cons.1 hk.nodup).2⟩
    obtain ⟨rest, he, hr, hrest⟩ : ∃ rest, compsText (c :: cs) = c.text ++ rest ∧ (rest = [] ∨ ∃ r, rest = ' ' :: r) ∧
        rest.dropWhile (· = ' ') = if cs = [] then [] else py!"and " ++ compsText cs := by
      cases cs with
      | nil => exact ⟨[], by simp [compsText], .inl rfl, rfl⟩
      | cons e r => exact ⟨py!" and " ++ compsText (e :: r), by simp [compsText], .inr ⟨_, rfl⟩, by simp⟩
    have hre : argRe ((if b then py!"and " else []) ++ compsText (c :: cs)) =
        some (c.name.text, c.val.raw, if cs = [] then [] else py!"and " ++ compsText cs) := by
      rw [he, ← hrest]
      cases b with
      | true => exact argRe_and hn hv hr
      | false => simpa using argRe_comp hn hv hr
    have hne : (if b then py!"and " else []) ++ compsText (c :: cs) ≠ [] := by
      rw [he]
      have := (qname_chars hn.toGood).1
      rw [comp_text]
      simp
    obtain ⟨x, xs, hx⟩ := List.exists_cons_of_ne_nil hne
    rw [hx, argLoop, ← hx, hre]
    · have hb1 : '|' ∉ c.name.text := fun h => ((qname_chars hn.toGood).2.2 _ h).2.2.2.2.2.1 rfl
      have hb2 := (raw_chars hv).2.1
      have hb3 : '|' ∉ (if cs = [] then [] else py!"and " ++ compsText cs) := by
        split
        · simp
        · simp [(comps_nobar cs hk'.each).1]
      generalize hR : (if cs = [] then [] else py!"and " ++ compsText cs) = R at hb3
      have hs : splitBars (c.name.text ++ py!"||" ++ c.val.raw ++ py!"||" ++ R) = [c.name.text, c.val.raw, R] := by
        have : c.name.text ++ py!"||" ++ c.val.raw ++ py!"||" ++ R = c.name.text ++ '|' :: '|' :: (c.val.raw ++ '|' :: '|' :: R) := by simp
        rw [this, splitBars_sep _ hb1, splitBars_sep _ hb2, splitBars_plain hb3]
      simp only [hs]
      rw [qname_local hn.toGood, dict_set_new _ _ _ (hd c (by simp))]
      by_cases hcs : cs = []
      · subst hcs
        simp only [if_true] at hR
        subst hR
        cases f <;> rfl
      · rw [if_neg hcs] at hR
        subst hR
        have := ih true f (d ++ [(c.name.name, c.val.raw)]) hk' (by
          intro e he'
          simp only [List.map_append, List.mem_append, List.map_cons, List.map_nil, List.mem_singleton, not_or]
          refine ⟨hd e (List.mem_cons_of_mem _ he'), fun heq => ?_⟩
          have hm := List.mem_map_of_mem (f := fun c : QComp => c.name.name) he'
          simp only [heq] at hm
          exact (List.nodup_cons.1 hk.nodup).1 hm) hcs (by simp at hf; omega)
        simp only [if_true] at this
        rw [this]
        simp [QComp.pair]
    · intro h; cases h

/-! ## Predicates -/

theorem attrTail_more : ∀ (b r : Str), ']' ∉ b → attrTail 2 (b ++ ']' :: r) = (attrTail 0 r).map (b ++ ']' :: ·) := by
  intro b
  induction b with
  | nil => intro r _; rfl
  | cons c b ih =>
    intro r h
    have hc : c ≠ ']' := fun e => h (by simp [e])
    have := ih r fun hm => h (by simp [hm])
    simp only [List.cons_append, attrTail, hc, if_false, this]
    cases attrTail 0 r <;> rfl

def groups (bs : List Str) : Str := bs.flatMap fun b => '[' :: b ++ [']']

theorem attrTail_groups (bs : List Str) (h : ∀ b ∈ bs, b ≠ [] ∧ ']' ∉ b) : attrTail 0 (groups bs) = some (groups bs) := by
  induction bs with
  | nil => rfl
  | cons b bs ih =>
    obtain ⟨h1, h2⟩ := h b (by simp)
    have ih := ih fun x hx => h x (by simp [hx])
    obtain ⟨c, cs, rfl⟩ := List.exists_cons_of_ne_nil h1
    have hc : c ≠ ']' := fun e => h2 (by simp [e])
    have := attrTail_more cs (groups bs) fun hm => h2 (by simp [hm])
    have e : groups ((c :: cs) :: bs) = '[' :: c :: (cs ++ ']' :: groups bs) := by simp [groups]
    rw [e]
    simp [attrTail, hc, this, ih]

theorem splitOn_groups (bs : List Str) (h : ∀ b ∈ bs, ']' ∉ b) : splitOn ']' (groups bs) = bs.map ('[' :: ·) ++ [[]] := by
  induction bs with
  | nil => rfl
  | cons b bs ih =>
    have e : groups (b :: bs) = ('[' :: b) ++ ']' :: groups bs := by simp [groups]
    rw [e, splitOn_append_sep _ _ _ (by simp [h b (by simp)]), ih fun x hx => h x (by simp [hx])]
    rfl

theorem argParts_groups (preds : List (List QComp)) : ∀ (d : Dict Str), CompsOk preds.flatten → (∀ cs ∈ preds, cs ≠ []) →
    (∀ c ∈ preds.flatten, c.name.name ∉ d.map (·.1)) →
    argParts d (preds.map compsText ++ [[]]) = .ok (d ++ preds.flatten.map QComp.pair) := by
  induction preds with
  | nil => intro d _ _ _; simp [argParts, argLoop]
  | cons cs preds ih =>
    intro d hk hne hd
    have hk1 : CompsOk cs := ⟨fun c hc => hk.each c (by simp [hc]), by
      have := hk.nodup
      rw [List.flatten_cons, List.map_append] at this
      exact (List.nodup_append.1 this).1⟩
    have hk2 : CompsOk preds.flatten := ⟨fun c hc => hk.each c (by rw [List.flatten_cons]; exact List.mem_append_right _ hc), by
      have := hk.nodup
      rw [List.flatten_cons, List.map_append] at this
      exact (List.nodup_append.1 this).2.1⟩
    have hlen : ∀ cs : List QComp, cs.length ≤ (compsText cs).length + 1 := by
      intro cs
      fun_induction compsText cs with
      | case1 => simp
      | case2 => simp
      | case3 c d r ih => simp at ih ⊢; omega
    have h1 := argLoop_comps cs false ((compsText cs).length + 1) d hk1 (fun c hc => hd c (by simp [hc])) (hne cs (by simp)) (hlen cs)
    simp only [Bool.false_eq_true, if_false, List.nil_append] at h1
    rw [List.map_cons, List.cons_append, argParts, h1]
    simp only
    rw [ih _ hk2 (fun c hc => hne c (by simp [hc]))]
    · simp
    · intro c hc hm
      rw [List.map_append] at hm
      rcases List.mem_append.1 hm with hm | hm
      · exact hd c (by rw [List.flatten_cons]; exact List.mem_append_right _ hc) hm
      · rw [List.map_map] at hm
        have := hk.nodup
        rw [List.flatten_cons, List.map_append] at this
        exact (List.nodup_append.1 this).2.2 _ hm _ (List.mem_map_of_mem hc) rfl

theorem comps_ends (cs : List QComp) (h : ∀ c ∈ cs, c.name.GoodKey ∧ c.val.Good) (hne : cs ≠ []) :
    (∃ c r, compsText cs = c :: r ∧ c ≠ '[') ∧ ∃ r c, compsText cs = r ++ [c] ∧ c ≠ '[' := by
  have hh : ∀ c : QComp, c.name.GoodKey → ∃ x r, c.text = x :: r ∧ x ≠ '[' := by
    intro c hn
    obtain ⟨x, xs, hx⟩ := List.exists_cons_of_ne_nil (qname_chars hn.toGood).1
    have hxc := ((qname_chars hn.toGood).2.2 x (by simp [hx])).1
    rw [← List.append_nil c.text, comp_text]
    cases c.sign with
    | true => exact ⟨'@', _, rfl, by decide⟩
    | false => exact ⟨x, _, by rw [hx]; rfl, hxc⟩
  have hl : ∀ c : QComp, c.val.Good → ∃ r x, c.text = r ++ [x] ∧ x ≠ '[' := by
    intro c hv
    have : ∃ r x, c.val.text = r ++ [x] ∧ x ≠ '[' := by
      cases hcv : c.val with
      | lit q w =>
        rw [hcv] at hv
        exact ⟨q :: w, q, rfl, by rcases hv.1 with rfl | rfl <;> decide⟩
      | current rs =>
        rw [hcv] at hv
        rcases List.eq_nil_or_concat (QVal.text (.current rs)) with he | ⟨r, x, he⟩
        · simp [QVal.text] at he
        · rw [List.concat_eq_append] at he
          exact ⟨r, x, he, (current_chars hv x (by rw [he]; simp)).2.2.2.1⟩
    obtain ⟨r, x, he, hx⟩ := this
    exact ⟨(if c.sign then ['@'] else []) ++ c.name.text ++ List.replicate c.before ' ' ++ '=' :: List.replicate c.after ' ' ++ r, x,
      by rw [QComp.text, he]; simp, hx⟩
  fun_induction compsText cs with
  | case1 => exact absurd rfl hne
  | case2 c => exact ⟨hh c (h c (by simp)).1, hl c (h c (by simp)).2⟩
  | case3 c d r ih =>
    obtain ⟨_, r', x, he, hx⟩ := ih (fun y hy => h y (List.mem_cons_of_mem _ hy)) (by simp)
    obtain ⟨y, ys, hy, hy'⟩ := hh c (h c (by simp)).1
    exact ⟨⟨y, ys ++ py!" and " ++ compsText (d :: r), by simp [hy], hy'⟩, c.text ++ py!" and " ++ r', x, by rw [he]; simp, hx⟩

/-- A step with predicates is read. -/
theorem tagAttrs_step {n : QName} (hn : n.Good) {preds : List (List QComp)} (hk : CompsOk preds.flatten) (hne : ∀ cs ∈ preds, cs ≠ []) (hp : preds ≠ []) :
    tagAttrs (QPart.text (.step n preds)) = .ok (n.text, some (preds.flatten.map QComp.pair)) := by
  have hchars := qname_chars hn
  have hbr : '[' ∉ n.text := fun h => (hchars.2.2 _ h).1 rfl
  have hbar : '|' ∉ n.text := fun h => (hchars.2.2 _ h).2.2.2.2.2.1 rfl
  have heach : ∀ cs ∈ preds, ∀ c ∈ cs, c.name.GoodKey ∧ c.val.Good := fun cs h c hc => hk.each c (List.mem_flatten.2 ⟨cs, h, hc⟩)
  have he : QPart.text (.step n preds) = n.text ++ groups (preds.map compsText) := by
    simp [QPart.text, groups, List.flatMap_map]
  have hbs : ∀ b ∈ preds.map compsText, b ≠ [] ∧ ']' ∉ b := by
    intro b hb
    obtain ⟨cs, hcs, rfl⟩ := List.mem_map.1 hb
    obtain ⟨⟨c, r, h1, _⟩, _⟩ := comps_ends cs (heach cs hcs) (hne cs hcs)
    exact ⟨by rw [h1]; simp, (comps_nobar cs (heach cs hcs)).2⟩
  obtain ⟨t, ht⟩ : ∃ t, groups (preds.map compsText) = '[' :: t := by
    cases preds with
    | nil => exact absurd rfl hp
    | cons cs preds => exact ⟨_, rfl⟩
  have hre : attrRe (n.text ++ groups (preds.map compsText)) = some (n.text, groups (preds.map compsText), []) := by
    have htw := takeWhile_stop (p := (· ≠ '[')) (a := n.text) (c := '[') (b := t) (by
      intro x hx
      have : x ≠ '[' := fun e => hbr (e ▸ hx)
      simp [this]) (by simp)
    rw [attrRe, ht, htw.1, htw.2, if_neg (by simp [hchars.1]), ← ht, attrTail_groups _ hbs]
    simp
  have hgb : '|' ∉ groups (preds.map compsText) := by
    intro hm
    simp only [groups, List.mem_flatMap, List.mem_map, List.mem_append, List.mem_cons, List.not_mem_nil, or_false] at hm
    obtain ⟨_, ⟨cs, hcs, rfl⟩, (h | h) | h⟩ := hm
    · revert h; decide
    · exact (comps_nobar cs (heach cs hcs)).1 h
    · revert h; decide
  have hs : splitBars (n.text ++ py!"||" ++ groups (preds.map compsText) ++ []) = [n.text, groups (preds.map compsText)] := by
    have : n.text ++ py!"||" ++ groups (preds.map compsText) ++ [] = n.text ++ '|' :: '|' :: groups (preds.map compsText) := by simp
    rw [this, splitBars_sep _ hbar, splitBars_plain hgb]
  have hst : ((preds.map compsText).map ('[' :: ·) ++ [[]]).map stripBracket = preds.map compsText ++ [[]] := by
    rw [List.map_append, List.map_map, List.map_map]
    congr 1
    apply List.map_congr_left
    intro cs hcs
    obtain ⟨⟨c, r, h1, h2⟩, r', c', h3, h4⟩ := comps_ends cs (heach cs hcs) (hne cs hcs)
    apply stripBracket_cons
    · intro x xs hx
      rw [h1] at hx
      cases hx
      exact h2
    · intro xs x hx
      rw [h3] at hx
      have := (List.append_inj' hx rfl).2
      cases this
      exact h4
  have hap := argParts_groups preds [] hk hne (by simp)
  rw [tagAttrs, he, hre]
  simp only [hs]
  rw [splitOn_groups _ fun b hb => (hbs b hb).2, hst, hap]
  rfl

theorem encodeStep_some (e : Str) {t : Str} {ks : List (Str × Str)} (hne : ks ≠ []) :
    encodeStep e t (some ks) = e ++ (localName t ++ '[' :: attrBody ks ++ [']']) ++ ['/'] := by
  obtain ⟨cs, hcs⟩ := attrBody_last ks hne
  rw [encodeStep, attrText_body ks hne, hcs]
  have e1 : e ++ localName t ++ '[' :: (cs ++ ['\''] ++ py!" and ") = (e ++ localName t ++ '[' :: cs) ++ ['\''] ++ py!" and " := by simp
  rw [e1, rstripBy_tail _ _ (by decide) (by decide), rstripBy_last _ (by decide)]
  simp

/-! ## `current()` -/

theorem hasCurrent_text (rs : List RStep) : hasCurrent (QVal.text (.current rs)) = true := by
  simp [QVal.text, hasCurrent, startsWith, List.isPrefixOf]

theorem dropCurrent_text (t : Str) : dropCurrent (py!"current()" ++ t) = t := by
  simp [dropCurrent, startsWith, List.isPrefixOf]

theorem rstep_slash {rs : List RStep} (h : ∀ n, .name n ∈ rs → QName.Good n) : ∀ r ∈ rs, '/' ∉ r.text := by
  intro r hr
  cases r with
  | up => decide
  | name n => exact fun hm => ((qname_chars (h n hr)).2.2 _ hm).2.2.1 rfl

theorem splitOn_rsteps : ∀ (rs : List RStep), (∀ n, .name n ∈ rs → QName.Good n) →
    splitOn '/' (rs.flatMap fun r => '/' :: r.text) = [] :: rs.map RStep.text := by
  have key : ∀ (rs : List RStep) (a : Str), '/' ∉ a → (∀ n, .name n ∈ rs → QName.Good n) →
      splitOn '/' (a ++ rs.flatMap fun r => '/' :: r.text) = a :: rs.map RStep.text := by
    intro rs
    induction rs with
    | nil => intro a ha _; simpa using splitOn_of_not_mem ha
    | cons r rs ih =>
      intro a ha h
      have e : (a ++ (r :: rs).flatMap fun r => '/' :: r.text) = a ++ '/' :: (r.text ++ rs.flatMap fun r => '/' :: r.text) := by simp
      rw [e, splitOn_append_sep _ _ _ ha, ih r.text (rstep_slash h r (by simp)) fun n hn => h n (by simp [hn])]
      rfl
  intro rs h
  exact key rs [] (by simp) h

/-- The path asked for. -/
def currentParts (c : List PStep) (rs : List RStep) : List Str :=
  match rs with
  | .up :: rs => c.dropLast.map PStep.text ++ rs.map RStep.text
  | rs => c.map PStep.text ++ rs.map RStep.text

theorem currentPath_text {rs : List RStep} (h : GoodCurrent rs) (c : List PStep) :
    currentPath (some (c.map PStep.text)) (QVal.text (.current rs)) = .ok (currentParts c rs) := by
  have hne : rs ≠ [] := by obtain ⟨_, i, n, rfl⟩ := h; simp
  rw [currentPath, QVal.text, dropCurrent_text, splitOn_rsteps rs h.1]
  cases rs with
  | nil => exact absurd rfl hne
  | cons r rs =>
    simp only [List.map_cons]
    cases r with
    | up => simp [RStep.text, currentParts]
    | name n =>
      have : n.text ≠ py!".." := by
        intro e
        have := (qname_chars (h.1 n (by simp))).2.1
        rw [e] at this
        cases this
      simp [RStep.text, this, currentParts]

/-- The values stand for texts. -/
def Resolves (look : List Str → Except Err (List Str)) (caller : Option (List Str)) : QVal → Str → Prop
  | .lit _ v, w => w = v
  | .current rs, w => ∃ l, currentPath caller (QVal.text (.current rs)) = .ok l ∧ look l = .ok [w]

theorem resolveAttrs_comps {look caller} (w : QComp → Str) : ∀ (cs : List QComp), (∀ c ∈ cs, c.val.Good ∧ Resolves look caller c.val (w c)) →
    resolveAttrs look caller (cs.map QComp.pair) = .ok (cs.map fun c => (c.name.name, w c)) := by
  intro cs
  induction cs with
  | nil => intro _; rfl
  | cons c cs ih =>
    intro h
    have ih := ih fun x hx => h x (by simp [hx])
    obtain ⟨hg, hr⟩ := h c (by simp)
    rw [List.map_cons, resolveAttrs]
    cases hv : c.val with
    | lit q v =>
      rw [hv] at hg hr
      have h1 : hasCurrent c.pair.2 = false := by simp only [QComp.pair, hv, QVal.raw]; exact hasCurrent_false hg.2.2.2
      have h2 : w c = v := hr
      simp only [h1, Bool.false_eq_true, if_false, ih, Except.map]
      simp [QComp.pair, hv, QVal.raw, h2]
    | current rs =>
      rw [hv] at hg hr
      obtain ⟨l, h3, h4⟩ := hr
      have h1 : c.pair.2 = QVal.text (.current rs) := by simp [QComp.pair, hv, QVal.raw]
      have h2 : hasCurrent c.pair.2 = true := by rw [h1]; exact hasCurrent_text rs
      rw [if_pos h2, h1, h3]
      simp only [h4, ih, Except.map]
      simp [QComp.pair]

/-- A part, with texts in place of the values. -/
def xpOf (w : QComp → Str) : QPart → XP
  | .up => .up
  | .step n preds => .node ⟨n.name, preds.flatten.map fun c => (c.name.name, w c)⟩

theorem enc_part {look caller} (w : QComp → Str) {p : QPart} (h : p.Good)
    (hw : ∀ n preds, p = .step n preds → ∀ c ∈ preds.flatten, Resolves look caller c.val (w c)) : Enc look caller p.text (xpOf w p) := by
  cases p with
  | up => exact enc_up look caller
  | step n preds =>
    obtain ⟨hn, hne, heach, hnd⟩ := h
    by_cases hp : preds = []
    · subst hp
      have e : QPart.text (.step n []) = n.text := by simp [QPart.text]
      rw [e]
      exact enc_name hn
    · have hk : CompsOk preds.flatten := ⟨fun c hc => by
        obtain ⟨cs, h1, h2⟩ := List.mem_flatten.1 hc
        exact heach cs h1 c h2, hnd⟩
      intro e rest
      have hfl : (preds.flatten.map fun c => (c.name.name, w c)) ≠ [] := by
        obtain ⟨cs, ps, rfl⟩ := List.exists_cons_of_ne_nil hp
        obtain ⟨c, r, hc⟩ := List.exists_cons_of_ne_nil (hne cs (by simp))
        simp [hc]
      rw [encodeGo, tagAttrs_step hn hk hne hp]
      simp only
      rw [resolveAttrs_comps w _ fun c hc => ⟨(hk.each c hc).2, hw n preds rfl c hc⟩]
      simp only
      rw [encodeStep_some e hfl, qname_local hn]
      have hx : (xpOf w (.step n preds)).text = n.name ++ '[' :: attrBody (preds.flatten.map fun c => (c.name.name, w c)) ++ [']'] := by
        rw [xpOf, XP.text, xText, if_neg hfl]
      rw [hx]

theorem xpOf_ok (w : QComp → Str) {p : QPart} (h : p.Good) (hw : ∀ n preds, p = .step n preds → ∀ c ∈ preds.flatten, '\'' ∉ w c) : (xpOf w p).Ok := by
  cases p with
  | up => trivial
  | step n preds =>
    obtain ⟨hn, hne, heach, hnd⟩ := h
    refine ⟨ident_valid hn.name, ?_, ?_⟩
    · intro k hk
      obtain ⟨c, hc, rfl⟩ := List.mem_map.1 hk
      obtain ⟨cs, h1, h2⟩ := List.mem_flatten.1 hc
      have hg := (heach cs h1 c h2).1
      intro x hx
      have : ∀ x ∈ c.name.name, x ∈ c.name.text := by
        intro x hx
        rw [QName.text]
        split <;> simp [hx]
      exact key_cmd hg x (this x hx)
    · intro k hk
      obtain ⟨c, hc, rfl⟩ := List.mem_map.1 hk
      exact hw n preds rfl c hc

/-! ## The parts of the text -/

/-- Inside a predicate the text is taken whole. -/
def Opaque (s : Str) : Prop := ∀ buf t, pathPartsGo buf false true (s ++ t) = pathPartsGo (buf ++ s) false true t

theorem opaque_chars {s : Str} (h : ∀ c ∈ s, c ≠ '"' ∧ c ≠ ']') : Opaque s := fun buf t => go_pred s buf t h

theorem opaque_append {s t : Str} (hs : Opaque s) (ht : Opaque t) : Opaque (s ++ t) := by
  intro buf u
  rw [List.append_assoc, hs, ht, List.append_assoc]

theorem go_quoted_in : ∀ (s : Str) (buf t : Str), (∀ c ∈ s, c ≠ '"' ∧ c ≠ ']') →
    pathPartsGo buf true true (s ++ t) = pathPartsGo (buf ++ s) true true t := by
  intro s
  induction s with
  | nil => intro buf t _; simp
  | cons c s ih =>
    intro buf t h
    obtain ⟨h1, h3⟩ := h c (by simp)
    have e : pathPartsGo buf true true (c :: s ++ t) = pathPartsGo (buf ++ [c]) true true (s ++ t) := by
      rw [List.cons_append, pathPartsGo, if_neg (by simp), if_neg (by simp [h1]), if_neg h1, if_neg h3]
      simp
    rw [e, ih _ _ fun c hc => h c (by simp [hc])]
    simp

theorem opaque_quoted {v : Str} (h : ∀ c ∈ v, c ≠ '"' ∧ c ≠ ']') : Opaque ('"' :: v ++ ['"']) := by
  intro buf t
  have e : '"' :: v ++ ['"'] ++ t = '"' :: (v ++ '"' :: t) := by simp
  rw [e, pathPartsGo, if_neg (by simp), if_neg (by simp), if_pos rfl, go_quoted_in v _ _ h, pathPartsGo, if_neg (by simp), if_pos (by simp)]
  simp

theorem opaque_val {v : QVal} (h : v.Good) : Opaque v.text := by
  cases v with
  | lit q w =>
    obtain ⟨hq, _, h2, _⟩ := h
    have hw : ∀ c ∈ w, c ≠ '"' ∧ c ≠ ']' := fun c hc => ⟨(h2 c hc).2.2.2.1, (h2 c hc).2.2.2.2.1⟩
    rcases hq with rfl | rfl
    · have h1 : Opaque ['\''] := opaque_chars (by decide)
      exact opaque_append (s := '\'' :: w) (opaque_append (s := ['\'']) h1 (opaque_chars hw)) h1
    · exact opaque_quoted hw
  | current rs => exact opaque_chars fun c hc => ⟨(current_chars h c hc).2.2.2.2, (current_chars h c hc).2.2.1⟩

theorem opaque_comp {c : QComp} (hn : c.name.GoodKey) (hv : c.val.Good) : Opaque c.text := by
  have h1 : Opaque (if c.sign then ['@'] else []) := opaque_chars (by split <;> simp)
  have h2 : Opaque c.name.text := opaque_chars fun x hx => by
    have := (qname_chars hn.toGood).2.2 x hx
    exact ⟨this.2.2.2.2.2.2.2.1, this.2.1⟩
  have h3 : ∀ n, Opaque (List.replicate n ' ') := fun n => opaque_chars (by
    intro x hx
    rw [(List.mem_replicate.1 hx).2]
    decide)
  have h4 : Opaque ['='] := opaque_chars (by decide)
  have := opaque_append h1 (opaque_append h2 (opaque_append (h3 c.before) (opaque_append h4 (opaque_append (h3 c.after) (opaque_val hv)))))
  simpa [QComp.text] using this

theorem opaque_comps (cs : List QComp) (h : ∀ c ∈ cs, c.name.GoodKey ∧ c.val.Good) : Opaque (compsText cs) := by
  fun_induction compsText cs with
  | case1 => exact opaque_chars (by simp)
  | case2 c => exact opaque_comp (h c (by simp)).1 (h c (by simp)).2
  | case3 c d r ih =>
    exact opaque_append (opaque_append (opaque_comp (h c (by simp)).1 (h c (by simp)).2) (opaque_chars (by decide))) (ih fun x hx => h x (List.mem_cons_of_mem _ hx))

theorem go_qpart {p : QPart} (h : p.Good) (buf t : Str) : pathPartsGo buf false false (p.text ++ t) = pathPartsGo (buf ++ p.text) false false t := by
  cases p with
  | up => exact go_chars _ _ _ (by decide)
  | step n preds =>
    obtain ⟨hn, _, heach, _⟩ := h
    have hgr : ∀ (preds : List (List QComp)) (buf t : Str), (∀ cs ∈ preds, ∀ c ∈ cs, c.name.GoodKey ∧ c.val.Good) →
        pathPartsGo buf false false ((preds.flatMap fun cs => '[' :: compsText cs ++ [']']) ++ t) =
        pathPartsGo (buf ++ preds.flatMap fun cs => '[' :: compsText cs ++ [']']) false false t := by
      intro preds
      induction preds with
      | nil => intro buf t _; simp
      | cons cs preds ih =>
        intro buf t h
        have e : ((cs :: preds).flatMap fun cs => '[' :: compsText cs ++ [']']) ++ t =
            '[' :: (compsText cs ++ ']' :: ((preds.flatMap fun cs => '[' :: compsText cs ++ [']']) ++ t)) := by simp
        rw [e, pathPartsGo, if_neg (by decide), if_neg (by decide), if_neg (by decide), if_pos rfl, opaque_comps cs (h cs (by simp))]
        rw [pathPartsGo, if_neg (by decide), if_neg (by decide), if_neg (by decide), if_neg (by decide), if_pos rfl]
        rw [ih _ _ fun x hx => h x (by simp [hx])]
        simp
    rw [QPart.text, List.append_assoc, go_chars, hgr preds _ _ heach]
    · simp
    · intro c hc
      have := (qname_chars hn).2.2 c hc
      exact ⟨this.2.2.2.2.2.2.2.1, this.1, this.2.1, fun e => absurd e this.2.2.1⟩

theorem go_qparts : ∀ (ps : List QPart) (buf : Str) (p : QPart), (∀ x ∈ p :: ps, x.Good) →
    pathPartsGo buf false false (joinSlash ((p :: ps).map QPart.text)) = (buf ++ p.text) :: ps.map QPart.text := by
  intro ps
  induction ps with
  | nil =>
    intro buf s h
    have := go_qpart (h s (by simp)) buf []
    rw [List.append_nil] at this
    simp [joinSlash, this, pathPartsGo]
  | cons t r ih =>
    intro buf s h
    have e : joinSlash ((s :: t :: r).map QPart.text) = s.text ++ '/' :: joinSlash ((t :: r).map QPart.text) := rfl
    rw [e, go_qpart (h s (by simp)), pathPartsGo, if_pos (by decide), ih [] t fun x hx => h x (by simp [hx])]
    simp

theorem pathParts_query {q : Query} (h : q.Good) : pathParts q.text = (if q.absolute then [[]] else []) ++ q.parts.map QPart.text := by
  obtain ⟨p, ps, hp⟩ : ∃ p ps, q.parts = p :: ps := by
    obtain ⟨i, n, preds, hl⟩ := h.last
    rw [hl]
    cases i with
    | nil => exact ⟨_, _, rfl⟩
    | cons a i => exact ⟨_, _, rfl⟩
  have hg : ∀ x ∈ p :: ps, x.Good := by rw [← hp]; exact h.parts
  rw [pathParts, Query.text, hp]
  cases q.absolute with
  | true =>
    simp only [if_true, List.cons_append, List.nil_append]
    rw [pathPartsGo, if_pos (by decide), go_qparts ps [] p hg]
    rfl
  | false =>
    simp only [Bool.false_eq_true, if_false, List.nil_append]
    rw [go_qparts ps [] p hg]
    rfl

end Pyb
