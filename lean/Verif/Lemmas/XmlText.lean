import Verif.Model.XmlText
import Verif.Spec.XmlText
import Verif.Lemmas.XPathText
import Verif.Lemmas.JsonText

/-! # XML text: every text of a document is read as the document -/

namespace Pyb
open Py Spec

/-! ## Small steps -/

theorem while_split {p : Char → Bool} {a r : Str} (ha : ∀ c ∈ a, p c = true) (hr : ∀ c, r.head? = some c → p c = false) :
    (a ++ r).takeWhile p = a ∧ (a ++ r).dropWhile p = r := by
  induction a with
  | nil =>
    cases r with
    | nil => exact ⟨rfl, rfl⟩
    | cons c r =>
      have := hr c rfl
      simp [List.takeWhile, List.dropWhile, this]
  | cons c a ih =>
    obtain ⟨h1, h2⟩ := ih fun x hx => ha x (by simp [hx])
    have := ha c (by simp)
    simp [List.takeWhile, List.dropWhile, this, h1, h2]

theorem blank_iff {c : Char} : isXmlBlank c = true ↔ Blank c := by
  simp [isXmlBlank, Blank, or_assoc]

theorem blanks_all {s : Str} (h : Blanks s) : ∀ c ∈ s, isXmlBlank c = true := fun c hc => blank_iff.2 (h c hc)

theorem blanks_drop {s r : Str} (h : Blanks s) (hr : ∀ c, r.head? = some c → isXmlBlank c = false) :
    (s ++ r).dropWhile isXmlBlank = r := (while_split (blanks_all h) hr).2

theorem skipComment_body {b : Str} (h : ¬ Contains (b ++ ['-']) py!"--") (r : Str) : skipComment (b ++ (py!"-->" ++ r)) = some r := by
  induction b with
  | nil => rfl
  | cons c b ih =>
    have h' : ¬ Contains (b ++ ['-']) py!"--" := by
      rintro ⟨x, y, e⟩
      exact h ⟨c :: x, y, by rw [List.cons_append, e]; rfl⟩
    rw [List.cons_append, skipComment, if_neg, ih h']
    rintro ⟨rfl, hh⟩
    cases b with
    | nil => exact h ⟨[], [], rfl⟩
    | cons d b =>
      simp only [List.cons_append, List.head?_cons, Option.some.injEq] at hh
      subst hh
      exact h ⟨[], b ++ ['-'], rfl⟩

theorem uri_all {u : Str} (h : Uri u) : u.all uriChar = true := by
  rw [List.all_eq_true]
  intro c hc
  have := h.2 c hc
  simp [uriChar, this]

theorem uri_quote {u : Str} (h : Uri u) {q : Char} (hq : q = '"' ∨ q = '\'') : ∀ c ∈ u, c ≠ q := by
  rintro c hc rfl
  have := h.2 _ hc
  rcases hq with rfl | rfl
  · exact this.2.2.1 rfl
  · exact this.2.2.2.1 rfl

theorem ident_name {s : Str} (h : Identifier s) : ∀ c ∈ s, nameChar c = true := fun c hc => plain_name (h.1 c hc)

theorem readXmlns_decl {p : Option Str} {u : Str} {q : Char} (hp : ∀ x, p = some x → Identifier x) (hu : Uri u)
    (hq : q = '"' ∨ q = '\'') (r : Str) : readXmlns (declText p u q ++ r) = some ((p, u), r) := by
  have e1 : (u ++ q :: r).takeWhile (fun c => decide (c ≠ q)) = u ∧ (u ++ q :: r).dropWhile (fun c => decide (c ≠ q)) = q :: r :=
    while_split (fun c hc => by simpa using uri_quote hu hq c hc) (fun c hc => by simp at hc; simp [hc])
  cases p with
  | none =>
    have e : declText none u q ++ r = py!"xmlns" ++ ('=' :: q :: (u ++ q :: r)) := by simp [declText]
    rw [e, readXmlns, if_pos (List.prefix_append _ _)]
    simp only [List.cons_append, List.nil_append, List.drop_succ_cons, List.drop_zero, List.head?_cons]
    rw [if_neg (by decide), if_neg (by decide)]
    simp only [e1.1, e1.2]
    rw [if_pos ⟨hq, by simp [hu.1, uri_all hu]⟩]
    rfl
  | some x =>
    have hx := hp x rfl
    have e : declText (some x) u q ++ r = py!"xmlns" ++ (':' :: (x ++ ('=' :: q :: (u ++ q :: r)))) := by simp [declText]
    have e2 : (x ++ ('=' :: q :: (u ++ q :: r))).takeWhile nameChar = x ∧
        (x ++ ('=' :: q :: (u ++ q :: r))).dropWhile nameChar = '=' :: q :: (u ++ q :: r) :=
      while_split (ident_name hx) (fun c hc => by simp at hc; subst hc; decide)
    rw [e, readXmlns, if_pos (List.prefix_append _ _)]
    simp only [List.cons_append, List.nil_append, List.drop_succ_cons, List.drop_zero, List.head?_cons, List.tail_cons, if_true, e2.1, e2.2]
    simp only [e1.1, e1.2]
    rw [if_pos ⟨hq, by simp [hu.1, uri_all hu, ident_valid hx]⟩]
    rfl

theorem declText_head (p : Option Str) (u : Str) (q : Char) (r : Str) : (declText p u q ++ r).head? = some 'x' := rfl

theorem readDecls_all (as : List ((Option Str × Str) × Str × Char)) (sp r : Str) (hsp : Blanks sp)
    (hr : r.head? = some '>' ∨ r.head? = some '/')
    (ha : ∀ a ∈ as, Blanks a.2.1 ∧ a.2.1 ≠ [] ∧ (a.2.2 = '"' ∨ a.2.2 = '\'') ∧ (∀ p, a.1.1 = some p → Identifier p) ∧ Uri a.1.2) :
    ∀ n, as.length < n →
      readDecls n (as.flatMap (fun a => a.2.1 ++ declText a.1.1 a.1.2 a.2.2) ++ sp ++ r) = some (as.map (·.1), r) := by
  induction as with
  | nil =>
    intro n hn
    obtain ⟨n, rfl⟩ : ∃ m, n = m + 1 := ⟨n - 1, by simp at hn; omega⟩
    have : (sp ++ r).dropWhile isXmlBlank = r := blanks_drop hsp (by
      intro c hc
      rcases hr with h | h <;> (rw [h] at hc; simp at hc; subst hc; decide))
    simp only [List.flatMap_nil, List.nil_append, readDecls, this, if_pos hr, List.map_nil]
  | cons a as ih =>
    intro n hn
    obtain ⟨n, rfl⟩ : ∃ m, n = m + 1 := ⟨n - 1, by simp at hn; omega⟩
    obtain ⟨h1, h2, h3, h4, h5⟩ := ha a (by simp)
    have e : (a :: as).flatMap (fun a => a.2.1 ++ declText a.1.1 a.1.2 a.2.2) ++ sp ++ r =
        a.2.1 ++ (declText a.1.1 a.1.2 a.2.2 ++ (as.flatMap (fun a => a.2.1 ++ declText a.1.1 a.1.2 a.2.2) ++ sp ++ r)) := by
      simp
    have hd : (a.2.1 ++ (declText a.1.1 a.1.2 a.2.2 ++ (as.flatMap (fun a => a.2.1 ++ declText a.1.1 a.1.2 a.2.2) ++ sp ++ r))).dropWhile isXmlBlank =
        declText a.1.1 a.1.2 a.2.2 ++ (as.flatMap (fun a => a.2.1 ++ declText a.1.1 a.1.2 a.2.2) ++ sp ++ r) :=
      blanks_drop h1 (by intro c hc; rw [declText_head] at hc; simp at hc; subst hc; decide)
    have hb : (a.2.1 ++ (declText a.1.1 a.1.2 a.2.2 ++ (as.flatMap (fun a => a.2.1 ++ declText a.1.1 a.1.2 a.2.2) ++ sp ++ r))).head?.any isXmlBlank = true := by
      obtain ⟨c, cs, hc⟩ := List.exists_cons_of_ne_nil h2
      rw [hc]
      simp only [List.cons_append, List.head?_cons, Option.any_some]
      exact blank_iff.2 (h1 c (by simp [hc]))
    rw [e]
    simp only [readDecls, hd]
    rw [if_neg (by rw [declText_head]; decide), if_pos hb, readXmlns_decl h4 h5 h3]
    simp only []
    rw [ih (fun b hb => ha b (by simp [hb])) n (by simp at hn; omega)]
    rfl

/-! ## References -/

theorem hexValue_digitOf {c : Char} (h : 48 ≤ c.toNat ∧ c.toNat ≤ 57 ∨ 65 ≤ c.toNat ∧ c.toNat ≤ 70 ∨ 97 ≤ c.toNat ∧ c.toNat ≤ 102) :
    hexValue c = some (digitOf c) := by
  unfold hexValue digitOf
  repeat' split
  all_goals first | rfl | omega | (congr 1; omega) | skip

theorem refDigits_fold {b : Nat} {ds : Str} :
    ∀ n, (∀ c ∈ ds, (48 ≤ c.toNat ∧ c.toNat ≤ 57 ∨ 65 ≤ c.toNat ∧ c.toNat ≤ 70 ∨ 97 ≤ c.toNat ∧ c.toNat ≤ 102) ∧ digitOf c < b) →
      refDigits b n ds = some (ds.foldl (fun n c => b * n + digitOf c) n) := by
  induction ds with
  | nil => intro n _; rfl
  | cons c ds ih =>
    intro n h
    have h1 := h c (by simp)
    rw [refDigits, hexValue_digitOf h1.1]
    simp only [if_pos h1.2, List.foldl_cons]
    exact ih _ fun x hx => h x (by simp [hx])

theorem readRef_of {c : Char} {w : Str} (h : RefTo c w) (hc : xmlChar c = true) (r : Str) :
    ∃ w', w = '&' :: w' ∧ readRef (w' ++ r) = some (c, r) := by
  have key : ∀ body : Str, (∀ x ∈ body, x ≠ ';') → refChar body = some c → readRef (body ++ (';' :: r)) = some (c, r) := by
    intro body hb hr
    have := while_split (p := fun x => decide (x ≠ ';')) (a := body) (r := ';' :: r) (fun x hx => by simpa using hb x hx)
      (fun x hx => by simp at hx; simp [← hx])
    rw [readRef, this.1, this.2, hr]
    simp only [if_pos hc]
  cases h with
  | amp => exact ⟨_, rfl, key py!"amp" (by decide) rfl⟩
  | lt => exact ⟨_, rfl, key py!"lt" (by decide) rfl⟩
  | gt => exact ⟨_, rfl, key py!"gt" (by decide) rfl⟩
  | quot => exact ⟨_, rfl, key py!"quot" (by decide) rfl⟩
  | apos => exact ⟨_, rfl, key py!"apos" (by decide) rfl⟩
  | @dec _ ds h =>
    obtain ⟨h1, h2, h3⟩ := h
    refine ⟨'#' :: ds ++ [';'], by simp, ?_⟩
    rw [show '#' :: ds ++ [';'] ++ r = ('#' :: ds) ++ (';' :: r) by simp]
    have hne : ∀ x ∈ ds, x ≠ 'x' ∧ x ≠ ';' := by
      intro x hx
      have := (h2 x hx).1
      constructor <;> (rintro rfl; revert this; decide)
    refine key _ (fun x hx => ?_) ?_
    · rcases List.mem_cons.1 hx with rfl | hx
      · decide
      · exact (hne x hx).2
    · obtain ⟨d, ds, rfl⟩ := List.exists_cons_of_ne_nil h1
      have hd := (hne d (by simp)).1
      unfold refChar
      split
      · rename_i e; simp only [List.cons.injEq, true_and] at e; exact absurd e.1 hd
      · rename_i e
        simp only [List.cons.injEq, true_and] at e
        obtain ⟨rfl, rfl⟩ := e
        rw [if_neg (by simp), refDigits_fold 0 h2, h3]
        simp
      · rename_i e; exact absurd rfl (e _)
  | @hex _ ds h =>
    obtain ⟨h1, h2, h3⟩ := h
    refine ⟨'#' :: 'x' :: ds ++ [';'], by simp, ?_⟩
    rw [show '#' :: 'x' :: ds ++ [';'] ++ r = ('#' :: 'x' :: ds) ++ (';' :: r) by simp]
    refine key _ (fun x hx => ?_) ?_
    · rcases List.mem_cons.1 hx with rfl | hx
      · decide
      · rcases List.mem_cons.1 hx with rfl | hx
        · decide
        · have := (h2 x hx).1
          rintro rfl
          revert this; decide
    · rw [refChar, if_neg h1, refDigits_fold 0 h2, h3]
      simp

/-! ## The content of elements -/

/-- The content `s` is read as `res`, given enough steps. -/
def ContentIs (ns : Str) (lead : Option Str) (kids : List Xml) (tail : Bool) (s : Str) (res : Option Str × List Xml × Str) : Prop :=
  ∀ n, s.length ≤ n → readContent n ns lead kids tail s = some res

theorem content_end (ns : Str) (lead : Option Str) (kids : List Xml) (tail : Bool) (r : Str) :
    ContentIs ns lead kids tail ('<' :: '/' :: r) (lead, kids, r) := by
  intro n hn
  obtain ⟨n, rfl⟩ : ∃ m, n = m + 1 := ⟨n - 1, by simp at hn; omega⟩
  rw [readContent]

theorem content_comment {ns : Str} {lead : Option Str} {kids : List Xml} {tail : Bool} {w r : Str} {res : Option Str × List Xml × Str}
    (hw : Comment w) (h : ContentIs ns lead kids tail r res) : ContentIs ns lead kids tail (w ++ r) res := by
  obtain ⟨b, rfl, hb⟩ := hw
  intro n hn
  obtain ⟨n, rfl⟩ : ∃ m, n = m + 1 := ⟨n - 1, by simp at hn; omega⟩
  rw [show py!"<!--" ++ b ++ py!"-->" ++ r = '<' :: '!' :: '-' :: '-' :: (b ++ (py!"-->" ++ r)) by simp] at hn ⊢
  rw [readContent, skipComment_body hb]
  exact h n (by simp at hn; omega)

theorem content_elem {ns : Str} {lead : Option Str} {kids : List Xml} {tail : Bool} {s r : Str} {x : Xml} {res : Option Str × List Xml × Str}
    (h1 : s.head? ≠ some '/') (h2 : s.head? ≠ some '!') (hr : r.length ≤ s.length) (hx : ∀ n, s.length ≤ n → readElem n ns s = some (x, r))
    (h : ContentIs ns lead (kids ++ [x]) false r res) : ContentIs ns lead kids tail ('<' :: s) res := by
  intro n hn
  obtain ⟨n, rfl⟩ : ∃ m, n = m + 1 := ⟨n - 1, by simp at hn; omega⟩
  have hn' : s.length ≤ n := by simpa using hn
  have : readContent (n + 1) ns lead kids tail ('<' :: s) = match readElem n ns s with
      | some (x, r) => readContent n ns lead (kids ++ [x]) false r
      | none => none := by
    rw [readContent]
    · rfl
    · intro r e; subst e; exact h1 rfl
    · intro r e; subst e; exact h2 rfl
  rw [this, hx n hn']
  exact h n (by omega)

theorem content_ref {ns : Str} {lead : Option Str} {tail : Bool} {c : Char} {w r : Str} {res : Option Str × List Xml × Str}
    (hw : RefTo c w) (hc : xmlChar c = true) (h : ContentIs ns (some (lead.getD [] ++ [c])) [] false r res) :
    ContentIs ns lead [] tail (w ++ r) res := by
  obtain ⟨w', rfl, hw'⟩ := readRef_of hw hc r
  intro n hn
  obtain ⟨n, rfl⟩ : ∃ m, n = m + 1 := ⟨n - 1, by simp at hn; omega⟩
  rw [List.cons_append, readContent, hw']
  exact h n (by simp at hn; omega)

/-- Characters that stand for themselves. -/
def PlainText (p : Str) : Prop := ∀ c ∈ p, xmlChar c = true ∧ c ≠ '<' ∧ c ≠ '&' ∧ c ≠ '>' ∧ c ≠ '\r'

theorem cdataEnd_none {p : Str} (h : '>' ∉ p) : cdataEnd p = false := by
  induction p with
  | nil => rfl
  | cons c p ih =>
    rw [cdataEnd, ih fun hm => h (by simp [hm])]
    cases p with
    | nil => simp
    | cons d p =>
      cases p with
      | nil => simp
      | cons e p =>
        have : e ≠ '>' := fun he => h (by simp [he])
        simp [this]

theorem content_chunk {ns : Str} {lead : Option Str} {kids : List Xml} {tail : Bool} {p r : Str} (hp : PlainText p) (hne : p ≠ [])
    (hr : r.head? = some '<' ∨ r.head? = some '&') (n : Nat) :
    readContent (n + 1) ns lead kids tail (p ++ r) =
      if dropsBlank lead kids tail p r then readContent n ns lead kids tail r
      else if kids.isEmpty then readContent n ns (some (lead.getD [] ++ p)) kids false r
      else readContent n ns lead kids true r := by
  have hs := while_split (p := fun c => c ≠ '<' && c ≠ '&') (a := p) (r := r)
    (fun c hc => by have := hp c hc; simp [this]) (fun c hc => by rcases hr with h | h <;> (rw [h] at hc; simp at hc; subst hc; rfl))
  have hv : (p.all (fun c => xmlChar c && c ≠ '\r') && !cdataEnd p) = true := by
    rw [cdataEnd_none fun hm => (hp _ hm).2.2.2.1 rfl]
    simp only [Bool.not_false, Bool.and_true, List.all_eq_true]
    intro c hc
    have := hp c hc
    simp [this]
  obtain ⟨c, p, rfl⟩ := List.exists_cons_of_ne_nil hne
  have hc := hp c (by simp)
  rw [List.cons_append] at hs ⊢
  rw [readContent]
  · simp only [hs.1, hs.2, hv, if_true]
  · rintro r e -; exact hc.2.1 e
  · rintro r e -; exact hc.2.1 e
  · rintro e; exact hc.2.1 e
  · rintro e; exact hc.2.2.1 e

theorem content_kept {ns : Str} {lead : Option Str} {tail : Bool} {p r : Str} {res : Option Str × List Xml × Str} (hp : PlainText p) (hne : p ≠ [])
    (hr : r.head? = some '<' ∨ r.head? = some '&') (hd : dropsBlank lead [] tail p r = false)
    (h : ContentIs ns (some (lead.getD [] ++ p)) [] false r res) : ContentIs ns lead [] tail (p ++ r) res := by
  have hl := List.length_pos_iff.2 hne
  intro n hn
  obtain ⟨n, rfl⟩ : ∃ m, n = m + 1 := ⟨n - 1, by simp at hn; omega⟩
  rw [content_chunk hp hne hr, hd]
  exact h n (by simp at hn; omega)

theorem content_dropped {ns : Str} {lead : Option Str} {kids : List Xml} {tail : Bool} {p r : Str} {res : Option Str × List Xml × Str}
    (hp : PlainText p) (hne : p ≠ [])
    (hr : r.head? = some '<' ∨ r.head? = some '&') (hd : dropsBlank lead kids tail p r = true)
    (h : ContentIs ns lead kids tail r res) : ContentIs ns lead kids tail (p ++ r) res := by
  have hl := List.length_pos_iff.2 hne
  intro n hn
  obtain ⟨n, rfl⟩ : ∃ m, n = m + 1 := ⟨n - 1, by simp at hn; omega⟩
  rw [content_chunk hp hne hr, hd]
  exact h n (by simp at hn; omega)

theorem blank_plain {c : Char} (h : Blank c) : xmlChar c = true ∧ c ≠ '<' ∧ c ≠ '&' ∧ c ≠ '>' ∧ c ≠ '\r' := by
  rcases h with rfl | rfl | rfl <;> decide

theorem comment_head {w : Str} (h : Comment w) (r : Str) : (w ++ r).head? = some '<' ∧ (w ++ r).tail.head? = some '!' := by
  obtain ⟨b, rfl, _⟩ := h
  exact ⟨rfl, rfl⟩

theorem ref_head {c : Char} {w : Str} (h : RefTo c w) (r : Str) : (w ++ r).head? = some '&' := by
  cases h <;> rfl

/-- Blanks and comments between elements are skipped. -/
theorem content_gap {ns : Str} {kids : List Xml} {g r : Str} {res : Option Str × List Xml × Str} (hg : Gap g)
    (hk : kids ≠ [] ∨ r.head? ≠ some '/') (h : ContentIs ns none kids false ('<' :: r) res) :
    ∀ p, Blanks p → ContentIs ns none kids false (p ++ (g ++ '<' :: r)) res := by
  have hplain : ∀ {p}, Blanks p → PlainText p := fun hp c hc => blank_plain (hp c hc)
  have hdrop : ∀ {p t : Str}, Blanks p → t.head? = some '<' → (kids ≠ [] ∨ t.tail.head? ≠ some '/') → dropsBlank none kids false p t = true := by
    intro p t hp ht hk
    have h1 : p.all isXmlBlank = true := List.all_eq_true.2 (blanks_all hp)
    simp only [dropsBlank, h1, ht, beq_self_eq_true, Bool.and_true, Option.isNone_none, Bool.true_and, Bool.not_false]
    rcases hk with hk | hk
    · cases kids with
      | nil => exact absurd rfl hk
      | cons => rfl
    · rw [beq_false_of_ne hk]; simp
  induction hg with
  | nil =>
    intro p hp
    cases p with
    | nil => exact h
    | cons c p => exact content_dropped (hplain hp) (by simp) (.inl rfl) (hdrop hp rfl hk) h
  | @blank c g hc hg ih =>
    intro p hp
    rw [show p ++ (c :: g ++ '<' :: r) = (p ++ [c]) ++ (g ++ '<' :: r) by simp]
    refine ih _ ?_
    intro x hx
    rcases List.mem_append.1 hx with hx | hx
    · exact hp x hx
    · simp at hx; subst hx; exact hc
  | @comment b g hb hg ih =>
    intro p hp
    rw [List.append_assoc]
    have h' := content_comment hb (ih [] (by simp [Blanks]))
    cases p with
    | nil => exact h'
    | cons c p =>
      have := comment_head hb (g ++ '<' :: r)
      exact content_dropped (hplain hp) (by simp) (.inl this.1) (hdrop hp this.1 (.inr (by rw [this.2]; decide))) h'

/-- What the text of an element is in the end. -/
def finish (lead : Option Str) (t : Str) : Option Str := if lead = none ∧ t = [] then none else some (lead.getD [] ++ t)

theorem finish_some (l t : Str) : finish (some l) t = some (l ++ t) := by simp [finish]

theorem finish_lead {lead : Option Str} {p : Str} (hp : p ≠ []) (t : Str) : finish (some (lead.getD [] ++ p)) t = finish lead (p ++ t) := by
  simp [finish, hp]

theorem content_text {ns : Str} {b : Before} {s v : Str} (h : TextOf b s v) (hs : s.all xmlChar = true) (r : Str) :
    ∀ (lead : Option Str) (p : Str), PlainText p → (b = .nothing → lead = none ∧ p = []) → (b = .blanks → lead = none ∧ Blanks p) →
      (b = .text → lead.isSome = true ∨ ¬ Blanks p) →
      ContentIs ns lead [] false (p ++ (v ++ '<' :: '/' :: r)) (finish lead (p ++ s), [], r) := by
  have hkeep : ∀ {lead : Option Str} {p t : Str}, (lead.isSome = true ∨ ¬ Blanks p) → dropsBlank lead [] false p t = false := by
    intro lead p t h
    rcases h with h | h
    · cases lead with
      | none => cases h
      | some l => simp [dropsBlank]
    · have : p.all isXmlBlank = false := by
        rw [Bool.eq_false_iff]
        intro e
        rw [List.all_eq_true] at e
        exact h fun c hc => blank_iff.1 (e c hc)
      simp [dropsBlank, this]
  induction h with
  | @nil b =>
    intro lead p hp _ _ _
    rw [List.nil_append, List.append_nil]
    cases p with
    | nil =>
      have : finish lead [] = lead := by cases lead <;> simp [finish]
      rw [this]
      exact content_end _ _ _ _ _
    | cons c p =>
      refine content_kept hp (by simp) (.inl rfl) ?_ ?_
      · cases lead with
        | none => simp [dropsBlank]
        | some l => simp [dropsBlank]
      · rw [show finish lead (c :: p) = some (lead.getD [] ++ c :: p) by simp [finish]]
        exact content_end _ _ _ _ _
  | @blank b c s v hc ht ih =>
    intro lead p hp h1 h2 h3
    rw [List.all_cons, Bool.and_eq_true] at hs
    have := ih hs.2 lead (p ++ [c]) ?_ ?_ ?_ ?_
    · simpa using this
    · intro x hx
      rcases List.mem_append.1 hx with hx | hx
      · exact hp x hx
      · simp at hx; subst hx; exact blank_plain hc
    · intro e; split at e <;> cases e
    · intro e
      have hbs : ∀ q, Blanks q → Blanks (q ++ [c]) := by
        intro q hq x hx
        rcases List.mem_append.1 hx with hx | hx
        · exact hq x hx
        · simp at hx; subst hx; exact hc
      cases b with
      | nothing => obtain ⟨rfl, rfl⟩ := h1 rfl; exact ⟨rfl, hbs [] (by simp [Blanks])⟩
      | blanks => exact ⟨(h2 rfl).1, hbs _ (h2 rfl).2⟩
      | text => simp at e
    · intro e
      split at e
      · rename_i hb
        refine (h3 hb).imp id fun h h' => h fun x hx => h' x (by simp [hx])
      · cases e
  | @char b c s v hc e1 e2 e3 e4 ht ih =>
    intro lead p hp h1 h2 h3
    rw [List.all_cons, Bool.and_eq_true] at hs
    have := ih hs.2 lead (p ++ [c]) ?_ (by intro e; cases e) (by intro e; cases e) ?_
    · simpa using this
    · intro x hx
      rcases List.mem_append.1 hx with hx | hx
      · exact hp x hx
      · simp at hx; subst hx; exact ⟨hs.1, e1, e2, e3, e4⟩
    · exact fun _ => .inr fun h => hc (h c (by simp))
  | @ref b c w s v hw ht ih =>
    intro lead p hp h1 h2 h3
    rw [List.all_cons, Bool.and_eq_true] at hs
    rw [List.append_assoc]
    have key : ∀ l : Option Str, ContentIs ns l [] false (w ++ (v ++ '<' :: '/' :: r)) (finish l (c :: s), [], r) := by
      intro l
      refine content_ref hw hs.1 ?_
      have := ih hs.2 (some (l.getD [] ++ [c])) [] (by simp [PlainText]) (by intro e; cases e) (by intro e; cases e) (fun _ => .inl rfl)
      rw [List.nil_append, List.nil_append, finish_lead (by simp)] at this
      exact this
    cases p with
    | nil => exact key lead
    | cons d p =>
      refine content_kept hp (by simp) (.inr (ref_head hw _)) ?_ ?_
      · rw [dropsBlank, ref_head hw]; simp
      · rw [← finish_lead (by simp)]
        exact key _
  | @comment b w s v hb hw ht ih =>
    intro lead p hp h1 h2 h3
    rw [List.append_assoc]
    cases p with
    | nil =>
      rw [List.nil_append]
      exact content_comment hw (ih hs lead [] hp h1 h2 h3)
    | cons c p =>
      have hbt : b = .text := by
        cases b with
        | nothing => have := (h1 rfl).2; cases this
        | blanks => exact absurd rfl hb
        | text => rfl
      subst hbt
      refine content_kept hp (by simp) (.inl (comment_head hw _).1) (hkeep (h3 rfl)) (content_comment hw ?_)
      rw [← finish_lead (by simp)]
      exact ih hs _ [] (by simp [PlainText]) (by intro e; cases e) (by intro e; cases e) (fun _ => .inl rfl)

/-! ## Elements -/

/-- An element is read from its text after `<`, whatever follows, given enough steps. -/
def ElemIs (inh : Str) (x : Xml) (w : Str) : Prop :=
  ∃ w', w = '<' :: w' ∧ (∃ c cs, w' = c :: cs ∧ nameChar c = true) ∧
    ∀ r n, (w' ++ r).length ≤ n → readElem n inh (w' ++ r) = some (x, r)

theorem flat_decls_length (as : List ((Option Str × Str) × Str × Char)) :
    as.length ≤ (as.flatMap (fun a => a.2.1 ++ declText a.1.1 a.1.2 a.2.2)).length := by
  induction as with
  | nil => simp
  | cons a as ih =>
    have : 1 ≤ (declText a.1.1 a.1.2 a.2.2).length := by simp [declText]
    simp only [List.flatMap_cons, List.length_append, List.length_cons]
    omega

theorem filterMap_fst (as : List ((Option Str × Str) × Str × Char)) :
    (as.map (·.1)).filterMap (fun d => d.1.map fun p => (p, d.2)) = as.filterMap (fun a => a.1.1.map fun p => (p, a.1.2)) := by
  rw [List.filterMap_map]
  rfl

/-- The start of an element, from its start tag. -/
theorem startTag_read {inh ns name : Str} {decls : List (Str × Str)} {w : Str} (h : StartTag inh ns name decls w) :
    ∃ w', w = '<' :: w' ∧ (∃ c cs, w' = c :: cs ∧ nameChar c = true) ∧ ∀ r, (r.head? = some '>' ∨ r.head? = some '/') →
      ∃ ds, (w' ++ r).takeWhile nameChar = name ∧ readDecls ((w' ++ r).length + 1) ((w' ++ r).dropWhile nameChar) = some (ds, r) ∧
        (validName name && (ds.map (·.1)).Nodup) = true ∧ (ds.lookup none).getD inh = ns ∧
        (ds.filterMap fun d => d.1.map fun p => (p, d.2)) = decls := by
  obtain ⟨hname, as, sp, rfl, hsp, has, hnd, rfl, rfl⟩ := h
  have hv := ident_valid hname
  refine ⟨name ++ as.flatMap (fun a => a.2.1 ++ declText a.1.1 a.1.2 a.2.2) ++ sp, rfl, ?_, ?_⟩
  · obtain ⟨c, cs, e⟩ := List.exists_cons_of_ne_nil (name_chars hv).1
    exact ⟨c, _, by rw [e]; rfl, ident_name hname c (by simp [e])⟩
  · intro r hr
    have hh : ∀ c, (as.flatMap (fun a => a.2.1 ++ declText a.1.1 a.1.2 a.2.2) ++ sp ++ r).head? = some c → nameChar c = false := by
      intro c hc
      have hb : ∀ {q t : Str}, Blanks q → q ≠ [] → (q ++ t).head? = some c → nameChar c = false := by
        intro q t hq hne e
        obtain ⟨d, q, rfl⟩ := List.exists_cons_of_ne_nil hne
        simp at e
        subst e
        rcases hq d (by simp) with rfl | rfl | rfl <;> decide
      cases as with
      | nil =>
        rw [List.flatMap_nil, List.nil_append] at hc
        cases sp with
        | nil => rcases hr with e | e <;> (rw [List.nil_append, e] at hc; simp at hc; subst hc; decide)
        | cons d sp => exact hb hsp (by simp) hc
      | cons a as =>
        rw [List.flatMap_cons, List.append_assoc, List.append_assoc, List.append_assoc] at hc
        exact hb (has a (by simp)).1 (has a (by simp)).2.1 hc
    have hs := while_split (ident_name hname) hh
    have e : name ++ as.flatMap (fun a => a.2.1 ++ declText a.1.1 a.1.2 a.2.2) ++ sp ++ r =
        name ++ (as.flatMap (fun a => a.2.1 ++ declText a.1.1 a.1.2 a.2.2) ++ sp ++ r) := by simp
    refine ⟨as.map (·.1), by rw [e]; exact hs.1, ?_, ?_, rfl, filterMap_fst as⟩
    · rw [e, hs.2]
      refine readDecls_all as sp r hsp hr has _ ?_
      have := flat_decls_length as
      simp only [List.length_append]
      omega
    · rw [hv, List.map_map, Bool.true_and]
      exact decide_eq_true hnd

theorem elem_empty {inh ns name : Str} {decls : List (Str × Str)} {w : Str} (h : StartTag inh ns name decls w) :
    ElemIs inh (.elem ns name decls none []) (w ++ py!"/>") := by
  obtain ⟨w', rfl, ⟨c, cs, hc, hn⟩, hw⟩ := startTag_read h
  refine ⟨w' ++ py!"/>", rfl, ⟨c, cs ++ py!"/>", by rw [hc]; rfl, hn⟩, ?_⟩
  intro r n hlen
  obtain ⟨n, rfl⟩ : ∃ m, n = m + 1 := ⟨n - 1, by simp [hc] at hlen; omega⟩
  rw [List.append_assoc] at hlen ⊢
  obtain ⟨ds, h1, h2, h3, h4, h5⟩ := hw (py!"/>" ++ r) (.inr rfl)
  simp only [readElem, h1, h2, h3, if_true, h4, h5]
  rfl

theorem prefix_drop (name r : Str) : name <+: name ++ r ∧ (name ++ r).drop name.length = r := by simp

theorem elem_content {inh ns name : Str} {decls : List (Str × Str)} {w v e : Str} {t : Option Str} {ks : List Xml} (h : StartTag inh ns name decls w)
    (he : EndTag name e) (hv : ∀ r, ContentIs ns none [] false (v ++ '<' :: '/' :: r) (t, ks, r)) :
    ElemIs inh (.elem ns name decls t ks) (w ++ '>' :: v ++ e) := by
  obtain ⟨w', rfl, ⟨c, cs, hc, hn⟩, hw⟩ := startTag_read h
  obtain ⟨sp, rfl, hsp⟩ := he
  refine ⟨w' ++ '>' :: v ++ (py!"</" ++ name ++ sp ++ py!">"), rfl, ⟨c, cs ++ '>' :: v ++ (py!"</" ++ name ++ sp ++ py!">"), by rw [hc]; rfl, hn⟩, ?_⟩
  intro r n hlen
  obtain ⟨n, rfl⟩ : ∃ m, n = m + 1 := ⟨n - 1, by simp [hc] at hlen; omega⟩
  have e1 : w' ++ '>' :: v ++ (py!"</" ++ name ++ sp ++ py!">") ++ r = w' ++ ('>' :: (v ++ '<' :: '/' :: (name ++ (sp ++ '>' :: r)))) := by simp
  rw [e1] at hlen ⊢
  obtain ⟨ds, h1, h2, h3, h4, h5⟩ := hw ('>' :: (v ++ '<' :: '/' :: (name ++ (sp ++ '>' :: r)))) (.inl rfl)
  simp only [readElem, h1, h2, h3, if_true, h4, h5]
  rw [hv (name ++ (sp ++ '>' :: r)) n (by simp at hlen ⊢; omega)]
  simp only [if_pos (prefix_drop name _).1, (prefix_drop name _).2]
  rw [blanks_drop hsp (by intro c hc; simp at hc; subst hc; decide)]
  rfl

theorem content_kids {ns : Str} {g : Str} (hg : Gap g) (r : Str) : ∀ (ps : List (Str × Xml × Str)) (acc : List Xml), ps ≠ [] ∨ acc ≠ [] →
    (∀ p ∈ ps, Gap p.1) → (∀ p ∈ ps, ElemIs ns p.2.1 p.2.2) →
    ContentIs ns none acc false (ps.flatMap (fun p => p.1 ++ p.2.2) ++ g ++ '<' :: '/' :: r) (none, acc ++ ps.map (·.2.1), r)
  | [], acc, h, _, _ => by
    have h' : acc ≠ [] := h.resolve_left (fun h => h rfl)
    rw [List.flatMap_nil, List.nil_append, List.map_nil, List.append_nil]
    exact content_gap hg (.inl h') (content_end _ _ _ _ _) [] (by simp [Blanks])
  | p :: ps, acc, _, h1, h2 => by
    obtain ⟨w', hw, ⟨c, cs, hc, hn⟩, hx⟩ := h2 p (by simp)
    have ih := content_kids hg r ps (acc ++ [p.2.1]) (.inr (by simp)) (fun q hq => h1 q (by simp [hq])) (fun q hq => h2 q (by simp [hq]))
    have e : (p :: ps).flatMap (fun p => p.1 ++ p.2.2) ++ g ++ '<' :: '/' :: r =
        p.1 ++ '<' :: (w' ++ (ps.flatMap (fun p => p.1 ++ p.2.2) ++ g ++ '<' :: '/' :: r)) := by
      rw [List.flatMap_cons, hw]; simp
    have hne : ∀ x, nameChar x = false → (w' ++ (ps.flatMap (fun p => p.1 ++ p.2.2) ++ g ++ '<' :: '/' :: r)).head? ≠ some x := by
      intro x hx e
      rw [hc] at e
      simp at e
      subst e
      rw [hn] at hx; cases hx
    rw [e, List.map_cons, show acc ++ p.2.1 :: ps.map (·.2.1) = (acc ++ [p.2.1]) ++ ps.map (·.2.1) by simp]
    exact content_gap (h1 p (by simp)) (.inr (hne '/' (by decide)))
      (content_elem (hne '/' (by decide)) (hne '!' (by decide)) (by simp) (fun n hn => hx _ n hn) ih) [] (by simp [Blanks])

theorem elem_renders {inh : Str} {x : Xml} {w : Str} (h : Renders inh x w) : ElemIs inh x w := by
  induction h with
  | empty h => exact elem_empty h
  | @text inh ns name decls w s v e h ht hs he =>
    refine elem_content h he fun r => ?_
    have := content_text (ns := ns) ht hs r none [] (by simp [PlainText]) (fun _ => ⟨rfl, rfl⟩) (by intro e; cases e) (by intro e; cases e)
    simpa [finish] using this
  | @kids inh ns name decls w g e ps h hne hgs hxs hg he ih =>
    rw [show w ++ '>' :: ps.flatMap (fun p => p.1 ++ p.2.2) ++ g ++ e = w ++ '>' :: (ps.flatMap (fun p => p.1 ++ p.2.2) ++ g) ++ e by simp]
    refine elem_content h he fun r => ?_
    have := content_kids hg r ps [] (.inl hne) hgs ih
    simpa using this

theorem skipMisc_gap {g r : Str} (hg : Gap g) (hr : ∀ c, r.head? = some c → isXmlBlank c = false) (hc : ∀ t, r ≠ '<' :: '!' :: '-' :: '-' :: t) :
    ∀ p, Blanks p → ∀ n, (g ++ r).length < n → skipMisc n (p ++ (g ++ r)) = some r := by
  induction hg with
  | nil =>
    intro p hp n hn
    obtain ⟨n, rfl⟩ : ∃ m, n = m + 1 := ⟨n - 1, by omega⟩
    rw [skipMisc, List.nil_append, blanks_drop hp hr]
    split
    · rename_i t; exact absurd rfl (hc t)
    · rfl
  | @blank c g hb hg ih =>
    intro p hp n hn
    rw [show p ++ (c :: g ++ r) = (p ++ [c]) ++ (g ++ r) by simp]
    refine ih _ ?_ n (by simp at hn ⊢; omega)
    intro x hx
    rcases List.mem_append.1 hx with hx | hx
    · exact hp x hx
    · simp at hx; subst hx; exact hb
  | @comment b g hb hg ih =>
    intro p hp n hn
    obtain ⟨b, rfl, hb⟩ := hb
    obtain ⟨n, rfl⟩ : ∃ m, n = m + 1 := ⟨n - 1, by omega⟩
    have e : p ++ (py!"<!--" ++ b ++ py!"-->" ++ g ++ r) = p ++ ('<' :: '!' :: '-' :: '-' :: (b ++ (py!"-->" ++ (g ++ r)))) := by simp
    rw [e, skipMisc, blanks_drop hp (by intro c hc; simp at hc; subst hc; decide)]
    simp only [skipComment_body hb]
    exact ih [] (by simp [Blanks]) n (by simp at hn ⊢; omega)

/-- Every text of a document is read as the document. -/
theorem readXml_doc {x : Xml} {w : Str} (h : XmlDoc x w) : readXml w = some x := by
  obtain ⟨g, b, g', rfl, hg, hb, hg'⟩ := h
  obtain ⟨w', rfl, ⟨c, cs, hc, hn⟩, hx⟩ := elem_renders hb
  have e : g ++ '<' :: w' ++ g' = g ++ ('<' :: (w' ++ g')) := by simp
  have h1 := skipMisc_gap (r := '<' :: (w' ++ g')) hg (by intro c hc; simp at hc; subst hc; decide)
    (by intro t e; rw [hc] at e; simp at e; rw [e.1] at hn; revert hn; decide) [] (by simp [Blanks])
    ((g ++ ('<' :: (w' ++ g'))).length + 1) (by omega)
  have h2 := skipMisc_gap (r := []) hg' (by simp) (by simp) [] (by simp [Blanks]) (g'.length + 1) (by simp)
  simp only [List.nil_append, List.append_nil] at h1 h2
  rw [e, readXml, h1]
  simp only [hx g' _ (Nat.le_refl _), h2, if_true]

/-! ## What is written -/

theorem digit_range {c : Char} (h : isDigit c = true) : 48 ≤ c.toNat ∧ c.toNat ≤ 57 := by
  simpa [isDigit] using h

theorem natStr_fold (n : Nat) : (natStr n).foldl (fun n c => 10 * n + digitOf c) 0 = n := by
  have h := parseDigits_natStr n
  have key : ∀ (ds : Str) (acc : Nat) (pd : Bool), (∀ c ∈ ds, isDigit c = true) → (ds ≠ [] ∨ pd = true) →
      parseDigits acc pd ds = some (ds.foldl (fun n c => 10 * n + digitOf c) acc) := by
    intro ds
    induction ds with
    | nil => intro acc pd _ h; simp at h; simp [parseDigits, h]
    | cons c ds ih =>
      intro acc pd hd _
      have hc := hd c (by simp)
      have hr := digit_range hc
      rw [parseDigits, if_pos hc, ih _ true (fun x hx => hd x (by simp [hx])) (.inr rfl), List.foldl_cons,
        show digitOf c = c.toNat - 48 by rw [digitOf, if_pos hr.2], Nat.mul_comm]
  rw [key _ 0 false (natStr_digits n) (.inl (natStr_ne_nil n))] at h
  exact Option.some.inj h

theorem natStr_numeral (n : Nat) : Numeral 10 (natStr n) n := by
  refine ⟨natStr_ne_nil n, fun c hc => ?_, natStr_fold n⟩
  have := digit_range (natStr_digits n c hc)
  exact ⟨.inl this, by rw [digitOf, if_pos this.2]; omega⟩

/-- The text written for a string is one of its texts. -/
theorem esc_text (s : Str) : ∀ b, TextOf b s (s.flatMap xmlEsc) := by
  induction s with
  | nil => exact fun _ => .nil
  | cons c s ih =>
    intro b
    rw [List.flatMap_cons]
    unfold xmlEsc
    repeat' split
    · rename_i h; subst h; exact .ref .amp (ih _)
    · rename_i h; subst h; exact .ref .lt (ih _)
    · rename_i h; subst h; exact .ref .gt (ih _)
    · rename_i h; subst h
      exact .ref (w := py!"&#" ++ py!"13" ++ py!";") (.dec (natStr_numeral 13)) (ih _)
    · rename_i h1 h2 h3 h4 h5
      by_cases hb : Blank c
      · exact .blank hb (ih _)
      · exact .char hb h2 h1 h3 h4 (ih _)
    · exact .ref (.dec (natStr_numeral _)) (ih _)

theorem xmlnsText_eq (p : Option Str) (u : Str) : xmlnsText p u = declText p u '"' := by
  cases p <;> simp [xmlnsText, declText]

theorem ownDecls_decls (inh ns : Str) (decls : List (Str × Str)) :
    (xmlOwnDecls inh ns decls).filterMap (fun d => d.1.map fun p => (p, d.2)) = decls.filter fun d => d.2 ≠ inh := by
  rw [xmlOwnDecls, List.filter_append, List.filterMap_append]
  have h2 : (([(none, ns)] : List (Option Str × Str)).filter fun d => d.2 ≠ inh).filterMap (fun d => d.1.map fun p => (p, d.2)) = [] := by
    by_cases h : ns = inh <;> simp [h]
  rw [h2, List.append_nil]
  induction decls with
  | nil => rfl
  | cons d ds ih =>
    by_cases h : d.2 = inh
    · rw [List.map_cons, List.filter_cons_of_neg (by simp [h]), List.filter_cons_of_neg (by simp [h]), ih]
    · rw [List.map_cons, List.filter_cons_of_pos (by simp [h]), List.filter_cons_of_pos (by simp [h]), List.filterMap_cons]
      simp only [Option.map_some, ih]

theorem ownDecls_lookup (inh ns : Str) (decls : List (Str × Str)) : ((xmlOwnDecls inh ns decls).lookup none).getD inh = ns := by
  rw [xmlOwnDecls]
  induction decls with
  | nil =>
    by_cases h : ns = inh
    · simp [h]
    · simp [h, List.lookup]
  | cons d ds ih =>
    by_cases h : d.2 = inh
    · rw [List.map_cons, List.cons_append, List.filter_cons_of_neg (by simp [h]), ih]
    · rw [List.map_cons, List.cons_append, List.filter_cons_of_pos (by simp [h]), List.lookup_cons]
      exact ih

theorem startTag_written {inh ns name : Str} {decls : List (Str × Str)} (hname : Identifier name) (hns : Uri ns) (hnd : (decls.map (·.1)).Nodup)
    (hd : ∀ d ∈ decls, Identifier d.1 ∧ Uri d.2) :
    StartTag inh ns name (decls.filter fun d => d.2 ≠ inh)
      ('<' :: name ++ (xmlOwnDecls inh ns decls).flatMap fun d => ' ' :: xmlnsText d.1 d.2) := by
  refine ⟨hname, (xmlOwnDecls inh ns decls).map fun d => (d, [' '], '"'), [], ?_, by simp [Blanks], ?_, ?_, ?_, ?_⟩
  · simp only [List.flatMap_map, List.append_nil, xmlnsText_eq, List.cons_append, List.nil_append]
  · intro a ha
    obtain ⟨d, hdm, rfl⟩ := List.mem_map.1 ha
    refine ⟨by simp [Blanks, Blank], by simp, .inl rfl, ?_⟩
    have hm := (List.mem_filter.1 hdm).1
    rcases List.mem_append.1 hm with hm | hm
    · obtain ⟨q, hq, rfl⟩ := List.mem_map.1 hm
      exact ⟨fun p e => by simp at e; subst e; exact (hd q hq).1, (hd q hq).2⟩
    · simp at hm
      subst hm
      exact ⟨fun p e => by simp at e, hns⟩
  · rw [List.map_map]
    have hsub : ((xmlOwnDecls inh ns decls).map fun d => d.1).Sublist (((decls.map fun d : Str × Str => (some d.1, d.2)) ++ [(none, ns)]).map fun d : Option Str × Str => d.1) :=
      List.Sublist.map _ List.filter_sublist
    refine List.Pairwise.sublist hsub ?_
    rw [List.map_append, List.map_map, List.map_cons, List.map_nil]
    refine List.nodup_append.2 ⟨?_, by simp, ?_⟩
    · rw [show ((fun d : Option Str × Str => d.1) ∘ fun d : Str × Str => (some d.1, d.2)) = some ∘ (fun d : Str × Str => d.1) from rfl, ← List.map_map]
      exact List.Pairwise.map _ (fun a b h e => h (Option.some.inj e)) hnd
    · intro a ha b hb
      simp at hb
      subst hb
      obtain ⟨q, _, rfl⟩ := List.mem_map.1 ha
      simp
  · rw [List.filterMap_map]
    exact (ownDecls_decls inh ns decls).symm
  · rw [List.map_map]
    exact (by rw [show ((fun a : (Option Str × Str) × Str × Char => a.1) ∘ fun d => (d, [' '], '"')) = id from rfl, List.map_id]; exact (ownDecls_lookup inh ns decls).symm)

theorem replicate_gap (n : Nat) : Gap (List.replicate n ' ') := by
  induction n with
  | zero => exact .nil
  | succ n ih => exact .blank (.inl rfl) ih

theorem line_gap (pretty : Bool) (lvl : Nat) : Gap (xmlLine pretty lvl) := by
  cases pretty
  · exact .nil
  · exact .blank (.inr (.inr rfl)) (replicate_gap _)

mutual
/-- The text written for an element is one of the texts of the element. -/
theorem write_renders (pretty : Bool) (lvl : Nat) (inh : Str) : ∀ x, Writable x → Renders inh (asWritten inh x) (x.write pretty lvl inh)
  | .elem ns name decls text kids, h => by
    simp only [Writable] at h
    obtain ⟨hname, hns, hnd, hd, ht, hk, hall⟩ := h
    have hst := startTag_written (inh := inh) hname hns hnd hd
    have hend : EndTag name (py!"</" ++ name ++ ['>']) := ⟨[], by simp, by simp [Blanks]⟩
    simp only [asWritten, Xml.write]
    cases kids with
    | nil =>
      cases text with
      | none => exact .empty hst
      | some s =>
        have := Renders.text hst (esc_text s .nothing) (ht s rfl).2 hend
        rw [if_neg (ht s rfl).1] at this
        simpa [Xml.writeAll, asWrittenAll] using this
    | cons k ks =>
      obtain ⟨rfl, rfl⟩ := hk (by simp)
      obtain ⟨ps, h1, h2, h3, h4⟩ := writeAll_renders pretty (lvl + 1) ns (k :: ks) hall
      have hne : ps ≠ [] := by
        rintro rfl
        simp [asWrittenAll] at h1
      have := Renders.kids ps hst hne h3 h4 (line_gap pretty lvl) hend
      rw [h1, h2] at this
      simpa using this
theorem writeAll_renders (pretty : Bool) (lvl : Nat) (inh : Str) : ∀ xs, WritableAll xs →
    ∃ ps : List (Str × Xml × Str), ps.map (·.2.1) = asWrittenAll inh xs ∧ ps.flatMap (fun p => p.1 ++ p.2.2) = Xml.writeAll pretty lvl inh xs ∧
      (∀ p ∈ ps, Gap p.1) ∧ ∀ p ∈ ps, Renders inh p.2.1 p.2.2
  | [], _ => ⟨[], rfl, rfl, by simp, by simp⟩
  | x :: xs, h => by
    simp only [WritableAll] at h
    obtain ⟨ps, h1, h2, h3, h4⟩ := writeAll_renders pretty lvl inh xs h.2
    have hx := write_renders pretty lvl inh x h.1
    refine ⟨(xmlLine pretty lvl, asWritten inh x, x.write pretty lvl inh) :: ps, ?_, ?_, ?_, ?_⟩
    · rw [List.map_cons, h1, asWrittenAll]
    · rw [List.flatMap_cons, h2, Xml.writeAll]
    · intro p hp
      rcases List.mem_cons.1 hp with rfl | hp
      · exact line_gap pretty lvl
      · exact h3 p hp
    · intro p hp
      rcases List.mem_cons.1 hp with rfl | hp
      · exact hx
      · exact h4 p hp
end

theorem writeXml_doc (pretty : Bool) {x : Xml} (h : Writable x) : XmlDoc (asWritten [] x) (writeXml pretty x) := by
  refine ⟨[], x.write pretty 0 [], if pretty then ['\n'] else [], rfl, .nil, write_renders pretty 0 [] x h, ?_⟩
  cases pretty
  · exact .nil
  · exact .blank (.inr (.inr rfl)) .nil

/-! ## ASCII -/

theorem esc_ascii (c : Char) : ∀ x ∈ xmlEsc c, x.toNat < 128 := by
  unfold xmlEsc
  repeat' split
  · decide
  · decide
  · decide
  · decide
  · rename_i h; intro x hx; simp at hx; subst hx; exact h
  · intro x hx
    rcases List.mem_append.1 hx with hx | hx
    · rcases List.mem_append.1 hx with hx | hx
      · exact (by decide : ∀ x ∈ py!"&#", x.toNat < 128) x hx
      · have := digit_range (natStr_digits _ x hx); omega
    · exact (by decide : ∀ x ∈ py!";", x.toNat < 128) x hx

end Pyb
