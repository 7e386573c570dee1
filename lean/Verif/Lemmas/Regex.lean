import Verif.Spec.Regex
import Verif.Lemmas.Restricted

namespace Pyb
open Py Spec

/-! # Texts -/

theorem lexRx_cons (fl : Flavour) (st : LexSt) (c : Char) (cs : Str) :
    lexRx fl st (c :: cs) = (lexStep fl st c).bind fun x => (lexRx fl x.1 cs).map fun ts => x.2 ++ ts := by
  cases st <;> rfl

theorem lexRx_append {fl : Flavour} : ∀ {p : Str} {st : LexSt} {ts : List Tok} (q : Str), lexRx fl st p = some ts →
    lexRx fl st (p ++ q) = (lexRx fl .norm q).map fun us => ts ++ us := by
  intro p
  induction p with
  | nil =>
    intro st ts q h
    cases st <;> simp [lexRx] at h
    subst h
    cases h2 : lexRx fl .norm q <;> simp [h2]
  | cons c p ih =>
    intro st ts q h
    rw [lexRx_cons] at h
    rw [List.cons_append, lexRx_cons]
    cases hs : lexStep fl st c with
    | none => simp [hs] at h
    | some x =>
      simp only [hs, Option.bind_some] at h ⊢
      cases hr : lexRx fl x.1 p with
      | none => simp [hr] at h
      | some us =>
        simp only [hr, Option.map_some, Option.some.injEq] at h
        subst h
        rw [ih q hr]
        cases lexRx fl .norm q <;> simp

/-- `$` is a character. -/
def undollar : Tok → Tok
  | .dollar => .lit '$'
  | t => t

theorem escChar_py {c x : Char} (h : escChar .xsd c = some x) : escChar .py c = some x := by
  unfold escChar at *
  split at h
  · rename_i h1; rw [if_pos h1]; exact h
  rename_i h1; rw [if_neg h1]
  split at h
  · rename_i h2; rw [if_pos h2]; exact h
  rename_i h2; rw [if_neg h2]
  split at h
  · rename_i h3; rw [if_pos h3]; exact h
  rename_i h3; rw [if_neg h3]
  split at h
  · rename_i h4; rw [if_pos h4]; exact h
  · simp at h

theorem escChar_not_dollar {c x : Char} (h : escChar .xsd c = some x) : c ≠ '$' := by
  rintro rfl
  simp [escChar] at h

theorem clsStep_toks {k : Spec.Cls} {c : Char} {x : LexSt × List Tok} (h : clsStep k c = some x) : x.2.map undollar = x.2 := by
  unfold clsStep at h
  repeat' split at h
  all_goals first
    | (simp at h; done)
    | (simp at h; subst h; rfl)
    | (cases hk : k.char c <;> simp [hk] at h; subst h; rfl)

theorem ite_step {α : Type} {p : Prop} [Decidable p] {a b a' b' : Option α} {x y : α} (h : (if p then a else b) = some x)
    (h1 : p → a = some x → a' = some y) (h2 : ¬ p → b = some x → b' = some y) : (if p then a' else b') = some y := by
  by_cases hp : p
  · rw [if_pos hp] at h ⊢; exact h1 hp h
  · rw [if_neg hp] at h ⊢; exact h2 hp h

/-- A step in XML Schema, for another character than `$`, is a step in `regex`. -/
theorem lexStep_other {st : LexSt} {c : Char} {x : LexSt × List Tok} (hc : c ≠ '$') (h : lexStep .xsd st c = some x) :
    lexStep .py st c = some (x.1, x.2.map undollar) := by
  cases st with
  | norm =>
    simp only [lexStep] at h ⊢
    iterate 11 refine ite_step h (fun _ h => by cases h; rfl) fun _ h => ?_
    refine ite_step h (fun e => absurd e hc) fun _ h => ?_
    refine ite_step h (fun _ h => by cases h) fun _ h => ?_
    cases h; rfl
  | esc =>
    simp only [lexStep] at h ⊢
    split
    · rename_i h1
      rw [if_pos h1] at h
      simp at h; subst h; rfl
    · rename_i h1
      rw [if_neg h1] at h
      split
      · rename_i h2
        rw [if_pos h2] at h
        simp at h; subst h; rfl
      · rename_i h2
        rw [if_neg h2] at h
        cases he : escChar .xsd c with
        | none => simp [he] at h
        | some y =>
          rw [he] at h
          simp at h; subst h
          rw [escChar_py he]; rfl
  | prop k neg name =>
    cases name with
    | none =>
      simp only [lexStep] at h ⊢
      split at h <;> simp_all
      subst h; rfl
    | some name =>
      simp only [lexStep] at h ⊢
      split
      · rename_i h1
        rw [if_pos h1] at h
        cases k with
        | none => simp at h; subst h; rfl
        | some k =>
          simp only at h ⊢
          cases hk : k.set ((if neg then 'P' else 'p') :: name) with
          | none => simp [hk] at h
          | some k' => rw [hk] at h; simp at h; subst h; rfl
      · rename_i h1
        rw [if_neg h1] at h
        split at h
        · rename_i h2
          rw [if_pos h2]; simp at h; subst h; rfl
        · simp at h
  | open_ =>
    simp only [lexStep] at h ⊢
    split
    · rename_i h1
      rw [if_pos h1] at h
      simp at h; subst h; rfl
    · rename_i h1
      rw [if_neg h1] at h
      rw [h, clsStep_toks h]
  | cls k =>
    simp only [lexStep] at h ⊢
    rw [h, clsStep_toks h]
  | clsEsc k =>
    simp only [lexStep] at h ⊢
    split
    · rename_i h1
      rw [if_pos h1] at h
      simp at h; subst h; rfl
    · rename_i h1
      rw [if_neg h1] at h
      split
      · rename_i h2
        rw [if_pos h2] at h
        cases hk : k.set [c] with
        | none => simp [hk] at h
        | some k' => rw [hk] at h; simp at h; subst h; rfl
      · rename_i h2
        rw [if_neg h2] at h
        cases he : escChar .xsd c with
        | none => simp [he] at h
        | some y =>
          rw [he] at h
          rw [escChar_py he]
          simp only [Option.bind_some] at h ⊢
          cases hk : k.char y with
          | none => simp [hk] at h
          | some k' => rw [hk] at h; simp at h; subst h; rfl
  | lo ds =>
    simp only [lexStep] at h ⊢
    repeat' split at h
    all_goals first
      | (simp at h; done)
      | (simp at h; subst h; simp_all [undollar])
  | hi n ds =>
    simp only [lexStep] at h ⊢
    repeat' split at h
    all_goals first
      | (simp at h; done)
      | (simp at h; subst h; simp_all [undollar])

/-- `$` in XML Schema is `\$` in `regex`. -/
theorem lexStep_dollar {st : LexSt} {x : LexSt × List Tok} (h : lexStep .xsd st '$' = some x) :
    ∃ m, lexStep .py st '\\' = some (m, []) ∧ lexStep .py m '$' = some (x.1, x.2.map undollar) := by
  cases st with
  | norm =>
    simp [lexStep] at h
    subst h
    exact ⟨.esc, by simp [lexStep], by simp [lexStep, escChar, escSet, undollar]⟩
  | esc => simp [lexStep, escSet, escChar] at h
  | prop k neg name =>
    cases name with
    | none => simp [lexStep] at h
    | some name => simp [lexStep, show Char.isAlphanum '$' = false by decide] at h
  | open_ =>
    simp [lexStep, clsStep] at h
    obtain ⟨k, hk, rfl⟩ := h
    refine ⟨.clsEsc {}, by simp [lexStep, clsStep], ?_⟩
    simp [lexStep, escSet, escChar, hk]
  | cls k =>
    simp [lexStep, clsStep] at h
    obtain ⟨k', hk, rfl⟩ := h
    refine ⟨.clsEsc k, by simp [lexStep, clsStep], ?_⟩
    simp [lexStep, escSet, escChar, hk]
  | clsEsc k => simp [lexStep, escSet, escChar] at h
  | lo ds => simp [lexStep, show Char.isDigit '$' = false by decide] at h
  | hi n ds => simp [lexStep, show Char.isDigit '$' = false by decide] at h

/-- Escaping the `$`s of a text. -/
theorem lexRx_escaped : ∀ {p : Str} {st : LexSt} {ts : List Tok}, lexRx .xsd st p = some ts →
    lexRx .py st (replaceBy '$' py!"\\$" p) = some (ts.map undollar) := by
  intro p
  induction p with
  | nil =>
    intro st ts h
    cases st <;> simp [lexRx] at h
    subst h; rfl
  | cons c p ih =>
    intro st ts h
    rw [lexRx_cons] at h
    cases hs : lexStep .xsd st c with
    | none => simp [hs] at h
    | some x =>
      simp only [hs, Option.bind_some] at h
      cases hr : lexRx .xsd x.1 p with
      | none => simp [hr] at h
      | some us =>
        simp only [hr, Option.map_some, Option.some.injEq] at h
        subst h
        have := ih hr
        by_cases hc : c = '$'
        · subst hc
          obtain ⟨m, h1, h2⟩ := lexStep_dollar hs
          have e : replaceBy '$' py!"\\$" ('$' :: p) = '\\' :: '$' :: replaceBy '$' py!"\\$" p := by simp [replaceBy]
          rw [e, lexRx_cons, h1]
          simp only [Option.bind_some]
          rw [lexRx_cons, h2]
          simp [this]
        · have e : replaceBy '$' py!"\\$" (c :: p) = c :: replaceBy '$' py!"\\$" p := by simp [replaceBy, hc]
          rw [e, lexRx_cons, lexStep_other hc hs]
          simp [this]

/-! # Trees -/

/-- The second expression is the first with `^` in front of its first branch. -/
inductive Front : Rx → Rx → Prop where
  | branch (cur) : Front (branchOf cur) (branchOf (cur ++ [(.start, false)]))
  | alt {a a'} (b) : Front a a' → Front (.alt a b) (.alt a' b)

/-- The same for a group. -/
inductive FrontG : Group → Group → Prop where
  | first (cur) : FrontG ⟨none, cur⟩ ⟨none, cur ++ [(.start, false)]⟩
  | later {a a'} (cur) : Front a a' → FrontG ⟨some a, cur⟩ ⟨some a', cur⟩

/-- The same for the outermost group. -/
inductive FrontS : Group → List Group → Group → List Group → Prop where
  | bottom {g g'} : FrontG g g' → FrontS g [] g' []
  | up {h hs h' hs'} (g) : FrontS h hs h' hs' → FrontS g (h :: hs) g (h' :: hs')

theorem FrontG.close {g g' : Group} (h : FrontG g g') : Front g.close g'.close := by
  cases h with
  | first cur => exact .branch cur
  | later cur h => exact .alt _ h

theorem FrontG.push {g g' : Group} (h : FrontG g g') (r : Rx) (q : Bool) : FrontG (g.push r q) (g'.push r q) := by
  cases h with
  | first cur => exact .first ((r, q) :: cur)
  | later cur h => exact .later _ h

theorem FrontS.push {g g' : Group} {s s' : List Group} (h : FrontS g s g' s') (r : Rx) (q : Bool) : FrontS (g.push r q) s (g'.push r q) s' := by
  cases h with
  | bottom h => exact .bottom (h.push r q)
  | up g h => exact .up _ h

theorem tokStep_front {g g' h : Group} {s s' u : List Group} {t : Tok} (hf : FrontS g s g' s') (ht : t ≠ .caret)
    (hs : tokStep .xsd g s t = some (h, u)) : ∃ h' u', tokStep .py g' s' (undollar t) = some (h', u') ∧ FrontS h u h' u' := by
  cases t with
  | caret => exact absurd rfl ht
  | lit c => simp [tokStep] at hs; obtain ⟨rfl, rfl⟩ := hs; exact ⟨_, _, rfl, hf.push _ _⟩
  | any => simp [tokStep] at hs; obtain ⟨rfl, rfl⟩ := hs; exact ⟨_, _, rfl, hf.push _ _⟩
  | cls => simp [tokStep] at hs; obtain ⟨rfl, rfl⟩ := hs; exact ⟨_, _, rfl, hf.push _ _⟩
  | set => simp [tokStep] at hs; obtain ⟨rfl, rfl⟩ := hs; exact ⟨_, _, rfl, hf.push _ _⟩
  | dollar => simp [tokStep] at hs; obtain ⟨rfl, rfl⟩ := hs; exact ⟨_, _, rfl, hf.push _ _⟩
  | bar =>
    simp [tokStep] at hs; obtain ⟨rfl, rfl⟩ := hs
    refine ⟨_, _, rfl, ?_⟩
    cases hf with
    | bottom h => exact .bottom (.later [] h.close)
    | up g h => exact .up _ h
  | lp => simp [tokStep] at hs; obtain ⟨rfl, rfl⟩ := hs; exact ⟨_, _, rfl, .up _ hf⟩
  | rp =>
    cases hf with
    | bottom h => simp [tokStep] at hs
    | up g h =>
      simp [tokStep] at hs; obtain ⟨rfl, rfl⟩ := hs
      exact ⟨_, _, rfl, h.push _ _⟩
  | quant lo hi =>
    cases hf with
    | bottom hg =>
      cases hg with
      | first cur =>
        cases cur with
        | nil => simp [tokStep] at hs
        | cons x xs =>
          obtain ⟨r, q⟩ := x
          cases q with
          | false => simp [tokStep] at hs
          | true =>
            simp [tokStep] at hs; obtain ⟨rfl, rfl⟩ := hs
            exact ⟨_, _, rfl, .bottom (.first ((.rep r lo hi, false) :: xs))⟩
      | later cur hfr =>
        cases cur with
        | nil => simp [tokStep] at hs
        | cons x xs =>
          obtain ⟨r, q⟩ := x
          cases q with
          | false => simp [tokStep] at hs
          | true =>
            simp [tokStep] at hs; obtain ⟨rfl, rfl⟩ := hs
            exact ⟨_, _, rfl, .bottom (.later _ hfr)⟩
    | up g hup =>
      obtain ⟨alts, cur⟩ := g
      cases cur with
      | nil => simp [tokStep] at hs
      | cons x xs =>
        obtain ⟨r, q⟩ := x
        cases q with
        | false => simp [tokStep] at hs
        | true =>
          simp [tokStep] at hs; obtain ⟨rfl, rfl⟩ := hs
          exact ⟨_, _, rfl, .up _ hup⟩

theorem parseToks_cons (fl : Flavour) (g : Group) (s : List Group) (t : Tok) (ts : List Tok) :
    parseToks fl g s (t :: ts) = (tokStep fl g s t).bind fun x => parseToks fl x.1 x.2 ts := by
  cases s <;> rfl

theorem parseToks_front : ∀ {ts : List Tok} {g g' : Group} {s s' : List Group} {r : Rx}, FrontS g s g' s' → Tok.caret ∉ ts →
    parseToks .xsd g s ts = some r →
    ∃ h h', FrontG h h' ∧ r = h.close ∧ parseToks .py g' s' (ts.map undollar ++ [.dollar]) = some (h'.push .fin false).close := by
  intro ts
  induction ts with
  | nil =>
    intro g g' s s' r hf _ h
    cases hf with
    | up => simp [parseToks] at h
    | bottom hg =>
      simp [parseToks] at h
      exact ⟨g, g', hg, h.symm, by simp [parseToks_cons, tokStep, parseToks]⟩
  | cons t ts ih =>
    intro g g' s s' r hf hc h
    rw [parseToks_cons] at h
    cases hs : tokStep .xsd g s t with
    | none => simp [hs] at h
    | some x =>
      obtain ⟨h1, u1⟩ := x
      simp only [hs, Option.bind_some] at h
      obtain ⟨h', u', e1, e2⟩ := tokStep_front hf (fun e => hc (by simp [e])) hs
      obtain ⟨k, k', f1, f2, f3⟩ := ih e2 (fun e => hc (by simp [e])) h
      refine ⟨k, k', f1, f2, ?_⟩
      rw [List.map_cons, List.cons_append, parseToks_cons, e1]
      exact f3

/-! # Meaning -/

theorem front_match {S : Sets} {a a' : Rx} (h : Front a a') : ∀ w post, Match S a' [] w post ↔ Match S a [] w post := by
  induction h with
  | branch cur =>
    induction cur with
    | nil =>
      intro w post
      simp only [List.nil_append, branchOf]
      constructor
      · intro h
        cases h with
        | cat h1 h2 =>
          cases h1 with | eps =>
            cases h2 with | start => exact .eps _ _
      · intro h
        cases h with
        | eps => exact .cat (u := []) (v := []) (.eps _ _) (.start _)
    | cons x xs ih =>
      intro w post
      simp only [List.cons_append, branchOf]
      constructor
      · intro h
        cases h with
        | cat h1 h2 => exact .cat ((ih _ _).1 h1) h2
      · intro h
        cases h with
        | cat h1 h2 => exact .cat ((ih _ _).2 h1) h2
  | alt b _ ih =>
    intro w post
    constructor
    · intro h
      cases h with
      | altl h => exact .altl ((ih _ _).1 h)
      | altr h => exact .altr h
    · intro h
      cases h with
      | altl h => exact .altl ((ih _ _).2 h)
      | altr h => exact .altr h

/-- No anchors. -/
def NoAnchor : Rx → Prop
  | .start => False
  | .fin => False
  | .cat a b => NoAnchor a ∧ NoAnchor b
  | .alt a b => NoAnchor a ∧ NoAnchor b
  | .rep r _ _ => NoAnchor r
  | _ => True

theorem item_agree {X P : Sets} {neg : Bool} {items : List Item} {c : Char} (h : ∀ name ∈ setsOf (.cls neg items), X.set name c = P.set name c) :
    (items.any fun i => i.has X c) = items.any fun i => i.has P c := by
  rw [Bool.eq_iff_iff]
  simp only [List.any_eq_true]
  have : ∀ i ∈ items, i.has X c = i.has P c := by
    intro i hi
    cases i with
    | chr a => rfl
    | range a b => rfl
    | set name => exact h name (List.mem_filterMap.2 ⟨.set name, hi, rfl⟩)
  constructor
  · rintro ⟨i, hi, e⟩; exact ⟨i, hi, by rw [← this i hi]; exact e⟩
  · rintro ⟨i, hi, e⟩; exact ⟨i, hi, by rw [this i hi]; exact e⟩

theorem match_of_lang {X P : Sets} {r : Rx} {w : Str} (h : InLang X r w) : Agree X P r w → ∀ pre post, Match P r pre w post := by
  induction h with
  | lit c => intro _ pre post; exact .lit ..
  | any c h => intro ha pre post; exact .any _ _ _ (by rw [← (ha c (by simp)).1]; exact h)
  | cls neg items c h => intro ha pre post; exact .cls _ _ _ _ _ (by rw [← item_agree (neg := neg) (ha c (by simp)).2]; exact h)
  | set name c h => intro ha pre post; exact .set _ _ _ _ (by rw [← (ha c (by simp)).2 name (by simp [setsOf])]; exact h)
  | eps => intro _ pre post; exact .eps ..
  | cat _ _ ih1 ih2 =>
    intro ha pre post
    refine .cat (ih1 ?_ _ _) (ih2 ?_ _ _)
    · intro c hc; exact ⟨(ha c (by simp [hc])).1, fun n hn => (ha c (by simp [hc])).2 n (by simp [setsOf, hn])⟩
    · intro c hc; exact ⟨(ha c (by simp [hc])).1, fun n hn => (ha c (by simp [hc])).2 n (by simp [setsOf, hn])⟩
  | altl _ ih =>
    intro ha pre post
    exact .altl (ih (fun c hc => ⟨(ha c hc).1, fun n hn => (ha c hc).2 n (by simp [setsOf, hn])⟩) _ _)
  | altr _ ih =>
    intro ha pre post
    exact .altr (ih (fun c hc => ⟨(ha c hc).1, fun n hn => (ha c hc).2 n (by simp [setsOf, hn])⟩) _ _)
  | rep0 => intro _ pre post; exact .rep0 ..
  | rep1 h0 _ _ ih1 ih2 =>
    intro ha pre post
    refine .rep1 h0 (ih1 ?_ _ _) (ih2 ?_ _ _)
    · intro c hc; exact ⟨(ha c (by simp [hc])).1, fun n hn => (ha c (by simp [hc])).2 n (by simpa [setsOf] using hn)⟩
    · intro c hc; exact ⟨(ha c (by simp [hc])).1, fun n hn => (ha c (by simp [hc])).2 n (by simpa [setsOf] using hn)⟩

theorem lang_of_match {X P : Sets} {r : Rx} {pre w post : Str} (h : Match P r pre w post) : NoAnchor r → Agree X P r w → InLang X r w := by
  induction h with
  | lit c => intro _ _; exact .lit ..
  | any c _ _ h => intro _ ha; exact .any _ (by rw [(ha c (by simp)).1]; exact h)
  | cls neg items c _ _ h => intro _ ha; exact .cls _ _ _ (by rw [item_agree (neg := neg) (ha c (by simp)).2]; exact h)
  | set name c _ _ h => intro _ ha; exact .set _ _ (by rw [(ha c (by simp)).2 name (by simp [setsOf])]; exact h)
  | start => intro h; exact absurd h (by simp [NoAnchor])
  | fin => intro h; exact absurd h (by simp [NoAnchor])
  | eps => intro _ _; exact .eps
  | cat _ _ ih1 ih2 =>
    intro hn ha
    refine .cat (ih1 hn.1 ?_) (ih2 hn.2 ?_)
    · intro c hc; exact ⟨(ha c (by simp [hc])).1, fun n hn => (ha c (by simp [hc])).2 n (by simp [setsOf, hn])⟩
    · intro c hc; exact ⟨(ha c (by simp [hc])).1, fun n hn => (ha c (by simp [hc])).2 n (by simp [setsOf, hn])⟩
  | altl _ ih =>
    intro hn ha
    exact .altl (ih hn.1 fun c hc => ⟨(ha c hc).1, fun n hn => (ha c hc).2 n (by simp [setsOf, hn])⟩)
  | altr _ ih =>
    intro hn ha
    exact .altr (ih hn.2 fun c hc => ⟨(ha c hc).1, fun n hn => (ha c hc).2 n (by simp [setsOf, hn])⟩)
  | rep0 => intro _ _; exact .rep0
  | rep1 h0 _ _ ih1 ih2 =>
    intro hn ha
    refine .rep1 h0 (ih1 hn ?_) (ih2 hn ?_)
    · intro c hc; exact ⟨(ha c (by simp [hc])).1, fun n hn => (ha c (by simp [hc])).2 n (by simpa [setsOf] using hn)⟩
    · intro c hc; exact ⟨(ha c (by simp [hc])).1, fun n hn => (ha c (by simp [hc])).2 n (by simpa [setsOf] using hn)⟩

/-! ## What XML Schema texts stand for has no anchors -/

def NoAnchorG (g : Group) : Prop := (∀ a, g.alts = some a → NoAnchor a) ∧ ∀ x ∈ g.cur, NoAnchor x.1

theorem noAnchor_branch : ∀ {cur : List (Rx × Bool)}, (∀ x ∈ cur, NoAnchor x.1) → NoAnchor (branchOf cur) := by
  intro cur
  induction cur with
  | nil => intro _; exact trivial
  | cons x xs ih => intro h; exact ⟨ih fun y hy => h y (by simp [hy]), h x (by simp)⟩

theorem NoAnchorG.close {g : Group} (h : NoAnchorG g) : NoAnchor g.close := by
  unfold Group.close
  cases ha : g.alts with
  | none => exact noAnchor_branch h.2
  | some a => exact ⟨h.1 a ha, noAnchor_branch h.2⟩

theorem NoAnchorG.push {g : Group} (h : NoAnchorG g) {r : Rx} (hr : NoAnchor r) (q : Bool) : NoAnchorG (g.push r q) := by
  refine ⟨h.1, ?_⟩
  intro x hx
  rcases List.mem_cons.1 hx with rfl | hx
  · exact hr
  · exact h.2 x hx

theorem parseToks_noAnchor : ∀ {ts : List Tok} {g : Group} {s : List Group} {r : Rx}, NoAnchorG g → (∀ h ∈ s, NoAnchorG h) →
    parseToks .xsd g s ts = some r → NoAnchor r := by
  intro ts
  induction ts with
  | nil =>
    intro g s r hg hs h
    cases s <;> simp [parseToks] at h
    subst h; exact hg.close
  | cons t ts ih =>
    intro g s r hg hs h
    rw [parseToks_cons] at h
    cases ht : tokStep .xsd g s t with
    | none => simp [ht] at h
    | some x =>
      obtain ⟨h1, u1⟩ := x
      simp only [ht, Option.bind_some] at h
      have key : NoAnchorG h1 ∧ ∀ h ∈ u1, NoAnchorG h := by
        cases t with
        | lit c => simp [tokStep] at ht; obtain ⟨rfl, rfl⟩ := ht; exact ⟨hg.push (by simp [NoAnchor]) _, hs⟩
        | any => simp [tokStep] at ht; obtain ⟨rfl, rfl⟩ := ht; exact ⟨hg.push (by simp [NoAnchor]) _, hs⟩
        | cls => simp [tokStep] at ht; obtain ⟨rfl, rfl⟩ := ht; exact ⟨hg.push (by simp [NoAnchor]) _, hs⟩
        | set => simp [tokStep] at ht; obtain ⟨rfl, rfl⟩ := ht; exact ⟨hg.push (by simp [NoAnchor]) _, hs⟩
        | caret => simp [tokStep] at ht; obtain ⟨rfl, rfl⟩ := ht; exact ⟨hg.push (by simp [NoAnchor]) _, hs⟩
        | dollar => simp [tokStep] at ht; obtain ⟨rfl, rfl⟩ := ht; exact ⟨hg.push (by simp [NoAnchor]) _, hs⟩
        | bar =>
          simp [tokStep] at ht; obtain ⟨rfl, rfl⟩ := ht
          exact ⟨⟨fun a ha => by simp at ha; subst ha; exact hg.close, by simp⟩, hs⟩
        | lp =>
          simp [tokStep] at ht; obtain ⟨rfl, rfl⟩ := ht
          refine ⟨⟨by simp, by simp⟩, ?_⟩
          intro h hh
          rcases List.mem_cons.1 hh with rfl | hh
          · exact hg
          · exact hs h hh
        | rp =>
          cases s with
          | nil => simp [tokStep] at ht
          | cons k s =>
            simp [tokStep] at ht; obtain ⟨rfl, rfl⟩ := ht
            exact ⟨(hs k (by simp)).push hg.close _, fun h hh => hs h (by simp [hh])⟩
        | quant lo hi =>
          obtain ⟨alts, cur⟩ := g
          cases cur with
          | nil => simp [tokStep] at ht
          | cons x xs =>
            obtain ⟨r, q⟩ := x
            cases q with
            | false => simp [tokStep] at ht
            | true =>
              simp [tokStep] at ht; obtain ⟨rfl, rfl⟩ := ht
              refine ⟨⟨hg.1, ?_⟩, hs⟩
              intro x hx
              rcases List.mem_cons.1 hx with rfl | hx
              · exact hg.2 (r, true) (by simp)
              · exact hg.2 x (by simp [hx])
      exact ih key.1 key.2 h

/-! # `convert_regexp` -/

theorem getLast?_replace {p : Str} (h : p.getLast? ≠ some '$') : (replaceBy '$' py!"\\$" p).getLast? = p.getLast? := by
  rcases List.eq_nil_or_concat p with rfl | ⟨q, c, rfl⟩
  · rfl
  · simp only [List.concat_eq_append, List.getLast?_append, List.getLast?_singleton, Option.some_or, ne_eq, Option.some.injEq] at h ⊢
    simp [replaceBy, h, List.getLast?_append]

theorem convert_plain {p : Str} (hne : p ≠ []) (hl : p.getLast? ≠ some '$') (hh : p.head? ≠ some '^') :
    convertRegexp p = .ok ('^' :: (replaceBy '$' py!"\\$" p ++ py!"$")) := by
  unfold convertRegexp
  cases hlast : p.getLast? with
  | none => rw [List.getLast?_eq_none_iff] at hlast; exact absurd hlast hne
  | some c =>
    have hc : c ≠ '$' := fun e => hl (by rw [hlast, e])
    simp only [hc, decide_false, Bool.false_eq_true, if_false, Except.ok.injEq]
    have h1 : (replaceBy '$' py!"\\$" p).head? ≠ some '^' := by
      cases p with
      | nil => exact absurd rfl hne
      | cons a p =>
        by_cases ha : a = '$'
        · subst ha; simp [replaceBy]
        · simpa [replaceBy, ha] using hh
    rw [if_neg h1]
    have h2 : ('^' :: replaceBy '$' py!"\\$" p).getLast? ≠ some '$' := by
      rw [List.getLast?_cons, getLast?_replace hl, hlast]
      simpa using hc
    rw [if_neg h2]
    rfl

/-- The expression that is matched for a pattern. -/
theorem convert_parse {p : Str} {ts : List Tok} {r : Rx} (hne : p ≠ []) (hl : p.getLast? ≠ some '$') (hts : lexRx .xsd .norm p = some ts)
    (hc : Tok.caret ∉ ts) (hr : parseRx .xsd p = some r) :
    ∃ text h h', convertRegexp p = .ok text ∧ parseRx .py text = some (h'.push .fin false).close ∧ FrontG h h' ∧ r = h.close := by
  have hh : p.head? ≠ some '^' := by
    intro e
    cases p with
    | nil => simp at e
    | cons a p =>
      simp at e; subst e
      rw [lexRx_cons] at hts
      have : lexStep .xsd .norm '^' = some (.norm, [.caret]) := rfl
      rw [this] at hts
      simp only [Option.bind_some] at hts
      cases h : lexRx .xsd .norm p with
      | none => simp [h] at hts
      | some us => simp [h] at hts; subst hts; simp at hc
  simp only [parseRx, hts, Option.bind_some] at hr
  obtain ⟨h, h', f1, f2, f3⟩ := parseToks_front (g := {}) (g' := ⟨none, [(.start, false)]⟩) (s := []) (s' := []) (.bottom (.first [])) hc hr
  refine ⟨_, h, h', convert_plain hne hl hh, ?_, f1, f2⟩
  simp only [parseRx]
  rw [lexRx_cons]
  have h1 : lexStep .py .norm '^' = some (.norm, [.caret]) := rfl
  rw [h1]
  simp only [Option.bind_some]
  rw [lexRx_append py!"$" (lexRx_escaped hts)]
  have h2 : lexRx .py .norm py!"$" = some [.dollar] := rfl
  rw [h2]
  simp only [Option.map_some, Option.bind_some, List.cons_append, List.nil_append]
  rw [parseToks_cons]
  exact f3

end Pyb
