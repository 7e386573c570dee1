import Verif.Lemmas.Typedef

namespace Pyb
open Py Spec

theorem nodup_subset_length {α : Type} [BEq α] [LawfulBEq α] : ∀ {l m : List α}, l.Nodup → (∀ x ∈ l, x ∈ m) → l.length ≤ m.length := by
  intro l
  induction l with
  | nil => intro m _ _; simp
  | cons x l ih =>
    intro m hn hs
    have hx : x ∈ m := hs x (by simp)
    have := ih (m := m.erase x) (List.nodup_cons.1 hn).2 (by
      intro y hy
      have hne : y ≠ x := fun e => (List.nodup_cons.1 hn).1 (e ▸ hy)
      exact (List.mem_erase_of_ne hne).2 (hs y (List.mem_cons_of_mem _ hy)))
    rw [List.length_erase_of_mem hx] at this
    have := List.length_pos_of_mem hx
    simp
    omega

/-! ## Chains of parent types -/

/-- The types from `x` down to a base type. -/
inductive PChain (cm : Dict TEntry) : Str → List Str → Prop where
  | last (x e) : cm.get? x = some e → e.parent = none → e.base = true → PChain cm x [x]
  | step (x e p l) : cm.get? x = some e → e.parent = some p → PChain cm p l → PChain cm x (x :: l)

theorem pchain_unique {cm : Dict TEntry} {x : Str} {l l' : List Str} (h : PChain cm x l) (h' : PChain cm x l') : l = l' := by
  induction h generalizing l' with
  | last x e h1 h2 =>
    cases h' with
    | last => rfl
    | step _ e' p _ h3 h4 => rw [h1] at h3; cases h3; rw [h2] at h4; cases h4
  | step x e p l h1 h2 h3 ih =>
    cases h' with
    | last _ e' h4 h5 => rw [h1] at h4; cases h4; rw [h2] at h5; cases h5
    | step _ e' p' l' h4 h5 h6 =>
      rw [h1] at h4
      cases h4
      rw [h2] at h5
      cases h5
      rw [ih h6]

theorem pchain_mem {cm : Dict TEntry} {x y : Str} {l : List Str} (h : PChain cm x l) (hy : y ∈ l) :
    ∃ l', PChain cm y l' ∧ l'.length ≤ l.length := by
  induction h with
  | last x e h1 h2 hb => simp at hy; subst hy; exact ⟨[y], .last y e h1 h2 hb, by simp⟩
  | step x e p l h1 h2 h3 ih =>
    rcases List.mem_cons.1 hy with rfl | hy
    · exact ⟨y :: l, .step y e p l h1 h2 h3, by simp⟩
    · obtain ⟨l', h4, h5⟩ := ih hy
      exact ⟨l', h4, by simp; omega⟩

theorem pchain_head {cm : Dict TEntry} {x : Str} {l : List Str} (h : PChain cm x l) : x ∈ l := by
  cases h <;> simp

theorem pchain_nodup {cm : Dict TEntry} {x : Str} {l : List Str} (h : PChain cm x l) : l.Nodup := by
  induction h with
  | last => simp
  | step x e p l h1 h2 h3 ih =>
    refine List.nodup_cons.2 ⟨fun hx => ?_, ih⟩
    obtain ⟨l', h4, h5⟩ := pchain_mem h3 hx
    have := pchain_unique h4 (.step x e p l h1 h2 h3)
    subst this
    simp at h5
    omega

theorem pchain_length {cm : Dict TEntry} {x : Str} {l : List Str} (h : PChain cm x l) : l.length ≤ cm.length := by
  have := nodup_subset_length (pchain_nodup h) (m := cm.map (·.1)) (by
    intro y hy
    obtain ⟨l', h', _⟩ := pchain_mem h hy
    rw [← Dict.has_iff]
    cases h' with
    | last _ e h1 => simp [Dict.has, h1]
    | step _ e _ _ h1 => simp [Dict.has, h1])
  simpa using this

theorem walk_chain {cm : Dict TEntry} {x : Str} {l : List Str} (h : PChain cm x l) :
    ∀ (f : Nat) (checked : List Str), l.length ≤ f → (∀ y ∈ l, y ∉ checked) →
      walkParents cm f checked (some x) = .ok (checked ++ l) := by
  have hnd := pchain_nodup h
  induction h with
  | last x e h1 h2 =>
    intro f checked hf hc
    obtain ⟨f, rfl⟩ : ∃ g, f = g + 1 := ⟨f - 1, by simp at hf; omega⟩
    have : x ∉ checked := hc x (by simp)
    simp only [walkParents, this, if_false, h1, h2]
  | step x e p l h1 h2 h3 ih =>
    intro f checked hf hc
    obtain ⟨f, rfl⟩ : ∃ g, f = g + 1 := ⟨f - 1, by simp at hf; omega⟩
    have : x ∉ checked := hc x (by simp)
    simp only [walkParents, this, if_false, h1, h2]
    rw [ih (List.nodup_cons.1 hnd).2 f (checked ++ [x]) (by simpa using hf) (by
      intro y hy hm
      rcases List.mem_append.1 hm with hm | hm
      · exact hc y (List.mem_cons_of_mem _ hy) hm
      · simp at hm
        subst hm
        exact (List.nodup_cons.1 hnd).1 hy)]
    simp

theorem walk_all {cm : Dict TEntry} {x : Str} {l : List Str} (h : PChain cm x l) :
    walkParents cm cm.length [] (some x) = .ok l := by
  have := walk_chain h cm.length [] (pchain_length h) (by simp)
  simpa using this

theorem pchain_last {cm : Dict TEntry} {x : Str} {l : List Str} (h : PChain cm x l) :
    ∃ y e, l.getLast? = some y ∧ cm.get? y = some e ∧ e.base = true := by
  induction h with
  | last x e h1 h2 hb => exact ⟨x, e, by simp, h1, hb⟩
  | step x e p l h1 h2 h3 ih =>
    obtain ⟨y, e', h4, h5, h6⟩ := ih
    refine ⟨y, e', ?_, h5, h6⟩
    rw [List.getLast?_cons, h4]
    rfl

theorem checkBase_chain {cm : Dict TEntry} {e : TEntry} {p : Str} {l : List Str} (hp : e.parent = some p) (h : PChain cm p l) :
    checkBase cm e = .ok () := by
  simp only [checkBase]
  by_cases hb : e.base = true
  · simp [hb]
  · obtain ⟨y, e', h1, h2, h3⟩ := pchain_last h
    simp [hb, hp, walk_all h, h1, h2, h3]

theorem checkBase_mem {cm : Dict TEntry} {x y : Str} {l : List Str} {e : TEntry} (h : PChain cm x l) (hy : y ∈ l)
    (he : cm.get? y = some e) : checkBase cm e = .ok () := by
  obtain ⟨l', h', _⟩ := pchain_mem h hy
  cases h' with
  | last _ e' h1 h2 hb => rw [he] at h1; cases h1; simp [checkBase, hb]
  | step _ e' p l h1 h2 h3 => rw [he] at h1; cases h1; exact checkBase_chain h2 h3

theorem firstDefault_mem {cm : Dict TEntry} {l : List Str} {v : Str} {e : TEntry} (h : firstDefault cm l = some (v, e)) :
    ∃ y ∈ l, cm.get? y = some e := by
  induction l with
  | nil => simp [firstDefault] at h
  | cons c l ih =>
    simp only [firstDefault] at h
    cases hc : cm.get? c with
    | none =>
      rw [hc] at h
      obtain ⟨y, hy, he⟩ := ih h
      exact ⟨y, List.mem_cons_of_mem _ hy, he⟩
    | some e' =>
      rw [hc] at h
      simp only at h
      cases hd : e'.default with
      | none =>
        rw [hd] at h
        obtain ⟨y, hy, he⟩ := ih h
        exact ⟨y, List.mem_cons_of_mem _ hy, he⟩
      | some v' =>
        rw [hd] at h
        simp at h
        exact ⟨c, by simp, by rw [hc, h.2]⟩

/-- The text of the first default. -/
def fdv (cm : Dict TEntry) (l : List Str) : Option Str := (firstDefault cm l).map Prod.fst

theorem fdv_cons {cm : Dict TEntry} {x : Str} {e : TEntry} (l : List Str) (h : cm.get? x = some e) :
    fdv cm (x :: l) = if e.default.isSome then e.default else fdv cm l := by
  simp only [fdv, firstDefault, h]
  cases e.default <;> simp

/-- The search along a chain. -/
theorem leafDefault_walk {cm : Dict TEntry} {t : TypeS} {e : TEntry} {p : Str} {l : List Str} (hb : buildElem cm t = .ok e)
    (hd : e.default = none) (hp : e.parent = some p) (h : PChain cm p l) : leafDefault cm t none = .ok (fdv cm l) := by
  simp only [leafDefault, hb, bind, Except.bind, hd, hp, walk_all h, fdv]
  cases hf : firstDefault cm l with
  | none => rfl
  | some q =>
    obtain ⟨v, e'⟩ := q
    obtain ⟨y, hy, he⟩ := firstDefault_mem hf
    simp [checkBase_mem h hy he, Except.map]

/-! ## The map of classes -/

/-- What `class_map` is before typedefs: no defaults, and parents that are base types. -/
def BaseMap (cm : Dict TEntry) : Prop :=
  ∀ a e, cm.get? a = some e → e.default = none ∧
    ((e.parent = none ∧ e.base = true) ∨
      ∃ q e', e.parent = some q ∧ cm.get? q = some e' ∧ e'.parent = none ∧ e'.base = true)

/-- The conditions on the definitions, see `C61_nearest_partial`. -/
structure DefsOk (cm₀ : Dict TEntry) (defs : List TypeDef) : Prop where
  colon : ∀ d ∈ defs, ':' ∉ d.pfx ∧ ':' ∉ d.name
  fresh : ∀ d ∈ defs, ∀ x, Denotes d x → cm₀.get? x = none
  same : ∀ d ∈ defs, ∀ d' ∈ defs, d.name = d'.name → d.type = d'.type ∧ d.default = d'.default
  keys : (defs.map TypeDef.key).Nodup

theorem key_eq {d : TypeDef} : d.key = d.pfx ++ ':' :: d.name := rfl

theorem denotes_key (d : TypeDef) : Denotes d d.key := .inl rfl

section
variable {cm₀ : Dict TEntry} {defs : List TypeDef}

theorem colon_key (d : TypeDef) : ':' ∈ d.key := by simp [key_eq]

theorem denotes_name (h : DefsOk cm₀ defs) {d d' : TypeDef} (hd : d ∈ defs) (hd' : d' ∈ defs) {x : Str} (h1 : Denotes d x)
    (h2 : Denotes d' x) : d.name = d'.name := by
  rcases h1 with h1 | h1 <;> rcases h2 with h2 | h2
  · have e : splitOn ':' x = splitOn ':' x := rfl
    conv at e => lhs; rw [h1, splitOn_qual (h.colon d hd).1 (h.colon d hd).2]
    conv at e => rhs; rw [h2, splitOn_qual (h.colon d' hd').1 (h.colon d' hd').2]
    simpa using (List.cons.inj e).2
  · exact absurd (by rw [← h2, h1]; simp) (h.colon d' hd').2
  · exact absurd (by rw [← h1, h2]; simp) (h.colon d hd).2
  · exact h1.symm.trans h2

theorem denotes_same (h : DefsOk cm₀ defs) {d d' : TypeDef} (hd : d ∈ defs) (hd' : d' ∈ defs) {x : Str} (h1 : Denotes d x)
    (h2 : Denotes d' x) : d.type = d'.type ∧ d.default = d'.default := h.same d hd d' hd' (denotes_name h hd hd' h1 h2)

/-- The parent the entry of a typedef has. -/
inductive Par (cm₀ : Dict TEntry) (defs : List TypeDef) : TypeS → Str → Prop where
  | restr (b) : Par cm₀ defs (.plain b true) b
  | builtin (b e) : cm₀.get? b = some e → Par cm₀ defs (.plain b false) (e.parent.getD b)
  | link (b d p) : d ∈ defs → Denotes d b → Par cm₀ defs d.type p → Par cm₀ defs (.plain b false) p

/-- The types a definition names are built already. -/
def Avail (cm₀ : Dict TEntry) (P : List TypeDef) (t : TypeS) : Prop :=
  ∃ b r, t = .plain b r ∧ ((∃ e, cm₀.get? b = some e) ∨ ∃ d ∈ P, Denotes d b)

structure MapInv (cm₀ : Dict TEntry) (defs P : List TypeDef) (cm : Dict TEntry) : Prop where
  others : ∀ x, (∀ d ∈ P, ¬ Denotes d x) → cm.get? x = cm₀.get? x
  built : ∀ d ∈ P, ∀ x, Denotes d x → ∃ p, cm.get? x = some ⟨false, some p, d.default⟩ ∧ Par cm₀ defs d.type p

theorem addTypedef_inv (h : DefsOk cm₀ defs) {P : List TypeDef} {cm : Dict TEntry} (hi : MapInv cm₀ defs P cm)
    (hP : ∀ d ∈ P, d ∈ defs) {d : TypeDef} (hd : d ∈ defs) (hnew : d.key ∉ P.map TypeDef.key) (ha : Avail cm₀ P d.type) :
    ∃ cm', addTypedef cm d = .ok cm' ∧ MapInv cm₀ defs (P ++ [d]) cm' := by
  -- the key is new
  have hkey : ∀ d' ∈ P, ¬ Denotes d' d.key := by
    intro d' hd' hde
    rcases hde with hde | hde
    · exact hnew (hde ▸ List.mem_map_of_mem (f := TypeDef.key) hd')
    · exact (h.colon d' (hP d' hd')).2 (hde ▸ colon_key d)
  have hhas : cm.has d.key = false := by
    simp [Dict.has, hi.others d.key hkey, h.fresh d hd d.key (denotes_key d)]
  have hbare : (splitOn ':' d.key)[1]?.getD [] = d.name := by
    rw [key_eq, splitOn_qual (h.colon d hd).1 (h.colon d hd).2]
    rfl
  have hne : d.name ≠ d.key := fun e => (h.colon d hd).2 (e ▸ colon_key d)
  -- once the entry is known
  have fin : ∀ p, Par cm₀ defs d.type p → MapInv cm₀ defs (P ++ [d])
      ((cm.set d.key ⟨false, some p, d.default⟩).set d.name ⟨false, some p, d.default⟩) := by
    intro p hp
    constructor
    · intro x hx
      have hx1 : x ≠ d.name := fun e => hx d (by simp) (.inr e)
      have hx2 : x ≠ d.key := fun e => hx d (by simp) (.inl e)
      rw [Dict.get?_set, if_neg hx1, Dict.get?_set, if_neg hx2]
      exact hi.others x fun d' hd' => hx d' (by simp [hd'])
    · intro d' hd' x hx
      rw [Dict.get?_set, Dict.get?_set]
      have hd'' : d' ∈ defs := by
        rcases List.mem_append.1 hd' with hd' | hd'
        · exact hP d' hd'
        · simp at hd'; exact hd' ▸ hd
      by_cases hx1 : x = d.name
      · rw [if_pos hx1]
        obtain ⟨ht, hdef⟩ := denotes_same h hd'' hd hx (.inr hx1)
        exact ⟨p, by rw [hdef], by rw [ht]; exact hp⟩
      · rw [if_neg hx1]
        by_cases hx2 : x = d.key
        · rw [if_pos hx2]
          obtain ⟨ht, hdef⟩ := denotes_same h hd'' hd hx (.inl hx2)
          exact ⟨p, by rw [hdef], by rw [ht]; exact hp⟩
        · rw [if_neg hx2]
          rcases List.mem_append.1 hd' with hd' | hd'
          · exact hi.built d' hd' x hx
          · simp at hd'
            subst hd'
            rcases hx with hx | hx
            · exact absurd hx hx2
            · exact absurd hx hx1
  obtain ⟨b, r, hty, hb⟩ := ha
  -- the entry of the named type
  have hent : ∃ e, cm.get? b = some e ∧
      ((cm₀.get? b = some e) ∨ ∃ d' ∈ P, ∃ p, Denotes d' b ∧ e.parent = some p ∧ Par cm₀ defs d'.type p) := by
    rcases hb with ⟨e, he⟩ | ⟨d', hd', hde⟩
    · refine ⟨e, ?_, .inl he⟩
      rw [hi.others b fun d' hd' hde => by rw [h.fresh d' (hP d' hd') b hde] at he; cases he]
      exact he
    · obtain ⟨p, h1, h2⟩ := hi.built d' hd' b hde
      exact ⟨_, h1, .inr ⟨d', hd', p, hde, rfl, h2⟩⟩
  obtain ⟨e, he, hor⟩ := hent
  cases r with
  | true =>
    have hbe : buildElem cm d.type = .ok ⟨false, some b, none⟩ := by simp [hty, buildElem, Dict.has, he]
    exact ⟨_, by simp [addTypedef, hbe, bind, Except.bind, hhas, hbare], fin b (hty ▸ .restr b)⟩
  | false =>
    have hbe : buildElem cm d.type = .ok e := by simp [hty, buildElem, he]
    rcases hor with h0 | ⟨d', hd', p, hde, hp, hpar⟩
    · have hpar : Par cm₀ defs d.type (e.parent.getD b) := hty ▸ .builtin b e h0
      cases hep : e.parent with
      | some q =>
        refine ⟨_, by simp [addTypedef, hbe, bind, Except.bind, hhas, hep, hbare], fin q ?_⟩
        simpa [hep] using hpar
      | none =>
        have hhb : cm.has b = true := by simp [Dict.has, he]
        have harg : d.type.arg = b := by rw [hty]; rfl
        refine ⟨_, by simp [addTypedef, hbe, bind, Except.bind, hhas, hep, hbare, harg, hhb], fin b ?_⟩
        simpa [hep] using hpar
    · exact ⟨_, by simp [addTypedef, hbe, bind, Except.bind, hhas, hp, hbare], fin p (hty ▸ .link b d' p (hP d' hd') hde hpar)⟩

theorem addTypedefs_inv (h : DefsOk cm₀ defs) (order : List TypeDef) (hsub : ∀ d ∈ order, d ∈ defs)
    (hk : (order.map TypeDef.key).Nodup) (hav : ∀ pre d post, order = pre ++ d :: post → Avail cm₀ pre d.type) :
    ∃ cm, addTypedefs cm₀ order = .ok cm ∧ MapInv cm₀ defs order cm := by
  have key : ∀ (post pre : List TypeDef) (cm : Dict TEntry), order = pre ++ post → MapInv cm₀ defs pre cm →
      ∃ cm', post.foldlM addTypedef cm = .ok cm' ∧ MapInv cm₀ defs order cm' := by
    intro post
    induction post with
    | nil => intro pre cm ho hi; exact ⟨cm, rfl, by simpa [ho] using hi⟩
    | cons d post ih =>
      intro pre cm ho hi
      have hnew : d.key ∉ pre.map TypeDef.key := by
        rw [ho] at hk
        simp only [List.map_append, List.map_cons, List.nodup_append] at hk
        intro hm
        exact hk.2.2 _ hm _ (by simp) rfl
      obtain ⟨cm', h1, h2⟩ := addTypedef_inv h hi (fun e he => hsub e (by simp [ho, he])) (hsub d (by simp [ho])) hnew (hav pre d post ho)
      obtain ⟨cm'', h3, h4⟩ := ih (pre ++ [d]) cm' (by simp [ho]) h2
      exact ⟨cm'', by simp [List.foldlM_cons, h1, bind, Except.bind, h3], h4⟩
  exact key order [] cm₀ rfl ⟨fun _ _ => rfl, by simp⟩

/-- The chain below each typedef, and the default found there. -/
theorem par_chain (h : DefsOk cm₀ defs) (hbm : BaseMap cm₀) {order : List TypeDef} (hsub : ∀ d ∈ order, d ∈ defs)
    (hall : ∀ d ∈ defs, d ∈ order) (hav : ∀ pre d post, order = pre ++ d :: post → Avail cm₀ pre d.type) {cm : Dict TEntry}
    (hi : MapInv cm₀ defs order cm) :
    ∀ (n : Nat) pre d post, order = pre ++ d :: post → pre.length = n → ∀ p, Par cm₀ defs d.type p →
      ∃ l, PChain cm p l ∧
        ((∀ e ∈ defs, e.default = none → ∀ b, e.type = .plain b false → ∀ e' ∈ defs, Denotes e' b → e'.default = none) →
          d.default = none → ∀ b r, d.type = .plain b r → Nearest (cm₀.map (·.1)) defs b (fdv cm l)) := by
  have old : ∀ b e, cm₀.get? b = some e → cm.get? b = some e := by
    intro b e he
    rw [hi.others b fun d hd hde => by rw [h.fresh d (hsub d hd) b hde] at he; cases he]
    exact he
  have builtinChain : ∀ b e, cm₀.get? b = some e → ∃ l, PChain cm (e.parent.getD b) l ∧ PChain cm b (if e.parent.isSome then b :: l else l) ∧
      fdv cm l = none ∧ fdv cm (if e.parent.isSome then b :: l else l) = none := by
    intro b e he
    obtain ⟨h1, h2⟩ := hbm b e he
    rcases h2 with ⟨h2, h3⟩ | ⟨q, e', h2, h3, h4, h5⟩
    · refine ⟨[b], ?_⟩
      have : PChain cm b [b] := .last b e (old b e he) h2 h3
      have f1 : fdv cm [b] = none := by rw [fdv_cons [] (old b e he), h1]; simp [fdv, firstDefault]
      simp [h2, this, f1]
    · obtain ⟨h6, _⟩ := hbm q e' h3
      refine ⟨[q], ?_⟩
      have c1 : PChain cm q [q] := .last q e' (old q e' h3) h4 h5
      have c2 : PChain cm b [b, q] := .step b e q [q] (old b e he) h2 c1
      have f1 : fdv cm [q] = none := by rw [fdv_cons [] (old q e' h3), h6]; simp [fdv, firstDefault]
      have f2 : fdv cm [b, q] = none := by rw [fdv_cons [q] (old b e he), h1]; simpa using f1
      simp [h2, c1, c2, f1, f2]
  have inKeys : ∀ b e, cm₀.get? b = some e → b ∈ cm₀.map (·.1) := by
    intro b e he
    rw [← Dict.has_iff]
    simp [Dict.has, he]
  intro n
  induction n using Nat.strongRecOn with
  | ind n ih =>
    intro pre d post ho hn p hp
    have hd : d ∈ defs := hsub d (by simp [ho])
    obtain ⟨b, r, hty, hb⟩ := hav pre d post ho
    rw [hty] at hp
    -- what is known about the named type when it is a typedef
    have named : ∀ d' ∈ pre, Denotes d' b → ∃ p' l', cm.get? b = some ⟨false, some p', d'.default⟩ ∧ Par cm₀ defs d'.type p' ∧ PChain cm p' l' ∧
        ((∀ e ∈ defs, e.default = none → ∀ b, e.type = .plain b false → ∀ e' ∈ defs, Denotes e' b → e'.default = none) →
          d'.default = none → ∀ b r, d'.type = .plain b r → Nearest (cm₀.map (·.1)) defs b (fdv cm l')) := by
      intro d' hd' hde
      obtain ⟨p', h1, h2⟩ := hi.built d' (by simp [ho, hd']) b hde
      obtain ⟨u, w, hu⟩ := List.append_of_mem hd'
      obtain ⟨l', h3, h4⟩ := ih u.length (by rw [← hn, hu]; simp) u d' (w ++ d :: post) (by rw [ho, hu]; simp) rfl p' h2
      exact ⟨p', l', h1, h2, h3, h4⟩
    cases hp with
    | restr _ =>
      rcases hb with ⟨e, he⟩ | ⟨d', hd', hde⟩
      · obtain ⟨l, h1, h2, h3, h4⟩ := builtinChain p e he
        refine ⟨_, h2, ?_⟩
        intro _ _ b' r' hty'
        rw [hty] at hty'
        cases hty'
        rw [h4]
        exact .builtin p (inKeys p e he)
      · obtain ⟨p', l', h1, h2, h3, h4⟩ := named d' hd' hde
        refine ⟨p :: l', .step p _ p' l' h1 rfl h3, ?_⟩
        intro hv _ b' r' hty'
        rw [hty] at hty'
        cases hty'
        rw [fdv_cons l' h1]
        have hd'' : d' ∈ defs := hsub d' (by simp [ho, hd'])
        cases hdd : d'.default with
        | some v => exact .here d' p v hd'' hde hdd
        | none =>
          obtain ⟨b2, r2, hty2, _⟩ : Avail cm₀ pre d'.type := by
            obtain ⟨u, w, hu⟩ := List.append_of_mem hd'
            obtain ⟨b2, r2, h5, h6⟩ := hav u d' (w ++ d :: post) (by rw [ho, hu]; simp)
            refine ⟨b2, r2, h5, ?_⟩
            rcases h6 with h6 | ⟨x, hx, h6⟩
            · exact .inl h6
            · exact .inr ⟨x, by simp [hu, hx], h6⟩
          exact .next d' p b2 r2 _ hd'' hde hdd hty2 (h4 hv hdd b2 r2 hty2)
    | builtin _ e he =>
      obtain ⟨l, h1, h2, h3, h4⟩ := builtinChain b e he
      refine ⟨l, h1, ?_⟩
      intro _ _ b' r' hty'
      rw [hty] at hty'
      cases hty'
      rw [h3]
      exact .builtin b (inKeys b e he)
    | link _ d'' _ hd'' hde hpar =>
      rcases hb with ⟨e, he⟩ | ⟨d', hd', hde'⟩
      · rw [h.fresh d'' hd'' b hde] at he
        cases he
      · have hdd' : d' ∈ defs := hsub d' (by simp [ho, hd'])
        rw [(denotes_same h hd'' hdd' hde hde').1] at hpar
        obtain ⟨u, w, hu⟩ := List.append_of_mem hd'
        obtain ⟨l', h3, h4⟩ := ih u.length (by rw [← hn, hu]; simp) u d' (w ++ d :: post) (by rw [ho, hu]; simp) rfl p hpar
        refine ⟨l', h3, ?_⟩
        intro hv hdn b' r' hty'
        rw [hty] at hty'
        cases hty'
        have hdd : d'.default = none := hv d hd hdn b hty d' hdd' hde'
        obtain ⟨b2, r2, hty2, _⟩ := hav u d' (w ++ d :: post) (by rw [ho, hu]; simp)
        exact .next d' b b2 r2 _ hdd' hde' hdd hty2 (h4 hv hdd b2 r2 hty2)

theorem par_unique (h : DefsOk cm₀ defs) {t : TypeS} {p p' : Str} (h1 : Par cm₀ defs t p) (h2 : Par cm₀ defs t p') : p = p' := by
  induction h1 with
  | restr => cases h2; rfl
  | builtin b e he =>
    cases h2 with
    | builtin _ e' he' => rw [he] at he'; cases he'; rfl
    | link _ d _ hd hde => rw [h.fresh d hd b hde] at he; cases he
  | link b d p hd hde hp ih =>
    cases h2 with
    | builtin _ e' he' => rw [h.fresh d hd b hde] at he'; cases he'
    | link _ d' _ hd' hde' hp' =>
      rw [← (denotes_same h hd hd' hde hde').1] at hp'
      exact ih hp'

theorem nearest_unique (h : DefsOk cm₀ defs) {a : Str} {o o' : Option Str} (h1 : Nearest (cm₀.map (·.1)) defs a o)
    (h2 : Nearest (cm₀.map (·.1)) defs a o') : o = o' := by
  have notb : ∀ {d a}, d ∈ defs → Denotes d a → a ∈ cm₀.map (·.1) → False := by
    intro d a hd hde ha
    rw [← Dict.has_iff] at ha
    simp [Dict.has, h.fresh d hd a hde] at ha
  induction h1 generalizing o' with
  | builtin a ha =>
    cases h2 with
    | builtin => rfl
    | here d _ v hd hde => exact (notb hd hde ha).elim
    | next d _ _ _ _ hd hde => exact (notb hd hde ha).elim
  | here d a v hd hde hv =>
    cases h2 with
    | builtin _ ha => exact (notb hd hde ha).elim
    | here d' _ v' hd' hde' hv' => rw [← hv, ← hv', (denotes_same h hd hd' hde hde').2]
    | next d' _ _ _ _ hd' hde' hn => rw [(denotes_same h hd hd' hde hde').2, hn] at hv; cases hv
  | next d a b r o hd hde hn hty hnear ih =>
    cases h2 with
    | builtin _ ha => exact (notb hd hde ha).elim
    | here d' _ v' hd' hde' hv' => rw [(denotes_same h hd hd' hde hde').2, hv'] at hn; cases hn
    | next d' _ b' r' _ hd' hde' hn' hty' hnear' =>
      rw [(denotes_same h hd hd' hde hde').1, hty'] at hty
      cases hty
      exact ih hnear'

end
end Pyb
