import Verif.Lemmas.Identity

namespace Pyb
open Py Spec

/-! ## Inheritance -/

theorem nodup_split {α : Type} {l a b a' b' : List α} {x : α} (hn : l.Nodup) (h : l = a ++ x :: b) (h' : l = a' ++ x :: b') :
    a = a' ∧ b = b' := by
  subst h
  induction a generalizing a' with
  | nil =>
    cases a' with
    | nil => simp at h'; exact ⟨rfl, h'⟩
    | cons y a' =>
      simp at h' hn
      exact absurd (by rw [h'.2]; simp) hn.1
  | cons y a ih =>
    cases a' with
    | nil =>
      simp at h' hn
      exact absurd h'.1 (by intro e; subst e; exact hn.1.2.1 rfl)
    | cons z a' =>
      simp at h'
      obtain ⟨rfl, h'⟩ := h'
      obtain ⟨rfl, rfl⟩ := ih (List.nodup_cons.1 hn).2 h'
      exact ⟨rfl, rfl⟩

/-- `c` is a direct child of `p` in the store. -/
def Kid (s : IdStore) (c p : IdRef) : Prop := ∃ i ∈ s, i.ref = p ∧ c ∈ i.children

/-- Children come later in the store. -/
def Ordered (s : IdStore) : Prop := ∀ i ∈ s, ∀ c ∈ i.children, ∃ a b, refs s = a ++ i.ref :: b ∧ c ∈ b

theorem mapM_flatten {α β : Type} (g : α → Option (List β)) (l : List α) (h : ∀ c ∈ l, ∃ y, g c = some y) :
    ∃ ys, l.mapM g = some ys ∧ ∀ x, x ∈ ys.flatten ↔ ∃ c ∈ l, ∃ y, g c = some y ∧ x ∈ y := by
  induction l with
  | nil => exact ⟨[], by simp, by simp⟩
  | cons c l ih =>
    obtain ⟨y, hy⟩ := h c (by simp)
    obtain ⟨ys, h1, h2⟩ := ih fun c hc => h c (List.mem_cons_of_mem _ hc)
    refine ⟨y :: ys, by simp [List.mapM_cons, hy, h1], ?_⟩
    intro x
    simp only [List.flatten_cons, List.mem_append, h2, List.mem_cons]
    constructor
    · rintro (h | ⟨c', hc', y', h3, h4⟩)
      · exact ⟨c, .inl rfl, y, hy, h⟩
      · exact ⟨c', .inr hc', y', h3, h4⟩
    · rintro ⟨c', rfl | hc', y', h3, h4⟩
      · rw [hy] at h3; cases h3; exact .inl h4
      · exact .inr ⟨c', hc', y', h3, h4⟩

theorem recurse_spec {s : IdStore} (hn : (refs s).Nodup) (ho : Ordered s) :
    ∀ (f : Nat) (a b : List IdRef) (r : IdRef), refs s = a ++ r :: b → b.length < f →
      ∃ ch, recurseChildren f s r = some ch ∧ ∀ c, c ∈ ch ↔ Relation.TransGen (Kid s) c r := by
  intro f
  induction f with
  | zero => intro a b r _ h; simp at h
  | succ f ih =>
    intro a b r hr hf
    have hm : r ∈ refs s := by rw [hr]; simp
    obtain ⟨i, hi, hir⟩ := List.mem_map.1 hm
    have hfi : findId s r = some i := hir ▸ findId_mem hn hi
    have later : ∀ c ∈ i.children, ∃ ch, recurseChildren f s c = some ch ∧ ∀ x, x ∈ ch ↔ Relation.TransGen (Kid s) x c := by
      intro c hc
      obtain ⟨a', b', h1, h2⟩ := ho i hi c hc
      rw [hir] at h1
      obtain ⟨rfl, rfl⟩ := nodup_split hn hr h1
      obtain ⟨b1, b2, hb⟩ := List.append_of_mem h2
      refine ih (a ++ r :: b1) b2 c (by rw [hr, hb]; simp) ?_
      rw [hb] at hf
      simp at hf
      omega
    obtain ⟨ys, h1, h2⟩ := mapM_flatten (fun c => (recurseChildren f s c).map (c :: ·)) i.children (by
      intro c hc
      obtain ⟨ch, h, _⟩ := later c hc
      exact ⟨c :: ch, by simp [h]⟩)
    refine ⟨ys.flatten, by simp only [recurseChildren, hfi, h1, Option.map_some], ?_⟩
    intro x
    rw [h2]
    constructor
    · rintro ⟨c, hc, y, h3, h4⟩
      obtain ⟨ch, h5, h6⟩ := later c hc
      rw [h5] at h3
      simp at h3
      subst h3
      have hk : Kid s c r := ⟨i, hi, hir, hc⟩
      rcases List.mem_cons.1 h4 with rfl | h4
      · exact .single hk
      · exact .tail ((h6 x).1 h4) hk
    · intro h
      have : ∀ c, Kid s c r → c ∈ i.children := by
        rintro c ⟨j, hj, hjr, hc⟩
        have := findId_mem hn hj
        rw [hjr, hfi] at this
        cases this
        exact hc
      cases h with
      | single hk =>
        obtain ⟨ch, h5, h6⟩ := later x (this x hk)
        exact ⟨x, this x hk, x :: ch, by simp [h5], by simp⟩
      | tail hx hk =>
        rename_i c
        obtain ⟨ch, h5, h6⟩ := later c (this c hk)
        exact ⟨c, this c hk, c :: ch, by simp [h5], List.mem_cons_of_mem _ ((h6 x).2 hx)⟩

/-- The recursion only looks at the identity and the ones after it. -/
theorem recurse_congr {s t : IdStore} (hn : (refs s).Nodup) (ho : Ordered s) :
    ∀ (f : Nat) (a b : List IdRef) (r : IdRef), refs s = a ++ r :: b → (∀ x ∈ r :: b, findId t x = findId s x) →
      recurseChildren f t r = recurseChildren f s r := by
  intro f
  induction f with
  | zero => intros; rfl
  | succ f ih =>
    intro a b r hr hf
    simp only [recurseChildren, hf r (by simp)]
    cases hi : findId s r with
    | none => rfl
    | some i =>
      obtain ⟨hi', hir⟩ := findId_some hi
      have : i.children.mapM (fun c => (recurseChildren f t c).map (c :: ·))
          = i.children.mapM (fun c => (recurseChildren f s c).map (c :: ·)) := by
        have hall : ∀ c ∈ i.children, recurseChildren f t c = recurseChildren f s c := by
          intro c hc
          obtain ⟨a', b', h1, h2⟩ := ho i hi' c hc
          rw [hir] at h1
          obtain ⟨rfl, rfl⟩ := nodup_split hn hr h1
          obtain ⟨b1, b2, hb⟩ := List.append_of_mem h2
          refine ih (a ++ r :: b1) b2 c (by rw [hr, hb]; simp) ?_
          intro x hx
          refine hf x (List.mem_cons_of_mem _ ?_)
          rw [hb]
          exact List.mem_append.2 (.inr hx)
        generalize i.children = l at hall
        induction l with
        | nil => rfl
        | cons c l ihl =>
          rw [List.mapM_cons, List.mapM_cons, hall c (by simp), ihl fun c hc => hall c (List.mem_cons_of_mem _ hc)]
      simp only [this]

/-- An identity with its final children. -/
def closeId (s : IdStore) (i : Ident) : Ident := { i with children := (recurseChildren s.length s i.ref).getD [] }

theorem refs_close (s l : IdStore) : refs (l.map (closeId s)) = refs l := by
  simp [refs, Function.comp_def, closeId, Ident.ref]

theorem findId_append_right {s t : IdStore} {r : IdRef} (h : r ∉ refs s) : findId (s ++ t) r = findId t r := by
  have := findId_none.2 h
  simp only [findId] at this ⊢
  rw [List.find?_append, this]
  rfl

theorem setChildren_skip {s : IdStore} {r : IdRef} {ch : List IdRef} (h : r ∉ refs s) : setChildren s r ch = s := by
  simp only [setChildren]
  conv => rhs; rw [← List.map_id s]
  apply List.map_congr_left
  intro i hi
  have : i.ref ≠ r := fun e => h (e ▸ List.mem_map_of_mem hi)
  simp [this]

theorem buildInheritance_eq {s : IdStore} (hn : (refs s).Nodup) (ho : Ordered s) :
    buildInheritance s = some (s.map (closeId s)) := by
  have key : ∀ (post pre : IdStore), s = pre ++ post →
      post.foldlM (fun t i => (recurseChildren s.length t i.ref).map (setChildren t i.ref)) (pre.map (closeId s) ++ post)
        = some (s.map (closeId s)) := by
    intro post
    induction post with
    | nil => intro pre h; simp [h]
    | cons i post ih =>
      intro pre h
      have hr : refs s = refs pre ++ i.ref :: refs post := by rw [h, refs_append]; rfl
      have hn' := hn
      rw [hr, List.nodup_append] at hn'
      obtain ⟨_, hn2, hn3⟩ := hn'
      have hpre : ∀ x ∈ i.ref :: refs post, x ∉ refs pre := fun x hx hx' => hn3 x hx' x hx rfl
      have hc : recurseChildren s.length (pre.map (closeId s) ++ i :: post) i.ref = recurseChildren s.length s i.ref := by
        refine recurse_congr hn ho s.length (refs pre) (refs post) i.ref hr ?_
        intro x hx
        have hx' := hpre x hx
        conv => rhs; rw [h]
        rw [findId_append_right hx', findId_append_right (by rw [refs_close]; exact hx')]
      obtain ⟨ch, hch, _⟩ := recurse_spec hn ho s.length (refs pre) (refs post) i.ref hr (by
        have := congrArg List.length hr
        simp [refs] at this ⊢
        omega)
      rw [List.foldlM_cons, hc, hch]
      simp only [Option.map_some, Option.bind_eq_bind, Option.bind_some]
      have hset : setChildren (pre.map (closeId s) ++ i :: post) i.ref ch = (pre ++ [i]).map (closeId s) ++ post := by
        have h1 : setChildren (pre.map (closeId s)) i.ref ch = pre.map (closeId s) :=
          setChildren_skip (by rw [refs_close]; exact hpre _ (by simp))
        have h2 : setChildren post i.ref ch = post := setChildren_skip (List.nodup_cons.1 hn2).1
        have h3 : setChildren (pre.map (closeId s) ++ i :: post) i.ref ch
            = setChildren (pre.map (closeId s)) i.ref ch ++ { i with children := ch } :: setChildren post i.ref ch := by
          simp [setChildren]
        rw [h3, h1, h2]
        simp [closeId, hch]
      rw [hset]
      exact ih (pre ++ [i]) (by simp [h])
  exact key s [] rfl

theorem mem_closeId {s : IdStore} (hn : (refs s).Nodup) (ho : Ordered s) {i : Ident} (hi : i ∈ s) (c : IdRef) :
    c ∈ (closeId s i).children ↔ Relation.TransGen (Kid s) c i.ref := by
  obtain ⟨a, b, h⟩ := List.append_of_mem (List.mem_map_of_mem (f := Ident.ref) hi)
  obtain ⟨ch, h1, h2⟩ := recurse_spec hn ho s.length a b i.ref h (by
    have := congrArg List.length h
    simp at this
    omega)
  simp [closeId, h1, h2]

/-! ## The whole store -/

theorem kid_iff {mrp : Dict (List Str)} {defs : List IdDef} (ho : OneEach defs) {s : IdStore}
    (hi : IdInv mrp defs [] s) (hk : KidsOk defs s) (c p : IdRef) : Kid s c p ↔ Derives defs c p := by
  constructor
  · rintro ⟨i, hi', rfl, hc⟩
    exact ((hk i hi' c).1 hc).2
  · intro h
    have h' := h
    obtain ⟨d, hd, h1, b, hb, hr⟩ := h'
    have hd' : d.ref ∈ refs s := by
      rcases hi.cover d hd with h | h
      · simp at h
      · exact h
    obtain ⟨j, hj, hjr⟩ := List.mem_map.1 hd'
    obtain ⟨e, he, h2, _, _, h3⟩ := hi.src j hj
    have : e = d := ho e he d hd (congrArg Prod.fst (h2.trans hjr)) (congrArg Prod.snd (h2.trans hjr))
    subst this
    obtain ⟨i, hi', hir⟩ := List.mem_map.1 (h3 b hb p hr)
    exact ⟨i, hi', hir, (hk i hi' c).2 ⟨h1 ▸ hd', hir ▸ h⟩⟩

theorem idLoop_invB {mrp : Dict (List Str)} {defs : List IdDef} (hb : BasesOk defs) (f : Nat) :
    ∀ (q : List IdDef) (s : IdStore) (r : Except Err IdStore), IdInv mrp defs q s → idLoop mrp f q s = some r →
      ∃ t, r = .ok t ∧ IdInv mrp defs [] t := by
  induction f with
  | zero =>
    intro q s r hi h
    cases q with
    | nil =>
      simp only [idLoop, Option.some.injEq] at h
      exact ⟨s, h.symm, hi⟩
    | cons d q => simp [idLoop] at h
  | succ f ih =>
    intro q s r hi h
    cases q with
    | nil =>
      simp only [idLoop, Option.some.injEq] at h
      exact ⟨s, h.symm, hi⟩
    | cons d q =>
      obtain ⟨q', s', h1, h2⟩ := idStep_spec mrp d q s (hb d (hi.qsub d (by simp)))
      simp only [idLoop, h1] at h
      exact ih q' s' r (inv_step hi h2) h

/-- What the finished store is. -/
theorem buildStore_spec {fuel : Nat} {mods : List (List (Str × Str))} {defs : List IdDef} (ho : OneEach defs) (hb : BasesOk defs)
    {r : Except Err IdStore} (h : buildStore fuel mods defs = some r) :
    ∃ t, r = .ok t ∧ (refs t).Nodup ∧ (∀ d ∈ defs, d.ref ∈ refs t) ∧
      (∀ i ∈ t, ∃ d ∈ defs, d.ref = i.ref ∧ i.prefixes = (newIdent (importPrefixes mods) d).prefixes ∧ i.ns = d.ns) ∧
      ∀ i ∈ t, ∀ c, c ∈ i.children ↔ DerivedFrom defs c i.ref := by
  simp only [buildStore] at h
  cases hl : idLoop (importPrefixes mods) fuel defs [] with
  | none => rw [hl] at h; simp at h
  | some r' =>
    obtain ⟨s, rfl, hi, hk⟩ := idLoop_inv ho hb fuel defs [] r' (inv_init _ _) (by intro i hi; simp at hi) hl
    rw [hl] at h
    have hord : Ordered s := hi.ord
    simp only [buildInheritance_eq hi.nodup hord, Option.map_some, Option.some.injEq] at h
    refine ⟨s.map (closeId s), h.symm, by rw [refs_close]; exact hi.nodup, ?_, ?_, ?_⟩
    · intro d hd
      rw [refs_close]
      rcases hi.cover d hd with h | h
      · simp at h
      · exact h
    · intro i hi'
      obtain ⟨j, hj, rfl⟩ := List.mem_map.1 hi'
      obtain ⟨d, hd, h1, h2, h3, _⟩ := hi.src j hj
      exact ⟨d, hd, h1, h2, h3⟩
    · intro i hi' c
      obtain ⟨j, hj, rfl⟩ := List.mem_map.1 hi'
      rw [mem_closeId hi.nodup hord hj]
      have : Kid s = Derives defs := by
        funext c p
        exact propext (kid_iff ho hi hk c p)
      rw [this]
      rfl

/-! ## Spellings -/

theorem get?_setIn (D : Dict (Dict IdInfo)) (k j : Str) (v : IdInfo) (x : Str) :
    (setIn D k j v).get? x = if x = k then some (((D.get? k).getD []).set j v) else D.get? x := Dict.get?_set _ _ _ _

def spellIn (ch : Ident) (e : Dict IdInfo) (p : Option Str) : Dict IdInfo :=
  (e.set ch.name (ch.mod, ch.ns)).set (spfx p ++ ch.name) (ch.mod, ch.ns)

/-- Two keys with the same contents, the rest as in `D₀`. -/
def TwoKeys (D₀ D : Dict (Dict IdInfo)) (a b : Str) (e : Dict IdInfo) : Prop :=
  ∀ x, D.get? x = if x = a ∨ x = b then some e else D₀.get? x

theorem spellOne_two {D₀ D : Dict (Dict IdInfo)} {a b : Str} (hab : a ≠ b) {e : Dict IdInfo} (h : TwoKeys D₀ D a b e)
    (ch : Ident) (p : Option Str) : TwoKeys D₀ (spellOne a b ch D p) a b (spellIn ch e p) := by
  intro x
  have hba : b ≠ a := fun e => hab e.symm
  simp only [spellOne, get?_setIn, hab, hba, if_false, if_true, Option.getD_some, h a, h b, h x, true_or, or_true]
  by_cases h1 : x = b
  · simp [h1, spellIn]
  · by_cases h2 : x = a
    · simp [h2, hab, spellIn]
    · simp [h1, h2]

theorem foldl_two {α : Type} {D₀ : Dict (Dict IdInfo)} {a b : Str} (f : Dict (Dict IdInfo) → α → Dict (Dict IdInfo))
    (g : Dict IdInfo → α → Dict IdInfo) (hfg : ∀ D e y, TwoKeys D₀ D a b e → TwoKeys D₀ (f D y) a b (g e y)) (l : List α) :
    ∀ D e, TwoKeys D₀ D a b e → TwoKeys D₀ (l.foldl f D) a b (l.foldl g e) := by
  induction l with
  | nil => intro D e h; exact h
  | cons y l ih => intro D e h; exact ih _ _ (hfg D e y h)

/-- The spellings of one derived identity. -/
def spellsOf (e : Dict IdInfo) (ch : Ident) : Dict IdInfo := (ch.prefixes.map some ++ [none]).foldl (spellIn ch) e

/-- The entry for an identity. -/
def spells (s : IdStore) (i : Ident) : Dict IdInfo := (i.children.filterMap (findId s)).foldl spellsOf []

theorem qual_ne (p n : Str) : qual p n ≠ n := by
  intro h
  have := congrArg List.length h
  simp [qual] at this
  omega

theorem spellPrefix_two (s : IdStore) (i : Ident) (D : Dict (Dict IdInfo)) (p : Str) :
    TwoKeys D (spellPrefix s i D p) (qual p i.name) i.name (spells s i) := by
  simp only [spellPrefix, spells]
  refine foldl_two _ _ ?_ _ _ _ ?_
  · intro D' e ch h
    exact foldl_two _ _ (fun D'' e' p' h' => spellOne_two (qual_ne _ _) h' ch p') _ _ _ h
  · intro x
    simp only [Dict.get?_set]
    by_cases h1 : x = i.name
    · simp [h1]
    · by_cases h2 : x = qual p i.name <;> simp [h1, h2]

/-- The keys an identity writes. -/
def KeyOf (i : Ident) (x : Str) : Prop := x = i.name ∨ ∃ p ∈ i.prefixes, x = qual p i.name

theorem foldl_spellPrefix (s : IdStore) (i : Ident) (ps : List Str) (D : Dict (Dict IdInfo)) :
    (∀ x, (ps ≠ [] ∧ x = i.name) ∨ (∃ p ∈ ps, x = qual p i.name) → (ps.foldl (spellPrefix s i) D).get? x = some (spells s i)) ∧
    (∀ x, x ≠ i.name → (∀ p ∈ ps, x ≠ qual p i.name) → (ps.foldl (spellPrefix s i) D).get? x = D.get? x) := by
  induction ps generalizing D with
  | nil => exact ⟨by simp, by simp⟩
  | cons p ps ih =>
    obtain ⟨h1, h2⟩ := ih (spellPrefix s i D p)
    have h := spellPrefix_two s i D p
    constructor
    · intro x hx
      rw [List.foldl_cons]
      by_cases h3 : (ps ≠ [] ∧ x = i.name) ∨ ∃ p ∈ ps, x = qual p i.name
      · exact h1 x h3
      · have h4 : x = qual p i.name ∨ x = i.name := by
          rcases hx with ⟨_, hx⟩ | ⟨q, hq, hx⟩
          · exact .inr hx
          · rcases List.mem_cons.1 hq with rfl | hq
            · exact .inl hx
            · exact absurd (.inr ⟨q, hq, hx⟩) h3
        have hxs : (spellPrefix s i D p).get? x = some (spells s i) := by rw [h x, if_pos h4]
        rcases h4 with h4 | h4
        · rw [h2 x (by rw [h4]; exact qual_ne _ _) (fun q hq e => h3 (.inr ⟨q, hq, e⟩)), hxs]
        · have : ps = [] := Classical.byContradiction fun hne => h3 (.inl ⟨hne, h4⟩)
          subst this
          exact hxs
    · intro x hx hp
      rw [List.foldl_cons, h2 x hx fun q hq => hp q (List.mem_cons_of_mem _ hq), h x,
        if_neg fun h => h.elim (hp p (by simp)) hx]

theorem spellIdent_get (s : IdStore) (i : Ident) (hp : i.prefixes ≠ []) (D : Dict (Dict IdInfo)) (x : Str) :
    (KeyOf i x → (spellIdent s D i).get? x = some (spells s i)) ∧ (¬ KeyOf i x → (spellIdent s D i).get? x = D.get? x) := by
  obtain ⟨h1, h2⟩ := foldl_spellPrefix s i i.prefixes D
  have hh : (i.prefixes.foldl (spellPrefix s i) D).has i.name = true := by
    simp [Dict.has, h1 i.name (.inl ⟨hp, rfl⟩)]
  simp only [spellIdent, hh, if_true]
  refine ⟨fun h => h1 x ?_, fun h => h2 x (fun e => h (.inl e)) fun p hp e => h (.inr ⟨p, hp, e⟩)⟩
  rcases h with h | h
  · exact .inl ⟨hp, h⟩
  · exact .inr h

theorem identityDict_get (s : IdStore) (hp : ∀ i ∈ s, i.prefixes ≠ []) (i : Ident) (hi : i ∈ s) (x : Str) (hx : KeyOf i x)
    (hu : ∀ j ∈ s, j ≠ i → ¬ KeyOf j x) : (identityDict s).get? x = some (spells s i) := by
  have key : ∀ (l : List Ident) (D : Dict (Dict IdInfo)), (∀ j ∈ l, j ∈ s) → (i ∈ l ∨ D.get? x = some (spells s i)) →
      (l.foldl (spellIdent s) D).get? x = some (spells s i) := by
    intro l
    induction l with
    | nil =>
      intro D _ h
      rcases h with h | h
      · simp at h
      · exact h
    | cons j l ih =>
      intro D hl h
      rw [List.foldl_cons]
      refine ih _ (fun k hk => hl k (List.mem_cons_of_mem _ hk)) ?_
      have hj : j ∈ s := hl j (by simp)
      by_cases e : j = i
      · subst e
        exact .inr ((spellIdent_get s j (hp j hj) D x).1 hx)
      · rcases h with h | h
        · rcases List.mem_cons.1 h with h | h
          · exact absurd h.symm e
          · exact .inl h
        · exact .inr (by rw [(spellIdent_get s j (hp j hj) D x).2 (hu j hj e), h])
  exact key s [] (fun _ h => h) (.inl hi)

theorem spellsOf_has (e : Dict IdInfo) (ch : Ident) (x : Str) :
    (spellsOf e ch).has x = true ↔ e.has x = true ∨ x = ch.name ∨ ∃ p ∈ ch.prefixes, x = qual p ch.name := by
  have key : ∀ (l : List (Option Str)) (e : Dict IdInfo), ((l ++ [none]).foldl (spellIn ch) e).has x = true ↔
      e.has x = true ∨ x = ch.name ∨ ∃ p ∈ l, x = spfx p ++ ch.name := by
    intro l
    induction l with
    | nil =>
      intro e
      simp [spellIn, Dict.has_set, spfx]
      constructor
      · rintro (h | h) <;> simp [h]
      · rintro (h | h) <;> simp [h]
    | cons p l ih =>
      intro e
      rw [List.cons_append, List.foldl_cons, ih]
      simp only [spellIn, Dict.has_set, Bool.or_eq_true, decide_eq_true_eq, List.mem_cons]
      constructor
      · rintro ((h | h | h) | h | ⟨q, hq, h⟩)
        · exact .inr (.inr ⟨p, .inl rfl, h⟩)
        · exact .inr (.inl h)
        · exact .inl h
        · exact .inr (.inl h)
        · exact .inr (.inr ⟨q, .inr hq, h⟩)
      · rintro (h | h | ⟨q, rfl | hq, h⟩)
        · exact .inl (.inr (.inr h))
        · exact .inr (.inl h)
        · exact .inl (.inl h)
        · exact .inr (.inr ⟨q, hq, h⟩)
  have hq : ∀ p, spfx (some p) ++ ch.name = qual p ch.name := by intro p; simp [spfx, qual]
  rw [spellsOf, key]
  refine or_congr Iff.rfl (or_congr Iff.rfl ?_)
  constructor
  · rintro ⟨p, hp, h⟩
    obtain ⟨a, ha, rfl⟩ := List.mem_map.1 hp
    exact ⟨a, ha, by rw [h, hq]⟩
  · rintro ⟨p, hp, h⟩
    exact ⟨some p, List.mem_map_of_mem hp, by rw [h, hq]⟩

theorem spells_has (s : IdStore) (i : Ident) (x : Str) :
    (spells s i).has x = true ↔ ∃ c ∈ i.children, ∃ ch, findId s c = some ch ∧ KeyOf ch x := by
  have key : ∀ (l : List Ident) (e : Dict IdInfo), (l.foldl spellsOf e).has x = true ↔ e.has x = true ∨ ∃ ch ∈ l, KeyOf ch x := by
    intro l
    induction l with
    | nil => intro e; simp
    | cons ch l ih =>
      intro e
      rw [List.foldl_cons, ih, spellsOf_has]
      simp [KeyOf, or_assoc]
  rw [spells, key]
  simp [Dict.has, List.mem_filterMap]
  constructor
  · rintro ⟨ch, ⟨a, b, h1, h2⟩, h3⟩
    exact ⟨a, b, h1, ch, h2, h3⟩
  · rintro ⟨a, b, h1, ch, h2, h3⟩
    exact ⟨ch, ⟨a, b, h1, h2⟩, h3⟩

theorem addClasses_get {α : Type} (cm : Dict (ClassEntry α)) (D : Dict (Dict IdInfo)) (hn : (D.map (·.1)).Nodup) (x : Str) :
    (addClasses cm D).get? x = match D.get? x with
      | some e => some (.ident e)
      | none => cm.get? x := by
  simp only [addClasses]
  induction D generalizing cm with
  | nil => rfl
  | cons q D ih =>
    simp only [List.map_cons, List.nodup_cons] at hn
    rw [List.foldl_cons, ih _ hn.2, Dict.get?_cons, Dict.get?_set]
    by_cases h : q.1 = x
    · have : Dict.get? D x = none := by
        cases hg : Dict.get? D x with
        | none => rfl
        | some v => exact absurd (List.mem_map_of_mem (f := (·.1)) (Dict.mem_of_get? hg)) (h ▸ hn.1)
      rw [this]
      simp [h]
    · have : x ≠ q.1 := fun e => h e.symm
      simp [h, this]

end Pyb
