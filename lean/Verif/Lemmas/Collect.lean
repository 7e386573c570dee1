import Verif.Spec.Collect

namespace Pyb
open Py Spec

/-! ## What is met in a module -/

theorem mem_meetEach {d : StmKw} {subs : List Stm} {k : StmKw} {l : List Stm} (h : (k, l) ∈ meetEach d subs) :
    ∃ x ∈ subs, x.kw = k ∧ l = if x.kids then meet d x.subs else [] := by
  induction subs with
  | nil => simp [meetEach] at h
  | cons x rest ih =>
    obtain ⟨k', a, c, ss⟩ := x
    rw [meetEach, meetIn] at h
    rcases List.mem_cons.1 h with h | h
    · refine ⟨_, List.mem_cons_self, ?_, ?_⟩
      · exact (congrArg Prod.fst h).symm
      · exact congrArg Prod.snd h
    · obtain ⟨x, hx, h1, h2⟩ := ih h
      exact ⟨x, List.mem_cons_of_mem _ hx, h1, h2⟩

theorem meetEach_mem {d : StmKw} {subs : List Stm} {x : Stm} (hx : x ∈ subs) :
    (x.kw, if x.kids then meet d x.subs else []) ∈ meetEach d subs := by
  induction subs with
  | nil => simp at hx
  | cons y rest ih =>
    obtain ⟨k', a, c, ss⟩ := y
    rw [meetEach, meetIn]
    rcases List.mem_cons.1 hx with h | h
    · subst h
      exact List.mem_cons_self
    · exact List.mem_cons_of_mem _ (ih h)

theorem mem_meet {d : StmKw} {subs : List Stm} {s : Stm} :
    s ∈ meet d subs ↔ (s ∈ subs ∧ s.kw = d) ∨ ∃ x ∈ subs, x.kw ∈ possibleParents ∧ x.kids = true ∧ s ∈ meet d x.subs := by
  rw [meet, meetOrder, List.mem_append, List.mem_filter]
  constructor
  · rintro (⟨h1, h2⟩ | h)
    · exact Or.inl ⟨h1, by simpa using h2⟩
    · obtain ⟨k, hk, h⟩ := List.mem_flatMap.1 h
      obtain ⟨⟨k', l⟩, hp, hs⟩ := List.mem_flatMap.1 h
      obtain ⟨hp, hk'⟩ := List.mem_filter.1 hp
      have hk' : k' = k := by simpa using hk'
      obtain ⟨x, hx, h1, h2⟩ := mem_meetEach hp
      subst hk'
      subst h1
      refine Or.inr ⟨x, hx, hk, ?_⟩
      simp only [h2] at hs
      by_cases hc : x.kids = true
      · rw [if_pos hc] at hs
        exact ⟨hc, hs⟩
      · rw [if_neg hc] at hs
        simp at hs
  · rintro (⟨h1, h2⟩ | ⟨x, hx, hk, hc, hs⟩)
    · exact Or.inl ⟨h1, by simpa using h2⟩
    · refine Or.inr (List.mem_flatMap.2 ⟨x.kw, hk, List.mem_flatMap.2 ⟨_, List.mem_filter.2 ⟨meetEach_mem hx, by simp⟩, ?_⟩⟩)
      simp only [if_pos hc]
      exact hs

theorem parents_iff (k : StmKw) : k ∈ possibleParents ↔ ScopeKw k ∧ k ≠ .action_ := by
  cases k <;> simp [possibleParents, ScopeKw]

theorem meet_of_declares {d : StmKw} {subs : List Stm} {s : Stm} (h : DeclaresNA d subs s) : s ∈ meet d subs := by
  induction h with
  | here subs s hs hk => exact mem_meet.2 (Or.inl ⟨hs, hk⟩)
  | inside subs x s hx hk hn hc _ ih => exact mem_meet.2 (Or.inr ⟨x, hx, (parents_iff _).2 ⟨hk, hn⟩, hc, ih⟩)

theorem declares_of_meet {d : StmKw} : ∀ {subs : List Stm} {s : Stm}, s ∈ meet d subs → DeclaresNA d subs s := by
  have key : ∀ n : Nat, ∀ (subs : List Stm) (s : Stm), sizeOf subs ≤ n → s ∈ meet d subs → DeclaresNA d subs s := by
    intro n
    induction n with
    | zero =>
      intro subs s hn
      cases subs <;> simp at hn
    | succ n ih =>
      intro subs s hn h
      rcases mem_meet.1 h with ⟨h1, h2⟩ | ⟨x, hx, hk, hc, hs⟩
      · exact .here _ _ h1 h2
      · obtain ⟨h1, h2⟩ := (parents_iff _).1 hk
        refine .inside _ x _ hx h1 h2 hc (ih _ _ ?_ hs)
        have := List.sizeOf_lt_of_mem hx
        obtain ⟨k, a, c, ss⟩ := x
        simp only [Stm.subs, Stm.mk.sizeOf_spec] at *
        omega
  intro subs s
  exact key _ subs s (Nat.le_refl _)

theorem _root_.Spec.DeclaresNA.declares {d : StmKw} {subs : List Stm} {s : Stm} (h : DeclaresNA d subs s) : Declares d subs s := by
  induction h with
  | here subs s hs hk => exact .here _ _ hs hk
  | inside subs x s hx hk _ hc _ ih => exact .inside _ x _ hx hk hc ih

/-! ## The dictionary of one module -/

theorem defKey_inj {p p' a a' : Str} (hp : ':' ∉ p) (hp' : ':' ∉ p') (h : defKey p a = defKey p' a') : p = p' ∧ a = a' := by
  induction p generalizing p' with
  | nil =>
    cases p' with
    | nil => exact ⟨rfl, by simpa [defKey] using h⟩
    | cons c cs =>
      simp only [defKey, List.nil_append, List.cons_append, List.cons.injEq] at h
      exact absurd (h.1 ▸ List.mem_cons_self) hp'
  | cons c cs ih =>
    cases p' with
    | nil =>
      simp only [defKey, List.nil_append, List.cons_append, List.cons.injEq] at h
      exact absurd (h.1 ▸ List.mem_cons_self) hp
    | cons c' cs' =>
      simp only [defKey, List.cons_append, List.cons.injEq] at h
      have := ih (p' := cs') (fun hm => hp (List.mem_cons_of_mem _ hm)) (fun hm => hp' (List.mem_cons_of_mem _ hm)) h.2
      exact ⟨by rw [h.1, this.1], this.2⟩

theorem colon_mem_defKey (p a : Str) : ':' ∈ defKey p a := by simp [defKey]

/-- Every key has a colon. -/
def ColonKeys (ds : Dict Stm) : Prop := ∀ k v, ds.get? k = some v → ':' ∈ k

theorem noteDef_eq {p : Str} {ds : Dict Stm} {s : Stm} (hc : ColonKeys ds) (hs : ':' ∉ s.arg) :
    noteDef p ds s = ds.set (defKey p s.arg) s := by
  rw [noteDef, if_neg]
  intro h
  rw [Dict.has, Option.isSome_iff_exists] at h
  obtain ⟨v, hv⟩ := h
  exact hs (hc _ _ hv)

theorem ColonKeys.set {p : Str} {ds : Dict Stm} {s : Stm} (hc : ColonKeys ds) : ColonKeys (ds.set (defKey p s.arg) s) := by
  intro k v h
  rw [Dict.get?_set] at h
  by_cases hk : k = defKey p s.arg
  · rw [hk]
    exact colon_mem_defKey _ _
  · rw [if_neg hk] at h
    exact hc _ _ h

theorem foldNote_keep {p : Str} : ∀ (l : List Stm) (ds : Dict Stm), ColonKeys ds → (∀ s ∈ l, ':' ∉ s.arg) →
    ∀ k v, (l.foldl (noteDef p) ds).get? k = some v → ds.get? k = some v ∨ (v ∈ l ∧ k = defKey p v.arg) := by
  intro l
  induction l with
  | nil =>
    intro ds _ _ k v h
    exact Or.inl h
  | cons s l ih =>
    intro ds hc hs k v h
    rw [List.foldl_cons, noteDef_eq hc (hs s List.mem_cons_self)] at h
    rcases ih _ hc.set (fun t ht => hs t (List.mem_cons_of_mem _ ht)) k v h with h | h
    · rw [Dict.get?_set] at h
      by_cases hk : k = defKey p s.arg
      · rw [if_pos hk] at h
        cases h
        exact Or.inr ⟨List.mem_cons_self, hk⟩
      · rw [if_neg hk] at h
        exact Or.inl h
    · exact Or.inr ⟨List.mem_cons_of_mem _ h.1, h.2⟩

theorem foldNote_has {p : Str} : ∀ (l : List Stm) (ds : Dict Stm), ColonKeys ds → (∀ s ∈ l, ':' ∉ s.arg) →
    ∀ k, ((∃ v, ds.get? k = some v) ∨ ∃ s ∈ l, k = defKey p s.arg) → ∃ v, (l.foldl (noteDef p) ds).get? k = some v := by
  intro l
  induction l with
  | nil =>
    intro ds _ _ k h
    rcases h with h | ⟨s, hs, _⟩
    · exact h
    · simp at hs
  | cons s l ih =>
    intro ds hc hs k h
    rw [List.foldl_cons, noteDef_eq hc (hs s List.mem_cons_self)]
    refine ih _ hc.set (fun t ht => hs t (List.mem_cons_of_mem _ ht)) k ?_
    by_cases hk : k = defKey p s.arg
    · exact Or.inl ⟨s, by rw [Dict.get?_set, if_pos hk]⟩
    · rcases h with ⟨v, hv⟩ | ⟨t, ht, hkt⟩
      · exact Or.inl ⟨v, by rw [Dict.get?_set, if_neg hk]; exact hv⟩
      · rcases List.mem_cons.1 ht with ht | ht
        · exact absurd (ht ▸ hkt) hk
        · exact Or.inr ⟨t, ht, hkt⟩

theorem findDefs_sound {d : StmKw} {p : Str} {body : List Stm} (hs : ∀ s ∈ meet d body, ':' ∉ s.arg) {k : Str} {v : Stm}
    (h : (findDefinitions d p body).get? k = some v) : DeclaresNA d body v ∧ k = defKey p v.arg := by
  rcases foldNote_keep (meet d body) [] (fun k v h => by simp at h) hs k v h with h | h
  · simp at h
  · exact ⟨declares_of_meet h.1, h.2⟩

theorem findDefs_has {d : StmKw} {p : Str} {body : List Stm} (hs : ∀ s ∈ meet d body, ':' ∉ s.arg) {s : Stm}
    (h : DeclaresNA d body s) : ∃ v, (findDefinitions d p body).get? (defKey p s.arg) = some v :=
  foldNote_has (meet d body) [] (fun k v h => by simp at h) hs _ (Or.inr ⟨s, meet_of_declares h, rfl⟩)

theorem findDefs_nodup (d : StmKw) (p : Str) (body : List Stm) : ((findDefinitions d p body).map (·.1)).Nodup := by
  have : ∀ (l : List Stm) (ds : Dict Stm), (ds.map (·.1)).Nodup → ((l.foldl (noteDef p) ds).map (·.1)).Nodup := by
    intro l
    induction l with
    | nil => intro ds h; exact h
    | cons s l ih =>
      intro ds h
      rw [List.foldl_cons]
      refine ih _ ?_
      rw [noteDef]
      split
      · exact h
      · exact Dict.nodup_set h _ _
  exact this _ _ (by simp)

/-! ## Merging -/

theorem addNew_get (t ds : Dict Stm) (k : Str) :
    (addNew ds t).get? k = match ds.get? k with
      | some v => some v
      | none => t.get? k := by
  induction t generalizing ds with
  | nil =>
    rw [addNew, List.foldl_nil]
    cases ds.get? k <;> rfl
  | cons kv t ih =>
    rw [addNew, List.foldl_cons]
    have := ih (if Dict.has ds kv.1 then ds else Dict.set ds kv.1 kv.2)
    rw [addNew] at this
    rw [this]
    by_cases hh : Dict.has ds kv.1 = true
    · rw [if_pos hh]
      cases hk : ds.get? k with
      | some v => rfl
      | none =>
        simp only
        rw [Dict.get?_cons, if_neg]
        intro e
        rw [Dict.has, e, hk] at hh
        simp at hh
    · rw [if_neg hh, Dict.get?_set]
      by_cases hk : k = kv.1
      · rw [if_pos hk, hk]
        have : ds.get? kv.1 = none := by
          rw [Dict.has] at hh
          simpa using hh
        rw [this, Dict.get?_cons, if_pos rfl]
      · rw [if_neg hk]
        cases ds.get? k with
        | some v => rfl
        | none =>
          simp only
          rw [Dict.get?_cons, if_neg (fun e => hk e.symm)]

/-- The step over the modules. -/
def defsStep (r : Repo) (d : StmKw) (acc : Dict Stm) (pm : Str × Str) : Dict Stm :=
  match r pm.2 with
  | none => acc
  | some m => addNew acc (findDefinitions d pm.1 m.body)

theorem defsFrom_eq (r : Repo) (d : StmKw) (l : List (Str × Str)) : defsFrom r d l = l.foldl (defsStep r d) [] := rfl

theorem defsFold_sound {r : Repo} {d : StmKw} : ∀ (l : List (Str × Str)) (acc : Dict Stm) (k : Str) (v : Stm),
    (l.foldl (defsStep r d) acc).get? k = some v →
      acc.get? k = some v ∨ ∃ p x m, (p, x) ∈ l ∧ r x = some m ∧ (findDefinitions d p m.body).get? k = some v := by
  intro l
  induction l with
  | nil => intro acc k v h; exact Or.inl h
  | cons pm l ih =>
    intro acc k v h
    rw [List.foldl_cons] at h
    rcases ih _ k v h with h | ⟨p, x, m, h1, h2, h3⟩
    · obtain ⟨p, x⟩ := pm
      rw [defsStep] at h
      cases hr : r x with
      | none =>
        simp only [hr] at h
        exact Or.inl h
      | some m =>
        simp only [hr] at h
        rw [addNew_get] at h
        cases hk : acc.get? k with
        | some w =>
          rw [hk] at h
          exact Or.inl h
        | none =>
          rw [hk] at h
          exact Or.inr ⟨p, x, m, List.mem_cons_self, hr, h⟩
    · exact Or.inr ⟨p, x, m, List.mem_cons_of_mem _ h1, h2, h3⟩

theorem defsFold_has {r : Repo} {d : StmKw} : ∀ (l : List (Str × Str)) (acc : Dict Stm) (k : Str),
    ((∃ v, acc.get? k = some v) ∨ ∃ p x m, (p, x) ∈ l ∧ r x = some m ∧ ∃ v, (findDefinitions d p m.body).get? k = some v) →
      ∃ v, (l.foldl (defsStep r d) acc).get? k = some v := by
  intro l
  induction l with
  | nil =>
    intro acc k h
    rcases h with h | ⟨p, x, m, h, _⟩
    · exact h
    · simp at h
  | cons pm l ih =>
    intro acc k h
    rw [List.foldl_cons]
    refine ih _ k ?_
    obtain ⟨p, x⟩ := pm
    rcases h with ⟨v, hv⟩ | ⟨p', x', m', hm, hr, v, hv⟩
    · left
      rw [defsStep]
      cases hr : r x with
      | none => exact ⟨v, hv⟩
      | some m =>
        refine ⟨v, ?_⟩
        simp only
        rw [addNew_get, hv]
    · rcases List.mem_cons.1 hm with hm | hm
      · left
        cases hm
        rw [defsStep]
        simp only [hr]
        rw [addNew_get]
        cases hk : acc.get? k with
        | some w => exact ⟨w, rfl⟩
        | none => exact ⟨v, hv⟩
      · exact Or.inr ⟨p', x', m', hm, hr, v, hv⟩

theorem mem_dropSame (l : List (Str × Str)) (x : Str × Str) : x ∈ dropSame l ↔ x ∈ l := by
  have : ∀ (l acc : List (Str × Str)), x ∈ l.foldl (fun acc x => if x ∈ acc then acc else acc ++ [x]) acc ↔ x ∈ acc ∨ x ∈ l := by
    intro l
    induction l with
    | nil => intro acc; simp
    | cons y l ih =>
      intro acc
      rw [List.foldl_cons, ih]
      by_cases hy : y ∈ acc
      · rw [if_pos hy, List.mem_cons]
        constructor
        · rintro (h | h)
          · exact Or.inl h
          · exact Or.inr (Or.inr h)
        · rintro (h | h | h)
          · exact Or.inl h
          · exact Or.inl (h ▸ hy)
          · exact Or.inr h
      · rw [if_neg hy, List.mem_append, List.mem_singleton, List.mem_cons]
        constructor
        · rintro ((h | h) | h)
          · exact Or.inl h
          · exact Or.inr (Or.inl h)
          · exact Or.inr (Or.inr h)
        · rintro (h | h | h)
          · exact Or.inl (Or.inl h)
          · exact Or.inl (Or.inr h)
          · exact Or.inr h
  rw [dropSame, this]
  simp

/-! ## The loop over the modules -/

theorem localPrefix_iff (m : Mod) (p : Str) : m.localPrefix = .ok p ↔ OwnPrefix m p := by
  rw [Mod.localPrefix, OwnPrefix]
  cases m.prefix_ with
  | some q => simp
  | none => cases m.belongs <;> simp

/-- What a visit of `n` adds. -/
def outs (r : Repo) (n : Str) : List (Str × Str) :=
  match r n with
  | none => []
  | some m =>
    match m.localPrefix with
    | .error _ => []
    | .ok p => modsOf r n m p

/-- What a visit of `n` appends. -/
def nexts (r : Repo) (n : Str) : List Str :=
  match r n with
  | none => []
  | some m => nextMods r m

theorem mem_foundSubs {r : Repo} {m : Mod} {s : Str × Mod} : s ∈ foundSubs r m ↔ s.1 ∈ m.includes ∧ r s.1 = some s.2 := by
  rw [foundSubs, List.mem_filterMap]
  constructor
  · rintro ⟨a, h1, h2⟩
    cases hr : r a with
    | none => rw [hr] at h2; simp at h2
    | some x =>
      rw [hr] at h2
      simp only [Option.map_some, Option.some.injEq] at h2
      subst h2
      exact ⟨h1, hr⟩
  · rintro ⟨h1, h2⟩
    exact ⟨s.1, h1, by rw [h2]; rfl⟩

theorem mem_importedMods {r : Repo} {n : Str} {m : Mod} (hn : r n = some m) {p x : Str} :
    (p, x) ∈ (importedMods r m).filter (fun j => (r j.2).isSome) ↔ ∃ s, PartOf r n s ∧ Imports r s p x := by
  rw [List.mem_filter, importedMods, List.mem_append, List.mem_flatMap]
  constructor
  · rintro ⟨h | ⟨s, hs, h⟩, hx⟩
    · exact ⟨n, Or.inl rfl, m, hn, h, hx⟩
    · obtain ⟨h1, h2⟩ := mem_foundSubs.1 hs
      exact ⟨s.1, Or.inr ⟨m, hn, h1, by rw [h2]; rfl⟩, s.2, h2, h, hx⟩
  · rintro ⟨s, hs, ms, h1, h2, h3⟩
    refine ⟨?_, h3⟩
    rcases hs with hs | ⟨m', h4, h5, h6⟩
    · subst hs
      rw [hn] at h1
      cases h1
      exact Or.inl h2
    · rw [hn] at h4
      cases h4
      exact Or.inr ⟨(s, ms), mem_foundSubs.2 ⟨h5, h1⟩, h2⟩

theorem mem_nexts {r : Repo} {n x : Str} : x ∈ nexts r n ↔ ∃ s p, PartOf r n s ∧ Imports r s p x := by
  rw [nexts]
  cases hn : r n with
  | none =>
    simp only [List.not_mem_nil, false_iff]
    rintro ⟨s, p, hs | ⟨m', h4, _⟩, ms, h1, _⟩
    · subst hs
      rw [hn] at h1
      simp at h1
    · rw [hn] at h4
      simp at h4
  | some m =>
    simp only [nextMods, List.mem_map]
    constructor
    · rintro ⟨⟨p, x'⟩, h, rfl⟩
      obtain ⟨s, h⟩ := (mem_importedMods hn).1 h
      exact ⟨s, p, h⟩
    · rintro ⟨s, p, h⟩
      exact ⟨(p, x), (mem_importedMods hn).2 ⟨s, h⟩, rfl⟩

theorem mem_outs {r : Repo} {n : Str} {m : Mod} (hn : r n = some m) {q : Str} (hq : m.localPrefix = .ok q) {p x : Str} :
    (p, x) ∈ outs r n ↔ Sees r n p x := by
  rw [outs]
  simp only [hn, hq]
  rw [modsOf, List.mem_append, mem_importedMods hn, List.mem_cons, List.mem_map, Sees]
  constructor
  · rintro ((h | ⟨s, hs, h⟩) | h)
    · cases h
      exact Or.inl ⟨m, hn, (localPrefix_iff _ _).1 hq, Or.inl rfl⟩
    · obtain ⟨h1, h2⟩ := mem_foundSubs.1 hs
      cases h
      exact Or.inl ⟨m, hn, (localPrefix_iff _ _).1 hq, Or.inr ⟨m, hn, h1, by rw [h2]; rfl⟩⟩
    · exact Or.inr h
  · rintro (⟨m', h1, h2, h3⟩ | h)
    · rw [hn] at h1
      cases h1
      rw [← localPrefix_iff, hq] at h2
      cases h2
      rcases h3 with h3 | ⟨m', h4, h5, h6⟩
      · exact Or.inl (Or.inl (by rw [h3]))
      · rw [hn] at h4
        cases h4
        obtain ⟨ms, hms⟩ := Option.isSome_iff_exists.1 h6
        exact Or.inl (Or.inr ⟨(x, ms), mem_foundSubs.2 ⟨h5, hms⟩, rfl⟩)
    · exact Or.inr h

/-- A module is good: it is found and has a prefix. -/
def GoodMod (r : Repo) (n : Str) : Prop := ∃ m p, r n = some m ∧ m.localPrefix = .ok p

theorem gatherLoop_run {r : Repo} : ∀ (q rest : List Str) (acc : List (Str × Str)) (f : Nat), (∀ n ∈ q, GoodMod r n) →
    gatherLoop r (q.length + f) (q ++ rest) acc = gatherLoop r f (rest ++ q.flatMap (nexts r)) (acc ++ q.flatMap (outs r)) := by
  intro q
  induction q with
  | nil => intro rest acc f _; simp
  | cons n q ih =>
    intro rest acc f hg
    obtain ⟨m, p, hm, hp⟩ := hg n List.mem_cons_self
    rw [List.length_cons, show q.length + 1 + f = (q.length + f) + 1 by omega, List.cons_append, gatherLoop]
    simp only [hm, hp]
    rw [List.append_assoc, ih _ _ f (fun x hx => hg x (List.mem_cons_of_mem _ hx))]
    rw [List.flatMap_cons, List.flatMap_cons]
    have h1 : nexts r n = nextMods r m := by rw [nexts, hm]
    have h2 : outs r n = modsOf r n m p := by
      rw [outs]
      simp only [hm, hp]
    rw [h1, h2, List.append_assoc, List.append_assoc]

theorem gatherLoop_done {r : Repo} (hg : ∀ n m, r n = some m → ∃ p, m.localPrefix = .ok p)
    {rank : Str → Nat} (hr : ∀ n s p x, PartOf r n s → Imports r s p x → rank x < rank n) :
    ∀ (b : Nat) (q : List Str) (acc : List (Str × Str)), (∀ n ∈ q, rank n < b) → (∀ n ∈ q, (r n).isSome = true) →
      ∃ f l, gatherLoop r f q acc = some (.ok (acc ++ l)) ∧ ∀ y, y ∈ l ↔ ∃ n, Needed r q n ∧ y ∈ outs r n := by
  intro b
  induction b with
  | zero =>
    intro q acc hq _
    cases q with
    | nil =>
      refine ⟨0, [], by simp [gatherLoop], ?_⟩
      intro y
      simp only [List.not_mem_nil, false_iff]
      rintro ⟨n, hn, _⟩
      have : ∀ n, ¬ Needed r [] n := by
        intro n hn
        induction hn with
        | root n h => simp at h
        | imported _ _ _ _ _ _ _ ih => exact ih
      exact this n hn
    | cons n q => exact absurd (hq n List.mem_cons_self) (by omega)
  | succ b ih =>
    intro q acc hq hf
    have hgood : ∀ n ∈ q, GoodMod r n := by
      intro n hn
      obtain ⟨m, hm⟩ := Option.isSome_iff_exists.1 (hf n hn)
      obtain ⟨p, hp⟩ := hg n m hm
      exact ⟨m, p, hm, hp⟩
    obtain ⟨f, l, hrun, hl⟩ := ih (q.flatMap (nexts r)) (acc ++ q.flatMap (outs r))
      (by
        intro x hx
        obtain ⟨n, hn, hx⟩ := List.mem_flatMap.1 hx
        obtain ⟨s, p, h1, h2⟩ := mem_nexts.1 hx
        have := hr n s p x h1 h2
        have := hq n hn
        omega)
      (by
        intro x hx
        obtain ⟨n, hn, hx⟩ := List.mem_flatMap.1 hx
        obtain ⟨s, p, _, _, _, _, h⟩ := mem_nexts.1 hx
        exact h)
    refine ⟨q.length + f, q.flatMap (outs r) ++ l, ?_, ?_⟩
    · have := gatherLoop_run q [] acc f hgood
      rw [List.append_nil, List.nil_append] at this
      rw [this, hrun, List.append_assoc]
    · intro y
      rw [List.mem_append, hl]
      constructor
      · rintro (h | ⟨n, hn, hy⟩)
        · obtain ⟨n, hn, hy⟩ := List.mem_flatMap.1 h
          exact ⟨n, .root _ hn, hy⟩
        · refine ⟨n, ?_, hy⟩
          induction hn with
          | root n h =>
            obtain ⟨k, hk, h⟩ := List.mem_flatMap.1 h
            obtain ⟨s, p, h1, h2⟩ := mem_nexts.1 h
            exact .imported k s p n (.root _ hk) h1 h2
          | imported n s p x _ h1 h2 ih' =>
            exact .imported n s p x (needed_next ‹_›) h1 h2
      · rintro ⟨n, hn, hy⟩
        rcases needed_cases hn with h | h
        · exact Or.inl (List.mem_flatMap.2 ⟨n, h, hy⟩)
        · exact Or.inr ⟨n, h, hy⟩
where
  needed_next {r : Repo} {q : List Str} {n : Str} (h : Needed r (q.flatMap (nexts r)) n) : Needed r q n := by
    induction h with
    | root n h =>
      obtain ⟨k, hk, h⟩ := List.mem_flatMap.1 h
      obtain ⟨s, p, h1, h2⟩ := mem_nexts.1 h
      exact .imported k s p n (.root _ hk) h1 h2
    | imported n s p x _ h1 h2 ih => exact .imported n s p x ih h1 h2
  needed_cases {r : Repo} {q : List Str} {n : Str} (h : Needed r q n) : n ∈ q ∨ Needed r (q.flatMap (nexts r)) n := by
    induction h with
    | root n h => exact Or.inl h
    | imported n s p x _ h1 h2 ih =>
      right
      rcases ih with ih | ih
      · exact .root _ (List.mem_flatMap.2 ⟨n, ih, mem_nexts.2 ⟨s, p, h1, h2⟩⟩)
      · exact .imported n s p x ih h1 h2

theorem gatherLoop_mono {r : Repo} : ∀ (f : Nat) (q : List Str) (acc : List (Str × Str)) (x : Except Err (List (Str × Str))),
    gatherLoop r f q acc = some x → ∀ g, gatherLoop r (f + g) q acc = some x := by
  intro f
  induction f with
  | zero =>
    intro q acc x h g
    cases q with
    | nil => rw [gatherLoop] at h ⊢; exact h
    | cons n q => rw [gatherLoop] at h; simp at h
  | succ f ih =>
    intro q acc x h g
    cases q with
    | nil => rw [gatherLoop] at h ⊢; exact h
    | cons n q =>
      rw [show f + 1 + g = (f + g) + 1 by omega]
      rw [gatherLoop] at h ⊢
      cases hn : r n with
      | none => rw [hn] at h; exact h
      | some m =>
        simp only [hn] at h ⊢
        cases hp : m.localPrefix with
        | error e => rw [hp] at h; exact h
        | ok p =>
          simp only [hp] at h ⊢
          exact ih _ _ _ h g

end Pyb
