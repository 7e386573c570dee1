import Verif.Spec.Identity
import Verif.Lemmas.Str

namespace Pyb
open Py Spec

/-! ## Bases -/

theorem splitOn_two {p n : Str} (hp : ':' ∉ p) (hn : ':' ∉ n) : splitOn ':' (p ++ ':' :: n) = [p, n] := by
  rw [splitOn_append_sep ':' p n hp, splitOn_of_not_mem hn]

theorem baseRef_of_refers {d : IdDef} {b : Str} {r : IdRef} (h : Refers d b r) : baseRef d b = .ok r := by
  cases h with
  | plain n hn =>
    simp only [baseRef, hn, if_false, prefixToModule]
    by_cases h : d.prefix_ = [] <;> simp [h]
  | own n hp hn =>
    have : ':' ∈ d.prefix_ ++ ':' :: n := by simp
    simp only [baseRef, this, if_true, splitOn_two hp hn, prefixToModule]
    by_cases h : d.prefix_ = [] <;> simp [h]
  | imported p m n h1 h2 h3 hp hn =>
    have : ':' ∈ p ++ ':' :: n := by simp
    simp only [baseRef, this, if_true, splitOn_two hp hn, prefixToModule, h1, h2, if_false, h3]

theorem refers_unique {d : IdDef} {b : Str} {r r' : IdRef} (h : Refers d b r) (h' : Refers d b r') : r = r' := by
  have := (baseRef_of_refers h).symm.trans (baseRef_of_refers h')
  simpa using this

/-! ## Store -/

def refs (s : IdStore) : List IdRef := s.map Ident.ref

theorem findId_some {s : IdStore} {r : IdRef} {i : Ident} (h : findId s r = some i) : i ∈ s ∧ i.ref = r := by
  refine ⟨List.mem_of_find?_eq_some h, ?_⟩
  have := List.find?_some h
  simp at this
  exact Prod.ext this.1 this.2

theorem findId_isSome {s : IdStore} {r : IdRef} : (findId s r).isSome = true ↔ r ∈ refs s := by
  simp only [findId, List.find?_isSome, refs, List.mem_map]
  constructor
  · rintro ⟨i, hi, h⟩
    simp at h
    exact ⟨i, hi, Prod.ext h.1 h.2⟩
  · rintro ⟨i, hi, h⟩
    subst h
    exact ⟨i, hi, by simp [Ident.ref]⟩

theorem findId_mem {s : IdStore} (hn : (refs s).Nodup) {i : Ident} (hi : i ∈ s) : findId s i.ref = some i := by
  induction s with
  | nil => simp at hi
  | cons j s ih =>
    simp only [refs, List.map_cons, List.nodup_cons] at hn
    rcases List.mem_cons.1 hi with h | h
    · subst h; simp [findId, Ident.ref]
    · have hne : j.ref ≠ i.ref := fun e => hn.1 (e ▸ List.mem_map_of_mem h)
      have : (j.mod == i.ref.1 && j.name == i.ref.2) = false := by
        rw [Bool.eq_false_iff]
        intro h
        simp at h
        exact hne (Prod.ext h.1 h.2)
      simp only [findId, List.find?, this]
      exact ih hn.2 h

theorem findId_none {s : IdStore} {r : IdRef} : findId s r = none ↔ r ∉ refs s := by
  rw [← findId_isSome]
  cases findId s r <;> simp

/-- The result of the loop over the bases when all of them have a meaning. -/
theorem basesIn_spec (s : IdStore) (d : IdDef) (bs : List Str) (h : ∀ b ∈ bs, ∃ r, Refers d b r) :
    (∃ rs, basesIn s d bs = .ok (some rs) ∧ (∀ r, r ∈ rs ↔ ∃ b ∈ bs, Refers d b r) ∧ ∀ r ∈ rs, r ∈ refs s) ∨
    (basesIn s d bs = .ok none ∧ ∃ b ∈ bs, ∃ r, Refers d b r ∧ r ∉ refs s) := by
  induction bs with
  | nil => exact .inl ⟨[], rfl, by simp, by simp⟩
  | cons b bs ih =>
    obtain ⟨r, hr⟩ := h b (by simp)
    have hb := baseRef_of_refers hr
    simp only [basesIn, hb]
    cases hf : findId s r with
    | none => exact .inr ⟨rfl, b, by simp, r, hr, findId_none.1 hf⟩
    | some i =>
      have hm : r ∈ refs s := findId_isSome.1 (by simp [hf])
      rcases ih (fun b hb => h b (List.mem_cons_of_mem _ hb)) with ⟨rs, h1, h2, h3⟩ | ⟨h1, b', hb', r', h2, h3⟩
      · refine .inl ⟨r :: rs, by simp [h1], ?_, ?_⟩
        · intro r'
          simp only [List.mem_cons, h2]
          constructor
          · rintro (h | ⟨b', hb', h⟩)
            · exact ⟨b, .inl rfl, h ▸ hr⟩
            · exact ⟨b', .inr hb', h⟩
          · rintro ⟨b', hb', h'⟩
            rcases hb' with hb' | hb'
            · subst hb'; exact .inl (refers_unique h' hr)
            · exact .inr ⟨b', hb', h'⟩
        · intro r' h
          rcases List.mem_cons.1 h with rfl | h
          · exact hm
          · exact h3 _ h
      · exact .inr ⟨by simp [h1], b', List.mem_cons_of_mem _ hb', r', h2, h3⟩

/-- All children added at once. -/
def withKids (rs : List IdRef) (c : IdRef) (i : Ident) : Ident :=
  { i with children := i.children ++ (rs.filter fun r => decide (i.ref = r)).map fun _ => c }

theorem foldl_addChild (rs : List IdRef) (c : IdRef) (s : IdStore) :
    rs.foldl (fun s b => addChild s b c) s = s.map (withKids rs c) := by
  induction rs generalizing s with
  | nil =>
    simp only [List.foldl_nil]
    conv => lhs; rw [← List.map_id s]
    apply List.map_congr_left
    intro i _
    simp [withKids]
  | cons r rs ih =>
    rw [List.foldl_cons, ih, addChild, List.map_map]
    apply List.map_congr_left
    intro i _
    by_cases h : i.ref = r
    · simp [withKids, h, Ident.ref]
      simp [Ident.ref] at h
      simp [h]
    · simp [withKids, h]

theorem withKids_ref (rs : List IdRef) (c : IdRef) (i : Ident) : (withKids rs c i).ref = i.ref := rfl

theorem mem_withKids {rs : List IdRef} {c x : IdRef} {i : Ident} :
    x ∈ (withKids rs c i).children ↔ x ∈ i.children ∨ (x = c ∧ i.ref ∈ rs) := by
  simp only [withKids, List.mem_append, List.mem_map, List.mem_filter, decide_eq_true_eq]
  constructor
  · rintro (h | ⟨r, ⟨hr, h1⟩, h2⟩)
    · exact .inl h
    · exact .inr ⟨h2.symm, h1 ▸ hr⟩
  · rintro (h | ⟨h1, h2⟩)
    · exact .inl h
    · exact .inr ⟨i.ref, ⟨h2, rfl⟩, h1.symm⟩

/-! ## The new identity -/

theorem addPrefix_ref (i : Ident) (p : Str) : (i.addPrefix p).ref = i.ref := rfl
theorem addPrefix_children (i : Ident) (p : Str) : (i.addPrefix p).children = i.children := rfl
theorem addPrefix_ns (i : Ident) (p : Str) : (i.addPrefix p).ns = i.ns := rfl

theorem mem_addPrefix {i : Ident} {p q : Str} : q ∈ (i.addPrefix p).prefixes ↔ q ∈ i.prefixes ∨ q = i.mod ∨ q = p := by
  simp only [Ident.addPrefix]
  by_cases h1 : i.mod ∈ i.prefixes
  · simp only [h1, if_true]
    by_cases h2 : p ∈ i.prefixes
    · simp only [h2, if_true]
      constructor
      · exact .inl
      · rintro (h | rfl | rfl) <;> assumption
    · simp only [h2, if_false, List.mem_append, List.mem_singleton]
      constructor
      · rintro (h | h)
        · exact .inl h
        · exact .inr (.inr h)
      · rintro (h | rfl | rfl)
        · exact .inl h
        · exact .inl h1
        · exact .inr rfl
  · simp only [h1, if_false]
    by_cases h2 : p ∈ i.prefixes ++ [i.mod]
    · simp only [h2, if_true]
      simp only [List.mem_append, List.mem_singleton] at h2 ⊢
      constructor
      · rintro (h | h)
        · exact .inl h
        · exact .inr (.inl h)
      · rintro (h | h | rfl)
        · exact .inl h
        · exact .inr h
        · exact h2
    · simp only [h2, if_false, List.mem_append, List.mem_singleton]
      constructor
      · rintro ((h | h) | h)
        · exact .inl h
        · exact .inr (.inl h)
        · exact .inr (.inr h)
      · rintro (h | h | h)
        · exact .inl (.inl h)
        · exact .inl (.inr h)
        · exact .inr h

theorem foldl_addPrefix (ps : List Str) (i : Ident) :
    (ps.foldl Ident.addPrefix i).ref = i.ref ∧ (ps.foldl Ident.addPrefix i).children = i.children ∧
    (ps.foldl Ident.addPrefix i).ns = i.ns ∧
    (i.mod ∈ i.prefixes → ∀ q, q ∈ (ps.foldl Ident.addPrefix i).prefixes ↔ q ∈ i.prefixes ∨ q ∈ ps) := by
  induction ps generalizing i with
  | nil => simp
  | cons p ps ih =>
    obtain ⟨h1, h2, h3, h4⟩ := ih (i.addPrefix p)
    refine ⟨h1, h2, h3, ?_⟩
    intro hm q
    rw [List.foldl_cons, h4 (mem_addPrefix.2 (.inl hm)), mem_addPrefix, List.mem_cons]
    constructor
    · rintro ((h | rfl | h) | h)
      · exact .inl h
      · exact .inl hm
      · exact .inr (.inl h)
      · exact .inr (.inr h)
    · rintro (h | h | h)
      · exact .inl (.inl h)
      · exact .inl (.inr (.inr h))
      · exact .inr h

theorem newIdent_ref (mrp : Dict (List Str)) (d : IdDef) : (newIdent mrp d).ref = d.ref := (foldl_addPrefix _ _).1
theorem newIdent_children (mrp : Dict (List Str)) (d : IdDef) : (newIdent mrp d).children = [] := (foldl_addPrefix _ _).2.1
theorem newIdent_ns (mrp : Dict (List Str)) (d : IdDef) : (newIdent mrp d).ns = d.ns := (foldl_addPrefix _ _).2.2.1

theorem newIdent_prefixes (mrp : Dict (List Str)) (d : IdDef) (q : Str) :
    q ∈ (newIdent mrp d).prefixes ↔ q = d.mod ∨ q = d.prefix_ ∨ q ∈ (mrp.get? d.mod).getD [] := by
  rw [newIdent, (foldl_addPrefix _ _).2.2.2 (mem_addPrefix.2 (.inr (.inl rfl))), mem_addPrefix]
  simp [or_assoc]

/-- One more import. -/
def impStep (d : Dict (List Str)) (i : Str × Str) : Dict (List Str) :=
  let d := if d.has i.1 then d else d.set i.1 []
  d.set i.1 (((d.get? i.1).getD []) ++ [i.2])

theorem impStep_get (d : Dict (List Str)) (i : Str × Str) (m q : Str) :
    q ∈ ((impStep d i).get? m).getD [] ↔ q ∈ (d.get? m).getD [] ∨ i = (m, q) := by
  obtain ⟨a, b⟩ := i
  simp only [impStep, Dict.get?_set]
  have key : ((if d.has a then d else d.set a []).get? a).getD [] = (d.get? a).getD [] := by
    by_cases h : d.has a = true
    · simp [h]
    · simp only [h, if_false, Dict.get?_set_self]
      simp [Dict.has] at h
      simp [h, Dict.get?_set_self]
  have key2 : m ≠ a → (if d.has a then d else d.set a []).get? m = d.get? m := by
    intro hm
    by_cases h : d.has a = true <;> simp [h, Dict.get?_set, hm]
  by_cases hm : m = a
  · subst hm
    simp only [if_true, Option.getD_some, key, List.mem_append, List.mem_singleton]
    simp [Prod.ext_iff, eq_comm]
  · simp only [hm, if_false, key2 hm]
    have : ¬ (a = m) := fun e => hm e.symm
    simp [this]

theorem imp_foldl (l : List (Str × Str)) (d : Dict (List Str)) (m q : Str) :
    q ∈ ((l.foldl impStep d).get? m).getD [] ↔ q ∈ (d.get? m).getD [] ∨ (m, q) ∈ l := by
  induction l generalizing d with
  | nil => simp
  | cons i l ih =>
    rw [List.foldl_cons, ih, impStep_get, List.mem_cons, or_assoc]
    simp [eq_comm]

theorem importPrefixes_mem (mods : List (List (Str × Str))) (m q : Str) :
    q ∈ ((importPrefixes mods).get? m).getD [] ↔ ∃ l ∈ mods, (m, q) ∈ l := by
  have : ∀ (mods : List (List (Str × Str))) (d : Dict (List Str)),
      q ∈ ((mods.foldl (fun d m => m.foldl impStep d) d).get? m).getD [] ↔ q ∈ (d.get? m).getD [] ∨ ∃ l ∈ mods, (m, q) ∈ l := by
    intro mods
    induction mods with
    | nil => simp
    | cons l mods ih =>
      intro d
      rw [List.foldl_cons, ih, imp_foldl, or_assoc]
      simp
  have h := this mods []
  simp only [Dict.get?_nil, Option.getD_none, List.not_mem_nil, false_or] at h
  exact h

/-- The prefixes of a new identity are the ones the specification lists. -/
theorem newIdent_known (mods : List (List (Str × Str))) (d : IdDef) (q : Str) :
    q ∈ (newIdent (importPrefixes mods) d).prefixes ↔ KnownPrefix mods d q := by
  rw [newIdent_prefixes, importPrefixes_mem]
  rfl

/-! ## The loop -/

/-- What holds at every turn of the loop. -/
structure IdInv (mrp : Dict (List Str)) (defs q : List IdDef) (s : IdStore) : Prop where
  qsub : ∀ d ∈ q, d ∈ defs
  cover : ∀ d ∈ defs, d ∈ q ∨ d.ref ∈ refs s
  nodup : (refs s).Nodup
  gr : ∀ r ∈ refs s, Grounded defs r
  src : ∀ i ∈ s, ∃ d ∈ defs, d.ref = i.ref ∧ i.prefixes = (newIdent mrp d).prefixes ∧ i.ns = d.ns ∧
    ∀ b ∈ d.bases, ∀ r, Refers d b r → r ∈ refs s
  ord : ∀ i ∈ s, ∀ c ∈ i.children, ∃ a b, refs s = a ++ i.ref :: b ∧ c ∈ b

theorem inv_init (mrp : Dict (List Str)) (defs : List IdDef) : IdInv mrp defs defs [] :=
  ⟨fun _ h => h, fun _ h => .inl h, by simp [refs], by simp [refs], by simp, by simp⟩

/-- The three outcomes of a turn. -/
inductive StepTo (mrp : Dict (List Str)) (d : IdDef) (q : List IdDef) (s : IdStore) : List IdDef → IdStore → Prop where
  | dup : d.ref ∈ refs s → StepTo mrp d q s q s
  | wait (b r) : b ∈ d.bases → Refers d b r → r ∉ refs s → d.ref ∉ refs s → StepTo mrp d q s (q ++ [d]) s
  | add (rs) : d.ref ∉ refs s → (∀ r, r ∈ rs ↔ ∃ b ∈ d.bases, Refers d b r) → (∀ r ∈ rs, r ∈ refs s) →
      StepTo mrp d q s q ((s ++ [newIdent mrp d]).map (withKids rs d.ref))

theorem idStep_spec (mrp : Dict (List Str)) (d : IdDef) (q : List IdDef) (s : IdStore) (h : ∀ b ∈ d.bases, ∃ r, Refers d b r) :
    ∃ q' s', idStep mrp d q s = .ok (q', s') ∧ StepTo mrp d q s q' s' := by
  by_cases hd : d.ref ∈ refs s
  · exact ⟨q, s, by simp [idStep, findId_isSome.2 hd], .dup hd⟩
  · have hf : (findId s d.ref).isSome = false := by
      rw [Bool.eq_false_iff]
      exact fun e => hd (findId_isSome.1 e)
    rcases basesIn_spec s d d.bases h with ⟨rs, h1, h2, h3⟩ | ⟨h1, b, hb, r, h2, h3⟩
    · refine ⟨q, _, ?_, .add rs hd h2 h3⟩
      simp [idStep, hf, h1, addIdentity, newIdent_ref, foldl_addChild]
    · exact ⟨q ++ [d], s, by simp [idStep, hf, h1], .wait b r hb h2 h3 hd⟩

theorem refs_map_withKids (rs : List IdRef) (c : IdRef) (s : IdStore) : refs (s.map (withKids rs c)) = refs s := by
  simp [refs, Function.comp_def, withKids_ref]

theorem refs_append (s t : IdStore) : refs (s ++ t) = refs s ++ refs t := by simp [refs]

theorem refs_add (mrp : Dict (List Str)) (d : IdDef) (rs : List IdRef) (s : IdStore) :
    refs ((s ++ [newIdent mrp d]).map (withKids rs d.ref)) = refs s ++ [d.ref] := by
  rw [refs_map_withKids, refs_append]
  simp [refs, newIdent_ref]

theorem inv_step {mrp : Dict (List Str)} {defs : List IdDef} {d : IdDef} {q q' : List IdDef} {s s' : IdStore}
    (hi : IdInv mrp defs (d :: q) s) (hs : StepTo mrp d q s q' s') : IdInv mrp defs q' s' := by
  have hd : d ∈ defs := hi.qsub d (by simp)
  cases hs with
  | dup h =>
    refine { hi with qsub := fun e he => hi.qsub e (List.mem_cons_of_mem _ he), cover := ?_ }
    intro e he
    rcases hi.cover e he with h' | h'
    · rcases List.mem_cons.1 h' with rfl | h'
      · exact .inr h
      · exact .inl h'
    · exact .inr h'
  | wait b r hb hr hn hd' =>
    refine { hi with qsub := ?_, cover := ?_ }
    · intro e he
      rcases List.mem_append.1 he with he | he
      · exact hi.qsub e (List.mem_cons_of_mem _ he)
      · simp at he; exact he ▸ hd
    · intro e he
      rcases hi.cover e he with h' | h'
      · rcases List.mem_cons.1 h' with rfl | h'
        · exact .inl (by simp)
        · exact .inl (by simp [h'])
      · exact .inr h'
  | add rs hn h2 h3 =>
    refine ⟨fun e he => hi.qsub e (List.mem_cons_of_mem _ he), ?_, ?_, ?_, ?_, ?_⟩
    · intro e he
      rw [refs_add]
      rcases hi.cover e he with h' | h'
      · rcases List.mem_cons.1 h' with rfl | h'
        · exact .inr (by simp)
        · exact .inl h'
      · exact .inr (by simp [h'])
    · rw [refs_add, List.nodup_append]
      refine ⟨hi.nodup, by simp, ?_⟩
      intro a ha b hb
      simp at hb
      subst hb
      exact fun e => hn (e ▸ ha)
    · intro r hr
      rw [refs_add] at hr
      rcases List.mem_append.1 hr with hr | hr
      · exact hi.gr r hr
      · simp at hr
        subst hr
        exact .mk d hd fun b hb r hr => hi.gr r (h3 r ((h2 r).2 ⟨b, hb, hr⟩))
    · intro i hi'
      rw [refs_add]
      obtain ⟨j, hj, rfl⟩ := List.mem_map.1 hi'
      rcases List.mem_append.1 hj with hj | hj
      · obtain ⟨e, he, h4, h5, h6, h7⟩ := hi.src j hj
        exact ⟨e, he, h4, h5, h6, fun b hb r hr => List.mem_append.2 (.inl (h7 b hb r hr))⟩
      · simp at hj
        subst hj
        refine ⟨d, hd, (newIdent_ref mrp d).symm, rfl, newIdent_ns mrp d, ?_⟩
        exact fun b hb r hr => List.mem_append.2 (.inl (h3 r ((h2 r).2 ⟨b, hb, hr⟩)))
    · intro i hi' c hc
      rw [refs_add]
      obtain ⟨j, hj, rfl⟩ := List.mem_map.1 hi'
      rw [mem_withKids] at hc
      rw [withKids_ref]
      rcases List.mem_append.1 hj with hj | hj
      · rcases hc with hc | ⟨rfl, hc⟩
        · obtain ⟨a, b, h1, h2⟩ := hi.ord j hj c hc
          exact ⟨a, b ++ [d.ref], by simp [h1], by simp [h2]⟩
        · obtain ⟨a, b, h⟩ := List.append_of_mem (h3 _ hc)
          exact ⟨a, b ++ [d.ref], by simp [h], by simp⟩
      · simp at hj
        subst hj
        rw [newIdent_children, newIdent_ref] at hc
        rcases hc with hc | ⟨rfl, hc⟩
        · simp at hc
        · exact absurd (h3 _ hc) hn

/-- The children in the store are exactly the stored identities with that base. -/
def KidsOk (defs : List IdDef) (s : IdStore) : Prop :=
  ∀ i ∈ s, ∀ c, c ∈ i.children ↔ c ∈ refs s ∧ Derives defs c i.ref

theorem kids_step {mrp : Dict (List Str)} {defs : List IdDef} (ho : OneEach defs) {d : IdDef} {q q' : List IdDef} {s s' : IdStore}
    (hi : IdInv mrp defs (d :: q) s) (hk : KidsOk defs s) (hs : StepTo mrp d q s q' s') : KidsOk defs s' := by
  have hd : d ∈ defs := hi.qsub d (by simp)
  have der : ∀ p, Derives defs d.ref p ↔ ∃ b ∈ d.bases, Refers d b p := by
    intro p
    constructor
    · rintro ⟨e, he, h, b, hb, hr⟩
      have := ho e he d hd (congrArg Prod.fst h) (congrArg Prod.snd h)
      subst this
      exact ⟨b, hb, hr⟩
    · rintro ⟨b, hb, hr⟩
      exact ⟨d, hd, rfl, b, hb, hr⟩
  cases hs with
  | dup h => exact hk
  | wait b r hb hr hn hd' => exact hk
  | add rs hn h2 h3 =>
    intro i hi' c
    rw [refs_add]
    obtain ⟨j, hj, rfl⟩ := List.mem_map.1 hi'
    rw [mem_withKids, withKids_ref, List.mem_append, List.mem_singleton]
    rcases List.mem_append.1 hj with hj | hj
    · rw [hk j hj c]
      constructor
      · rintro (⟨h4, h5⟩ | ⟨rfl, h⟩)
        · exact ⟨.inl h4, h5⟩
        · exact ⟨.inr rfl, (der _).2 ((h2 _).1 h)⟩
      · rintro ⟨h4 | rfl, h5⟩
        · exact .inl ⟨h4, h5⟩
        · exact .inr ⟨rfl, (h2 _).2 ((der _).1 h5)⟩
    · simp at hj
      subst hj
      rw [newIdent_children, newIdent_ref]
      constructor
      · rintro (h | ⟨rfl, h⟩)
        · simp at h
        · exact absurd (h3 _ h) hn
      · rintro ⟨h | rfl, h5⟩
        · obtain ⟨j, hj, rfl⟩ := List.mem_map.1 h
          obtain ⟨e, he, h6, _, _, h7⟩ := hi.src j hj
          obtain ⟨e', he', h8, b, hb, hr⟩ := h5
          have : e' = e := ho e' he' e he (congrArg Prod.fst (h8.trans h6.symm)) (congrArg Prod.snd (h8.trans h6.symm))
          subst this
          exact absurd (h7 b hb _ hr) hn
        · exact .inr ⟨rfl, (h2 _).2 ((der _).1 h5)⟩

/-- The invariants hold when the loop ends. -/
theorem idLoop_inv {mrp : Dict (List Str)} {defs : List IdDef} (ho : OneEach defs) (hb : BasesOk defs) (f : Nat) :
    ∀ (q : List IdDef) (s : IdStore) (r : Except Err IdStore), IdInv mrp defs q s → KidsOk defs s → idLoop mrp f q s = some r →
      ∃ t, r = .ok t ∧ IdInv mrp defs [] t ∧ KidsOk defs t := by
  induction f with
  | zero =>
    intro q s r hi hk h
    cases q with
    | nil =>
      simp only [idLoop, Option.some.injEq] at h
      exact ⟨s, h.symm, hi, hk⟩
    | cons d q => simp [idLoop] at h
  | succ f ih =>
    intro q s r hi hk h
    cases q with
    | nil =>
      simp only [idLoop, Option.some.injEq] at h
      exact ⟨s, h.symm, hi, hk⟩
    | cons d q =>
      obtain ⟨q', s', h1, h2⟩ := idStep_spec mrp d q s (hb d (hi.qsub d (by simp)))
      simp only [idLoop, h1] at h
      exact ih q' s' r (inv_step hi h2) (kids_step ho hi hk h2) h

/-! ## Termination -/

/-- Among the waiting definitions one has all its bases in the store (or is there itself). -/
theorem exists_ready {mrp : Dict (List Str)} {defs q : List IdDef} {s : IdStore} (hi : IdInv mrp defs q s)
    {r : IdRef} (hg : Grounded defs r) (hr : r ∉ refs s) :
    ∃ d ∈ q, ∀ b ∈ d.bases, ∀ p, Refers d b p → p ∈ refs s := by
  induction hg with
  | mk d hd h ih =>
    rcases hi.cover d hd with hq | hq
    · by_cases hall : ∀ b ∈ d.bases, ∀ p, Refers d b p → p ∈ refs s
      · exact ⟨d, hq, hall⟩
      · simp only [Classical.not_forall] at hall
        obtain ⟨b, hb, p, hp, hn⟩ := hall
        exact ih b hb p hp hn
    · exact absurd hq hr

/-- A turn keeps the store's identities. -/
theorem step_refs {mrp : Dict (List Str)} {d : IdDef} {q q' : List IdDef} {s s' : IdStore} (hs : StepTo mrp d q s q' s') :
    ∀ r ∈ refs s, r ∈ refs s' := by
  intro r hr
  cases hs with
  | dup => exact hr
  | wait => exact hr
  | add rs => rw [refs_add]; simp [hr]

theorem idLoop_terminates {mrp : Dict (List Str)} {defs : List IdDef} (hb : BasesOk defs)
    (hg : ∀ d ∈ defs, Grounded defs d.ref) :
    ∀ (n : Nat) (q : List IdDef) (s : IdStore), q.length = n → IdInv mrp defs q s → ∃ f, (idLoop mrp f q s).isSome := by
  intro n
  induction n with
  | zero =>
    intro q s hn hi
    have : q = [] := List.length_eq_zero_iff.1 hn
    subst this
    exact ⟨0, rfl⟩
  | succ n ih =>
    -- the position of a definition that is ready
    have key : ∀ (k : Nat) (pre post : List IdDef) (e : IdDef) (s : IdStore), pre.length = k →
        (pre ++ e :: post).length = n + 1 → IdInv mrp defs (pre ++ e :: post) s →
        (∀ b ∈ e.bases, ∀ p, Refers e b p → p ∈ refs s) → ∃ f, (idLoop mrp f (pre ++ e :: post) s).isSome := by
      intro k
      induction k with
      | zero =>
        intro pre post e s hk hn hi he
        have : pre = [] := List.length_eq_zero_iff.1 hk
        subst this
        simp only [List.nil_append] at hi hn ⊢
        obtain ⟨q', s', h1, h2⟩ := idStep_spec mrp e post s (hb e (hi.qsub e (by simp)))
        have hi' := inv_step hi h2
        have hlen : q'.length = n := by
          cases h2 with
          | dup => simpa using hn
          | wait b r hb' hr hnr _ => exact absurd (he b hb' r hr) hnr
          | add => simpa using hn
        obtain ⟨f, hf⟩ := ih q' s' hlen hi'
        exact ⟨f + 1, by simp [idLoop, h1, hf]⟩
      | succ k ihk =>
        intro pre post e s hk hn hi he
        cases pre with
        | nil => simp at hk
        | cons d pre =>
          simp only [List.cons_append] at hi hn ⊢
          obtain ⟨q', s', h1, h2⟩ := idStep_spec mrp d (pre ++ e :: post) s (hb d (hi.qsub d (by simp)))
          have hi' := inv_step hi h2
          have hrefs := step_refs h2
          have fin : ∃ f, (idLoop mrp f q' s').isSome := by
            cases h2 with
            | dup => exact ih _ _ (by simpa using hn) hi'
            | wait b r hb' hr hnr _ =>
              have : (pre ++ e :: post) ++ [d] = pre ++ e :: (post ++ [d]) := by simp
              rw [this] at hi' ⊢
              refine ihk pre (post ++ [d]) e s (by simpa using hk) ?_ hi' he
              simp at hn ⊢
              omega
            | add rs => exact ih _ _ (by simpa using hn) hi'
          obtain ⟨f, hf⟩ := fin
          exact ⟨f + 1, by simp [idLoop, h1, hf]⟩
    intro q s hn hi
    -- pick a ready one
    have : ∃ d ∈ q, ∀ b ∈ d.bases, ∀ p, Refers d b p → p ∈ refs s ∨ d.ref ∈ refs s := by
      cases q with
      | nil => simp at hn
      | cons d q =>
        by_cases hd : d.ref ∈ refs s
        · exact ⟨d, by simp, fun _ _ _ _ => .inr hd⟩
        · obtain ⟨e, he, h⟩ := exists_ready hi (hg d (hi.qsub d (by simp))) hd
          exact ⟨e, he, fun b hb p hp => .inl (h b hb p hp)⟩
    cases q with
    | nil => simp at hn
    | cons d q =>
      by_cases hd : d.ref ∈ refs s
      · obtain ⟨f, hf⟩ := ih q s (by simpa using hn) (inv_step hi (.dup hd))
        exact ⟨f + 1, by simp [idLoop, idStep, findId_isSome.2 hd, hf]⟩
      · obtain ⟨e, he, h⟩ := exists_ready hi (hg d (hi.qsub d (by simp))) hd
        obtain ⟨pre, post, hq⟩ := List.append_of_mem he
        rw [hq] at hn hi ⊢
        exact key pre.length pre post e s rfl hn hi h

/-- An identity that is not grounded stays in the queue for ever. -/
theorem idLoop_stuck {mrp : Dict (List Str)} {defs : List IdDef} (hb : BasesOk defs) (f : Nat) :
    ∀ (q : List IdDef) (s : IdStore), IdInv mrp defs q s → (∃ d ∈ q, ¬ Grounded defs d.ref) → idLoop mrp f q s = none := by
  induction f with
  | zero =>
    intro q s hi ⟨d, hd, hn⟩
    cases q with
    | nil => simp at hd
    | cons => rfl
  | succ f ih =>
    intro q s hi ⟨e, he, hn⟩
    cases q with
    | nil => simp at he
    | cons d q =>
      obtain ⟨q', s', h1, h2⟩ := idStep_spec mrp d q s (hb d (hi.qsub d (by simp)))
      simp only [idLoop, h1]
      refine ih q' s' (inv_step hi h2) ?_
      rcases List.mem_cons.1 he with rfl | he
      · cases h2 with
        | dup h => exact absurd (hi.gr _ h) hn
        | wait => exact ⟨e, by simp, hn⟩
        | add rs hd' h2 h3 =>
          exact absurd (.mk e (hi.qsub e (by simp)) fun b hb r hr => hi.gr r (h3 r ((h2 r).2 ⟨b, hb, hr⟩))) hn
      · refine ⟨e, ?_, hn⟩
        cases h2 with
        | dup => exact he
        | wait => simp [he]
        | add => exact he

end Pyb
