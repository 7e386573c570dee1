import Verif.Spec.NativeUnknown
import Verif.Lemmas.Overwrite

namespace Pyb
open Py Spec

/-! # Members of native JSON that are not in the schema -/

theorem putOrder_map {α β : Type} (f : α → β) (o : Int) (x : α) (kd : List (Int × α)) :
    putOrder o (f x) (kd.map fun p => (p.1, f p.2)) = (putOrder o x kd).map fun p => (p.1, f p.2) := by
  induction kd with
  | nil => rfl
  | cons p kd ih =>
    simp only [List.map_cons, putOrder]
    split
    · rfl
    · split
      · rfl
      · rw [ih]; rfl

theorem splitOrder_map {α β : Type} (f : α → β) : ∀ (xs : List (Option Int × α)) (kd : List (Int × α)) (ok : List α),
    splitOrder (xs.map fun p => (p.1, f p.2)) (kd.map fun p => (p.1, f p.2)) (ok.map f) =
    ((splitOrder xs kd ok).1.map fun p => (p.1, f p.2), (splitOrder xs kd ok).2.map f) := by
  intro xs
  induction xs with
  | nil => intro kd ok; rfl
  | cons x xs ih =>
    intro kd ok
    obtain ⟨o, x⟩ := x
    cases o with
    | none =>
      simp only [List.map_cons, splitOrder]
      rw [← ih]; simp
    | some o =>
      simp only [List.map_cons, splitOrder]
      rw [← ih, putOrder_map]

theorem keyOrder_map {α β : Type} (f : α → β) (o : Bool) (xs : List (Option Int × α)) :
    keyOrder o (xs.map fun p => (p.1, f p.2)) = (keyOrder o xs).map f := by
  unfold keyOrder
  cases o with
  | false => simp [Function.comp_def]
  | true =>
    have := splitOrder_map f xs [] []
    simp only [List.map_nil] at this
    simp [this, Function.comp_def]

theorem putOrder_sub {α : Type} {o : Int} {x : α} {kd : List (Int × α)} {y : α} (h : y ∈ (putOrder o x kd).map Prod.snd) :
    y = x ∨ y ∈ kd.map Prod.snd := by
  induction kd with
  | nil => simpa [putOrder] using h
  | cons p kd ih =>
    simp only [putOrder] at h
    split at h
    · rw [List.map_cons, List.mem_cons] at h ⊢
      rcases h with h | h
      · exact .inl h
      · exact .inr (.inr h)
    · split at h
      · simpa using h
      · rw [List.map_cons, List.mem_cons] at h
        rcases h with h | h
        · exact .inr (by simp [h])
        · rcases ih h with h | h
          · exact .inl h
          · exact .inr (by rw [List.map_cons, List.mem_cons]; exact .inr h)

theorem splitOrder_sub {α : Type} : ∀ (xs : List (Option Int × α)) (kd : List (Int × α)) (ok : List α) (y : α),
    (y ∈ (splitOrder xs kd ok).1.map Prod.snd ∨ y ∈ (splitOrder xs kd ok).2) →
    (y ∈ xs.map Prod.snd ∨ y ∈ kd.map Prod.snd ∨ y ∈ ok) := by
  intro xs
  induction xs with
  | nil => intro kd ok y h; simpa [splitOrder] using h
  | cons x xs ih =>
    obtain ⟨o, x⟩ := x
    intro kd ok y h
    rw [List.map_cons, List.mem_cons]
    cases o with
    | none =>
      rcases ih _ _ _ h with h | h | h
      · exact .inl (.inr h)
      · exact .inr (.inl h)
      · rcases List.mem_append.1 h with h | h
        · exact .inr (.inr h)
        · exact .inl (.inl (by simpa using h))
    | some o =>
      rcases ih _ _ _ h with h | h | h
      · exact .inl (.inr h)
      · rcases putOrder_sub h with h | h
        · exact .inl (.inl h)
        · exact .inr (.inl h)
      · exact .inr (.inr h)

theorem keyOrder_sub {α : Type} {o : Bool} {xs : List (Option Int × α)} {y : α} (h : y ∈ keyOrder o xs) : y ∈ xs.map Prod.snd := by
  unfold keyOrder at h
  split at h
  · rw [List.mem_append, List.mem_reverse] at h
    rcases splitOrder_sub _ _ _ _ h with h | h | h
    · exact h
    · simp at h
    · simp at h
  · exact h

/-- The entries of a list that are loaded. -/
def keptEntries (o : Bool) (ms : List (Str × J)) : List (Str × J) := keyOrder o (ms.map fun m => (orderOf m.2, m))

theorem kept_sub {o : Bool} {ms : List (Str × J)} {x : Str × J} (h : x ∈ keptEntries o ms) : x ∈ ms := by
  simpa using keyOrder_sub h

theorem kept_mem {o : Bool} {ms : List (Str × J)} (h : o = true → (ms.filterMap fun x => position x.2).Nodup) {x : Str × J} (hx : x ∈ ms) :
    x ∈ keptEntries o ms := by
  refine keyOrder_mem ?_ (by simpa using hx)
  intro ho
  rw [List.filterMap_map]
  exact h ho

theorem kept_fns {g : LoadOpt} {o : Bool} {kids : List (Meta × Schema)} (ms : List (Str × J)) :
    keyOrder o (nativeFns g o kids ms) = (keptEntries o ms).map fun m => (m.1, fun c => nativeElem g o kids c m.2) := by
  rw [nFns_map, keptEntries, ← keyOrder_map, List.map_map]
  rfl

/-- The unknown members that are seen: the entries that have the place of another one are
not loaded. -/
inductive SeenUnknown : Bool → Schema → J → Prop where
  | here {o pres kids ms} {x : Str × J} : x ∈ ms → ¬ (o = true ∧ x.1 = yangOrder) → childOf kids x.1 = none →
      SeenUnknown o (.cont pres kids) (.obj ms)
  | inside {o pres kids ms} {x : Str × J} {k : Meta × Schema} : x ∈ ms → ¬ (o = true ∧ x.1 = yangOrder) →
      childOf kids x.1 = some k → SeenUnknown false k.2 x.2 → SeenUnknown o (.cont pres kids) (.obj ms)
  | entry {o info kids ms} {x : Str × J} : x ∈ keptEntries info.ordered ms → SeenUnknown info.ordered (.cont false kids) x.2 →
      SeenUnknown o (.list info kids) (.obj ms)

theorem seen_unknown {o : Bool} {S : Schema} {j : J} (h : SeenUnknown o S j) : NUnknown o S j := by
  induction h with
  | here a b c => exact .here a b c
  | inside a b c _ ih => exact .inside a b c ih
  | entry a _ ih => exact .entry (kept_sub a) ih

theorem unknown_seen {o : Bool} {S : Schema} {j : J} (h : NUnknown o S j) : ¬ SamePlace S j → SeenUnknown o S j := by
  induction h with
  | here a b c => intro _; exact .here a b c
  | inside a b c _ ih => intro hs; exact .inside a b c (ih fun h => hs (.member a c h))
  | @entry o info kids ms x a _ ih =>
    intro hs
    refine .entry (kept_mem ?_ a) (ih fun h => hs (.entry a h))
    intro ho
    by_cases hn : (ms.filterMap fun x : Str × J => position x.2).Nodup
    · exact hn
    · exact absurd (.here ho hn) hs

/-- One member. -/
def SeenAt (o : Bool) (kids : List (Meta × Schema)) (x : Str × J) : Prop :=
  ¬ (o = true ∧ x.1 = yangOrder) ∧ (childOf kids x.1 = none ∨ ∃ k, childOf kids x.1 = some k ∧ SeenUnknown false k.2 x.2)

theorem seen_obj {o pres : Bool} {kids : List (Meta × Schema)} {ms : List (Str × J)} :
    SeenUnknown o (.cont pres kids) (.obj ms) ↔ ∃ x ∈ ms, SeenAt o kids x := by
  constructor
  · intro h
    cases h with
    | here a b c => exact ⟨_, a, b, .inl c⟩
    | inside a b c d => exact ⟨_, a, b, .inr ⟨_, c, d⟩⟩
  · rintro ⟨x, a, b, c | ⟨k, c, d⟩⟩
    · exact .here a b c
    · exact .inside a b c d

theorem nUnknown_rel (n : Inst) (U : Prop) (h : U) : SkipRel (nativeUnknown false n) (nativeUnknown true n) U :=
  ⟨fun h' => absurd h h', .inr (by simp [nativeUnknown, fail]), fun _ => by simp [nativeUnknown, fail]⟩

def NChildRel (g : LoadOpt) (j : J) : Prop := ∀ over S own c,
  SkipRel (nativeChild (noSkip g) over S own c j) (nativeChild (doSkip g) over S own c j) (SeenUnknown false S j)

theorem nMembers_rel {g : LoadOpt} {over wrapped ordered pres : Bool} {kids : List (Meta × Schema)} {own : Option Choice}
    {ms : List (Str × J)} (ih : ∀ x ∈ ms, NChildRel g x.2) :
    ∀ n, SkipRel (nativeMembers (noSkip g) over wrapped ordered (.cont pres kids) own n ms)
      (nativeMembers (doSkip g) over wrapped ordered (.cont pres kids) own n ms) (SeenUnknown ordered (.cont pres kids) (.obj ms)) := by
  induction ms with
  | nil =>
    intro n
    rw [nMembers_nil, nMembers_nil]
    exact skipRel_same _ _ (by rw [seen_obj]; simp)
  | cons x ms ihm =>
    intro n
    rw [nMembers_cons, nMembers_cons]
    have hU : (SeenAt ordered kids x ∨ SeenUnknown ordered (.cont pres kids) (.obj ms)) ↔
        SeenUnknown ordered (.cont pres kids) (.obj (x :: ms)) := by
      simp [seen_obj]
    refine SkipRel.mono (skipRel_then ?_ (ihm fun y hy => ih y (by simp [hy]))) hU
    by_cases hx : ordered = true ∧ x.1 = yangOrder
    · rw [if_pos (by simpa using hx), if_pos (by simpa using hx)]
      exact skipRel_same _ _ (fun h => h.1 hx)
    · rw [if_neg (by simpa using hx), if_neg (by simpa using hx)]
      simp only [withKid]
      rcases kidIdx_childOf kids x.1 with ⟨h1, h2⟩ | ⟨i, k, h1, h2, h3⟩
      · simp only [h1]
        exact nUnknown_rel n _ ⟨hx, .inl h2⟩
      · simp only [h1, h2]
        cases n with
        | cont ch pr ns =>
          simp only
          cases hc : ns[i]? with
          | none => exact skipRel_err (by simp [fail])
          | some c =>
            refine (skipRel_holdPut (ih x (by simp) over k.2 k.1.choice c)).mono ?_
            simp [SeenAt, hx, h3]
        | _ => exact skipRel_err (by simp [fail])

theorem nElem_rel {g : LoadOpt} {ordered : Bool} {kids : List (Meta × Schema)} {x : J}
    (ih : ∀ ms, x = .obj ms → ∀ y ∈ ms, NChildRel g y.2) (c : Inst) :
    SkipRel (nativeElem (noSkip g) ordered kids c x) (nativeElem (doSkip g) ordered kids c x) (SeenUnknown ordered (.cont false kids) x) := by
  cases x with
  | obj ms => unfold nativeElem; exact nMembers_rel (ih ms rfl) c
  | _ => unfold nativeElem; exact skipRel_err (by simp [fail])

theorem nLoop_rel {g : LoadOpt} {ordered : Bool} {info : ListInfo} {kids : List (Meta × Schema)} {es : List (Str × J)}
    (ih : ∀ x ∈ es, ∀ ms, x.2 = .obj ms → ∀ y ∈ ms, NChildRel g y.2) :
    ∀ n, SkipRel (nativeLoop g.uuid info kids (es.map fun m => (m.1, fun c => nativeElem (noSkip g) ordered kids c m.2)) n)
      (nativeLoop g.uuid info kids (es.map fun m => (m.1, fun c => nativeElem (doSkip g) ordered kids c m.2)) n)
      (∃ x ∈ es, SeenUnknown ordered (.cont false kids) x.2) := by
  induction es with
  | nil => intro n; exact skipRel_same _ _ (by simp)
  | cons x es ihx =>
    intro n
    simp only [List.map_cons, nativeLoop]
    refine SkipRel.mono (skipRel_then (U := SeenUnknown ordered (.cont false kids) x.2) ?_ (ihx fun y hy => ih y (by simp [hy]))) (by simp)
    refine SkipRel.mono (skipRel_then (U := False) (V := SeenUnknown ordered (.cont false kids) x.2) (skipRel_same _ _ id) ?_) (by simp)
    intro n
    exact skipRel_withEntry fun c => nElem_rel (ih x (by simp)) c

theorem nChild_rel {g : LoadOpt} (j : J) : NChildRel g j := by
  have main : NChildRel g j ∧ ∀ ms, j = .obj ms → ∀ y ∈ ms, NChildRel g y.2 := by
    induction j using J.ind with
    | hobj ms ih =>
      refine ⟨?_, by rintro _ ⟨⟩ y hy; exact (ih y hy).1⟩
      intro over S own c
      unfold nativeChild
      cases S with
      | cont pres kids =>
        exact SkipRel.mono (skipRel_then (U := False) (skipRel_same _ _ id) fun n => nMembers_rel (fun x hx => (ih x hx).1) _) (by simp)
      | list info kids =>
        simp only [kept_fns]
        refine SkipRel.mono (skipRel_then (V := False) (nLoop_rel (fun x hx => (ih x (kept_sub hx)).2) c) fun n => skipRel_same _ _ id) ?_
        constructor
        · rintro (⟨x, h1, h2⟩ | h)
          · exact .entry h1 h2
          · exact h.elim
        · intro h
          cases h with
          | entry h1 h2 => exact .inl ⟨_, h1, h2⟩
      | _ => exact skipRel_same _ _ (by intro h; cases h)
    | _ =>
      refine ⟨?_, by simp⟩
      intro over S own c
      unfold nativeChild
      cases S <;> exact skipRel_same _ _ (by intro h; cases h)
  exact main.1

/-! ## Leaving out the unknown members -/

theorem bareMembers_cons (o : Bool) (kids : List (Meta × Schema)) (m : Str × J) (ms : List (Str × J)) :
    bareMembers o kids (m :: ms) =
      if o = true ∧ m.1 = yangOrder then m :: bareMembers o kids ms
      else match childOf kids m.1 with
        | some k => (m.1, bare false k.2 m.2) :: bareMembers o kids ms
        | none => bareMembers o kids ms := by
  rw [bareMembers]
  cases childOf kids m.1 <;> rfl

theorem bare_obj (o pres : Bool) (kids : List (Meta × Schema)) (ms : List (Str × J)) :
    bare o (.cont pres kids) (.obj ms) = .obj (bareMembers o kids ms) := by rw [bare]

theorem bare_other (o pres : Bool) (kids : List (Meta × Schema)) (j : J) (h : ∀ ms, j ≠ .obj ms) : bare o (.cont pres kids) j = j := by
  cases j with
  | obj ms => exact absurd rfl (h ms)
  | _ => simp [bare]

theorem bareEntries_map (o : Bool) (kids : List (Meta × Schema)) (ms : List (Str × J)) :
    bareEntries o kids ms = ms.map fun m => (m.1, bare o (.cont false kids) m.2) := by
  induction ms with
  | nil => rw [bareEntries]; rfl
  | cons m ms ih => rw [bareEntries, ih]; rfl

theorem lookup_bare (kids : List (Meta × Schema)) (ms : List (Str × J)) :
    jget (bareMembers true kids ms) yangOrder = jget ms yangOrder := by
  unfold jget
  induction ms with
  | nil => simp [bareMembers]
  | cons x ms ih =>
    obtain ⟨a, j⟩ := x
    rw [bareMembers_cons]
    by_cases ha : a = yangOrder
    · subst ha
      simp
    · have hb : (yangOrder == a) = false := by simpa using fun e : yangOrder = a => ha e.symm
      rw [if_neg (by simpa using ha)]
      split
      · simp only [List.lookup_cons, hb]; exact ih
      · simp only [List.lookup_cons, hb]; exact ih

theorem orderOf_bare (kids : List (Meta × Schema)) (x : J) : orderOf (bare true (.cont false kids) x) = orderOf x := by
  by_cases h : ∃ ms, x = .obj ms
  · obtain ⟨ms, rfl⟩ := h
    rw [bare_obj]
    simp only [orderOf, lookup_bare]
  · rw [bare_other _ _ _ _ fun ms e => h ⟨ms, e⟩]

theorem kept_bare (o : Bool) (kids : List (Meta × Schema)) (ms : List (Str × J)) :
    keptEntries o (bareEntries o kids ms) = (keptEntries o ms).map fun m => (m.1, bare o (.cont false kids) m.2) := by
  rw [keptEntries, keptEntries, ← keyOrder_map, bareEntries_map, List.map_map, List.map_map]
  cases o with
  | false =>
    unfold keyOrder
    simp [Function.comp_def]
  | true =>
    congr 1
    apply List.map_congr_left
    intro m hm
    simp [orderOf_bare]

def BareOk (g : LoadOpt) (j : J) : Prop := ∀ over S own c,
  nativeChild (doSkip g) over S own c (bare false S j) = nativeChild (doSkip g) over S own c j

theorem nMembers_bare {g : LoadOpt} {over wrapped ordered pres : Bool} {kids : List (Meta × Schema)} {own : Option Choice}
    {ms : List (Str × J)} (ih : ∀ x ∈ ms, BareOk g x.2) :
    ∀ n, nativeMembers (doSkip g) over wrapped ordered (.cont pres kids) own n (bareMembers ordered kids ms) =
      nativeMembers (doSkip g) over wrapped ordered (.cont pres kids) own n ms := by
  induction ms with
  | nil => intro n; rw [bareMembers]
  | cons x ms ihm =>
    have next := ihm (fun y hy => ih y (by simp [hy]))
    intro n
    rw [bareMembers_cons, nMembers_cons]
    by_cases hx : ordered = true ∧ x.1 = yangOrder
    · rw [if_pos hx, if_pos (by simpa using hx), nMembers_cons, if_pos (by simpa using hx), same_then, same_then, next]
    · rw [if_neg hx, if_neg (by simpa using hx)]
      rcases kidIdx_childOf kids x.1 with ⟨h1, h2⟩ | ⟨i, k, h1, h2, h3⟩
      · simp only [h2, withKid, h1]
        show _ = (nativeUnknown true n).andThen _
        rw [nativeUnknown, if_pos rfl, same_then, next]
      · have hc := fun c => ih x (by simp) over k.2 k.1.choice c
        simp only [h3]
        rw [nMembers_cons, if_neg (by simpa using hx)]
        simp only [withKid, h1, h2]
        cases n with
        | cont ch pr ns =>
          simp only
          cases ns[i]? with
          | none => simp only [next]
          | some c => simp only [hc, next]
        | _ => simp only [next]

theorem nElem_bare {g : LoadOpt} {ordered : Bool} {kids : List (Meta × Schema)} {x : J}
    (ih : ∀ ms, x = .obj ms → ∀ y ∈ ms, BareOk g y.2) (c : Inst) :
    nativeElem (doSkip g) ordered kids c (bare ordered (.cont false kids) x) = nativeElem (doSkip g) ordered kids c x := by
  by_cases h : ∃ ms, x = .obj ms
  · obtain ⟨ms, rfl⟩ := h
    rw [bare_obj]
    unfold nativeElem
    exact nMembers_bare (ih ms rfl) c
  · rw [bare_other _ _ _ _ fun ms e => h ⟨ms, e⟩]

theorem nChild_bare {g : LoadOpt} (j : J) : BareOk g j := by
  have main : BareOk g j ∧ ∀ ms, j = .obj ms → ∀ y ∈ ms, BareOk g y.2 := by
    induction j using J.ind with
    | hobj ms ih =>
      refine ⟨?_, by rintro _ ⟨⟩ y hy; exact (ih y hy).1⟩
      intro over S own c
      cases S with
      | cont pres kids =>
        rw [bare_obj]
        unfold nativeChild
        simp only [nMembers_bare fun x hx => (ih x hx).1]
      | list info kids =>
        rw [bare]
        unfold nativeChild
        simp only [kept_fns, kept_bare, List.map_map]
        have e1 : (bareEntries info.ordered kids ms).map Prod.fst = ms.map Prod.fst := by
          rw [bareEntries_map, List.map_map]; rfl
        have e2 : (bareEntries info.ordered kids ms).isEmpty = ms.isEmpty := by
          rw [bareEntries_map]; cases ms <;> rfl
        have e3 : (keptEntries info.ordered ms).map ((fun m : Str × J => (m.1, fun c => nativeElem (doSkip g) info.ordered kids c m.2)) ∘
            fun m => (m.1, bare info.ordered (.cont false kids) m.2)) =
            (keptEntries info.ordered ms).map fun m => (m.1, fun c => nativeElem (doSkip g) info.ordered kids c m.2) := by
          apply List.map_congr_left
          intro m hm
          simp only [Function.comp_def, Prod.mk.injEq, true_and]
          funext c
          exact nElem_bare ((ih m (kept_sub hm)).2) c
        rw [e3, e1, e2]
        rfl
      | _ => simp [bare]
    | _ =>
      refine ⟨?_, by simp⟩
      intro over S own c
      cases S <;> simp [bare]
  exact main.1

theorem mem_bareMembers {o : Bool} {kids : List (Meta × Schema)} {ms : List (Str × J)} {y : Str × J} (h : y ∈ bareMembers o kids ms) :
    (o = true ∧ y.1 = yangOrder) ∨ ∃ x ∈ ms, ∃ k, childOf kids x.1 = some k ∧ y = (x.1, bare false k.2 x.2) := by
  induction ms with
  | nil => simp [bareMembers] at h
  | cons x ms ih =>
    have next : y ∈ bareMembers o kids ms → (o = true ∧ y.1 = yangOrder) ∨ ∃ z ∈ x :: ms, ∃ k, childOf kids z.1 = some k ∧ y = (z.1, bare false k.2 z.2) := by
      intro h
      rcases ih h with h | ⟨z, h1, h2⟩
      · exact .inl h
      · exact .inr ⟨z, by simp [h1], h2⟩
    rw [bareMembers_cons] at h
    split at h
    · rcases List.mem_cons.1 h with rfl | h
      · exact .inl (by assumption)
      · exact next h
    · split at h
      · rename_i k hk
        rcases List.mem_cons.1 h with rfl | h
        · exact .inr ⟨x, by simp, k, hk, rfl⟩
        · exact next h
      · exact next h

/-- Nothing unknown is left. -/
theorem bare_clean (j : J) : ∀ o S, ¬ NUnknown o S (bare o S j) := by
  have main : (∀ S, ¬ NUnknown false S (bare false S j)) ∧ ∀ o kids, ¬ NUnknown o (.cont false kids) (bare o (.cont false kids) j) := by
    induction j using J.ind with
    | hobj ms ih =>
      have hc : ∀ o pres kids, ¬ NUnknown o (.cont pres kids) (bare o (.cont pres kids) (.obj ms)) := by
        intro o pres kids
        rw [bare_obj]
        intro h
        cases h with
        | here h1 h2 h3 =>
          rcases mem_bareMembers h1 with h | ⟨x, _, k, hk, rfl⟩
          · exact h2 h
          · rw [hk] at h3; simp at h3
        | inside h1 h2 h3 h4 =>
          rcases mem_bareMembers h1 with h | ⟨x, hx, k, hk, rfl⟩
          · exact h2 h
          · rw [hk] at h3
            simp only [Option.some.injEq] at h3; subst h3
            exact (ih x hx).1 _ h4
      refine ⟨?_, fun o kids => hc o false kids⟩
      intro S
      cases S with
      | cont pres kids => exact hc _ _ _
      | list info kids =>
        rw [bare, bareEntries_map]
        intro h
        cases h with
        | entry h1 h2 =>
          obtain ⟨x, hx, rfl⟩ := List.mem_map.1 h1
          exact (ih x hx).2 _ _ h2
      | _ => intro h; cases h
    | _ =>
      refine ⟨?_, ?_⟩
      · intro S h; cases S <;> simp only [bare] at h <;> cases h
      · intro o kids h; simp only [bare] at h; cases h
  intro o S
  cases S with
  | cont pres kids =>
    by_cases h : ∃ ms, j = .obj ms
    · obtain ⟨ms, rfl⟩ := h
      have := main.2 o kids
      rw [bare_obj] at this ⊢
      intro h
      apply this
      cases h with
      | here a b c => exact .here a b c
      | inside a b c d => exact .inside a b c d
    · rw [bare_other _ _ _ _ fun ms e => h ⟨ms, e⟩]
      intro h'
      cases h' <;> exact h ⟨_, rfl⟩
  | list info kids =>
    have := main.1 (.list info kids)
    have e : bare o (.list info kids) j = bare false (.list info kids) j := by cases j <;> simp [bare]
    rw [e]
    intro h
    apply this
    generalize bare false (.list info kids) j = x at h
    cases h with
    | entry a b => exact .entry a b
  | leaf L => intro h; generalize bare o (.leaf L) j = x at h; cases h
  | leafList L => intro h; generalize bare o (.leafList L) j = x at h; cases h

end Pyb
