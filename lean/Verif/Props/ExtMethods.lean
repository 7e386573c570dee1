import Verif.Model.ExtMethods
import Verif.Props.Names

/-! # Extension methods (C89) -/

namespace Spec
open Py Pyb

/-- The text users register methods under: the names of the nodes from the root, without
list keys. -/
def schemaText (names : List Str) : Str := if names = [] then ['/'] else names.flatMap ('/' :: ·)

/-- An instance path: names, each followed by the keys if it is an entry. -/
def InstPath (steps : List (Str × Str)) : Prop :=
  ∀ s ∈ steps, s.1 ≠ [] ∧ '[' ∉ s.1 ∧ '/' ∉ s.1 ∧ (s.2 = [] ∨ s.2.head? = some '[')

/-- The attributes an object has anyway. -/
def Already (inherited : List Str) (n : Str) : Prop := n ∈ ownAttrs ∨ n ∈ classAttrs ∨ n ∈ inherited

/-- A method users registered: it can be called, and its name does not start with an
underscore. -/
def Offered {V R : Type} (ms : List (Str × ExtAttr V R)) (m : Str) (f : Call V → R) : Prop := (m, .call f) ∈ ms ∧ m.head? ≠ some '_'

end Spec

namespace Pyb
open Py Spec

theorem join_schema : ∀ names : List Str, '/' :: join py!"/" names = schemaText names
  | [] => rfl
  | [a] => by simp [schemaText, join]
  | a :: b :: r => by
    have := join_schema (b :: r)
    simp only [schemaText, reduceCtorEq, if_false, join, List.flatMap_cons] at this ⊢
    rw [← this]
    simp

/-- C89: methods are looked up under the schema path of the object. -/
theorem C89_path {V R : Type} (ext : List (Str × List (Str × ExtAttr V R))) (holder : Bool) (inherited : List Str) (steps : List (Str × Str))
    (hs : InstPath steps) (c h : V) :
    (ext.lookup (schemaText (steps.map Prod.fst)) = none → bindExt ext holder inherited (steps.map fun s => s.1 ++ s.2) c h = .ok []) ∧
    (∀ ms, ext.lookup (schemaText (steps.map Prod.fst)) = some ms →
      ∀ ext' : List (Str × List (Str × ExtAttr V R)), ext'.lookup (schemaText (steps.map Prod.fst)) = some ms →
      bindExt ext holder inherited (steps.map fun s => s.1 ++ s.2) c h = bindExt ext' holder inherited (steps.map fun s => s.1 ++ s.2) c h) := by
  have e : chkPath (steps.map fun s => s.1 ++ s.2) = schemaText (steps.map Prod.fst) := by
    unfold chkPath
    rw [C05_remove_path_attributes steps (fun s hs' => (hs s hs').2.1) (fun s hs' => (hs s hs').2.2.2), join_schema]
  constructor
  · intro h
    simp [bindExt, e, h]
  · intro ms h ext' h'
    simp [bindExt, e, h, h']

theorem schemaText_cut (a b s t : Str) (ha : '/' ∉ a) (hb : '/' ∉ b) (hs : s = [] ∨ s.head? = some '/') (ht : t = [] ∨ t.head? = some '/')
    (h : a ++ s = b ++ t) : a = b ∧ s = t := by
  induction a generalizing b with
  | nil =>
    cases b with
    | nil => exact ⟨rfl, h⟩
    | cons y b =>
      simp only [List.nil_append, List.cons_append] at h
      subst h
      rcases hs with hs | hs
      · simp at hs
      · simp only [List.head?_cons, Option.some.injEq] at hs
        subst hs
        simp at hb
  | cons x a ih =>
    cases b with
    | nil =>
      simp only [List.nil_append, List.cons_append] at h
      subst h
      rcases ht with ht | ht
      · simp at ht
      · simp only [List.head?_cons, Option.some.injEq] at ht
        subst ht
        simp at ha
    | cons y b =>
      simp only [List.cons_append, List.cons.injEq] at h
      obtain ⟨h1, h2⟩ := ih b (fun h => ha (by simp [h])) (fun h => hb (by simp [h])) h.2
      exact ⟨by rw [h.1, h1], h2⟩

/-- C89: different nodes have different schema paths, so that methods of one are not those of
another. -/
theorem C89_path_unique : ∀ (p q : List Str), (∀ n ∈ p, n ≠ [] ∧ '/' ∉ n) → (∀ n ∈ q, n ≠ [] ∧ '/' ∉ n) → schemaText p = schemaText q → p = q := by
  have tail : ∀ r : List Str, r.flatMap ('/' :: ·) = [] ∨ (r.flatMap ('/' :: ·)).head? = some '/' := by
    intro r
    cases r with
    | nil => exact .inl rfl
    | cons => exact .inr rfl
  have flat : ∀ (p q : List Str), (∀ n ∈ p, n ≠ [] ∧ '/' ∉ n) → (∀ n ∈ q, n ≠ [] ∧ '/' ∉ n) →
      p.flatMap ('/' :: ·) = q.flatMap ('/' :: ·) → p = q := by
    intro p
    induction p with
    | nil =>
      intro q _ _ h
      cases q with
      | nil => rfl
      | cons b q => simp at h
    | cons a p ih =>
      intro q hp hq h
      cases q with
      | nil => simp at h
      | cons b q =>
        simp only [List.flatMap_cons, List.cons_append, List.cons.injEq, true_and] at h
        obtain ⟨rfl, h2⟩ := schemaText_cut a b _ _ (hp a (by simp)).2 (hq b (by simp)).2 (tail p) (tail q) h
        rw [ih q (fun n hn => hp n (by simp [hn])) (fun n hn => hq n (by simp [hn])) h2]
  intro p q hp hq h
  have root : ∀ r : List Str, (∀ n ∈ r, n ≠ [] ∧ '/' ∉ n) → r.flatMap ('/' :: ·) ≠ ['/'] := by
    intro r hr e
    cases r with
    | nil => simp at e
    | cons a r =>
      have := (hr a (by simp)).1
      simp [List.flatMap_cons] at e
      exact this e.1
  unfold schemaText at h
  by_cases e1 : p = [] <;> by_cases e2 : q = []
  · rw [e1, e2]
  · rw [if_pos e1, if_neg e2] at h
    exact absurd h.symm (root q hq)
  · rw [if_neg e1, if_pos e2] at h
    exact absurd h (root p hp)
  · rw [if_neg e1, if_neg e2] at h
    exact flat p q hp hq h

example : InstPath [(py!"item", []), (py!"if", py!"[name='a/[0]']"), (py!"mtu", [])] ∧
    schemaText ([(py!"item", []), (py!"if", py!"[name='a/[0]']"), (py!"mtu", [])].map (Prod.fst (β := Str))) = py!"/item/if/mtu" := by
  constructor
  · intro s hs
    simp at hs
    rcases hs with rfl | rfl | rfl <;> decide
  · decide

/-! ## Which methods -/

section
variable {V R : Type} {c h : V}

theorem hasAttr_false {inherited slots bound : List Str} {n : Str} (hs : n ∈ slots → ¬ n ∈ classAttrs ∧ ¬ n ∈ inherited) :
    hasAttr inherited slots bound n = false ↔ ¬ Already inherited n ∧ n ∉ bound := by
  simp only [hasAttr, Already, Bool.or_eq_false_iff, Bool.and_eq_false_iff, List.contains_eq_mem, decide_eq_false_iff_not, Bool.not_eq_false', decide_eq_true_eq]
  constructor
  · rintro ⟨⟨h1, h2⟩, h3⟩
    refine ⟨?_, h2⟩
    rintro (h | h | h)
    · exact h1 h
    · rcases h3 with h3 | h3
      · exact (hs h3).1 h
      · exact h3.1 h
    · rcases h3 with h3 | h3
      · exact (hs h3).2 h
      · exact h3.2 h
  · rintro ⟨h1, h2⟩
    refine ⟨⟨fun h => h1 (.inl h), h2⟩, ?_⟩
    exact .inr ⟨fun h => h1 (.inr (.inl h)), fun h => h1 (.inr (.inr h))⟩

/-- What the loop adds, if no method is called `method`. -/
theorem bindLoop_mem {inherited slots : List Str} (hs : ∀ n ∈ slots, ¬ n ∈ classAttrs ∧ ¬ n ∈ inherited) (hm : py!"_method" ∉ inherited) :
    ∀ {ms : List (Str × ExtAttr V R)} {bound : List (Str × (Call V → R))},
    (ms.map Prod.fst).Nodup → (∀ m ∈ ms, m.1 ≠ py!"method") → (∀ m ∈ ms, '_' :: m.1 ∉ bound.map Prod.fst) → py!"_method" ∉ bound.map Prod.fst →
    ∀ n g, (n, g) ∈ bindLoop c h inherited slots bound ms ↔ (n, g) ∈ bound ∨
      ∃ m f, (m, .call f) ∈ ms ∧ n = '_' :: m ∧ g = extFn c h f ∧ ¬ Already inherited n := by
  intro ms
  induction ms with
  | nil => intro bound _ _ _ _ n g; simp [bindLoop]
  | cons x ms ih =>
    intro bound hn hx hb hbm n g
    simp only [List.map_cons, List.nodup_cons] at hn
    have nomethod : hasAttr inherited slots (bound.map Prod.fst) py!"_method" = false :=
      (hasAttr_false (hs _)).2 ⟨by
        rintro (h | h | h)
        · revert h; decide
        · revert h; decide
        · exact hm h, hbm⟩
    have skip : bindLoop c h inherited slots bound (x :: ms) = bindLoop c h inherited slots bound ms →
        (∀ f, x.2 = .call f → Already inherited ('_' :: x.1)) →
        ((n, g) ∈ bindLoop c h inherited slots bound (x :: ms) ↔ (n, g) ∈ bound ∨
          ∃ m f, (m, .call f) ∈ x :: ms ∧ n = '_' :: m ∧ g = extFn c h f ∧ ¬ Already inherited n) := by
      intro e ha
      rw [e, ih hn.2 (fun m hm => hx m (by simp [hm])) (fun m hm => hb m (by simp [hm])) hbm]
      constructor
      · rintro (h1 | ⟨m, f, h1, h2⟩)
        · exact .inl h1
        · exact .inr ⟨m, f, by simp [h1], h2⟩
      · rintro (h1 | ⟨m, f, h1, h2, h3, h4⟩)
        · exact .inl h1
        · rcases List.mem_cons.1 h1 with h1 | h1
          · subst h1
            subst h2
            exact absurd (ha f rfl) h4
          · exact .inr ⟨m, f, h1, h2, h3, h4⟩
    cases hh : hasAttr inherited slots (bound.map Prod.fst) ('_' :: x.1) with
    | true =>
      refine skip (by simp [bindLoop, hh]) fun f _ => ?_
      by_cases ha : Already inherited ('_' :: x.1)
      · exact ha
      · have := (hasAttr_false (inherited := inherited) (slots := slots) (bound := bound.map Prod.fst) (hs _)).2 ⟨ha, hb x (by simp)⟩
        rw [this] at hh
        simp at hh
    | false =>
      obtain ⟨ha, _⟩ := (hasAttr_false (hs _)).1 hh
      cases hv : x.2 with
      | value v => exact skip (by simp [bindLoop, hh, hv]) (by simp [hv])
      | call f =>
        have e : bindLoop c h inherited slots bound (x :: ms) = bindLoop c h inherited slots (bound ++ [('_' :: x.1, extFn c h f)]) ms := by
          simp only [bindLoop, hh, Bool.false_eq_true, if_false, hv, nomethod]
        rw [e, ih hn.2 (fun m hm => hx m (by simp [hm])) ?_ ?_]
        · simp only [List.mem_append, List.mem_singleton, Prod.mk.injEq]
          constructor
          · rintro ((h1 | ⟨rfl, rfl⟩) | ⟨m, f', h1, h2⟩)
            · exact .inl h1
            · exact .inr ⟨x.1, f, by rw [← hv]; simp, rfl, rfl, ha⟩
            · exact .inr ⟨m, f', by simp [h1], h2⟩
          · rintro (h1 | ⟨m, f', h1, h2, h3, h4⟩)
            · exact .inl (.inl h1)
            · rcases List.mem_cons.1 h1 with h1 | h1
              · subst h1
                simp only [ExtAttr.call.injEq] at hv
                subst hv
                exact .inl (.inr ⟨h2, h3⟩)
              · exact .inr ⟨m, f', h1, h2, h3, h4⟩
        · intro m hm'
          simp only [List.map_append, List.map_cons, List.map_nil, List.mem_append, List.mem_singleton, List.cons.injEq, true_and, not_or]
          exact ⟨hb m (by simp [hm']), fun e => hn.1 (by rw [← e]; exact List.mem_map_of_mem hm')⟩
        · simp only [List.map_append, List.map_cons, List.map_nil, List.mem_append, List.mem_singleton, List.cons.injEq, true_and, not_or]
          exact ⟨hbm, fun e => hx x (by simp) e.symm⟩

end

/-- C89: a leaf or leaf-list gets exactly the methods registered for its schema path, with an
underscore in front, except those with the name of an attribute it has anyway.

Missing: methods called `method`; containers, lists and entries are below. -/
theorem C89_leaf_partial {V R : Type} (ext : List (Str × List (Str × ExtAttr V R))) (inherited : List Str) (hi : py!"_method" ∉ inherited)
    (steps : List (Str × Str)) (hs : InstPath steps) (c h : V) (ms : List (Str × ExtAttr V R))
    (hl : ext.lookup (schemaText (steps.map Prod.fst)) = some ms) (hn : (ms.map Prod.fst).Nodup) (hm : ∀ m ∈ ms, m.1 ≠ py!"method") :
    ∃ bound, bindExt ext false inherited (steps.map fun s => s.1 ++ s.2) c h = .ok bound ∧
      ∀ n g, (n, g) ∈ bound ↔ ∃ m f, Offered ms m f ∧ n = '_' :: m ∧ ¬ Already inherited n ∧ g = extFn c h f := by
  have e : chkPath (steps.map fun s => s.1 ++ s.2) = schemaText (steps.map Prod.fst) := by
    unfold chkPath
    rw [C05_remove_path_attributes steps (fun s hs' => (hs s hs').2.1) (fun s hs' => (hs s hs').2.2.2), join_schema]
  refine ⟨bindLoop c h inherited [] [] (publicAttrs ms), by simp only [bindExt, e, hl]; rfl, ?_⟩
  intro n g
  have sub : ∀ m ∈ publicAttrs ms, m ∈ ms := fun m hm => (List.mem_filter.1 hm).1
  rw [bindLoop_mem (by simp) hi (ms := publicAttrs ms) (List.Sublist.nodup (List.Sublist.map _ List.filter_sublist) hn) (fun m hm' => hm m (sub m hm')) (by simp) (by simp)]
  constructor
  · rintro (h1 | ⟨m, f, h1, h2, h3, h4⟩)
    · simp at h1
    · simp only [publicAttrs, List.mem_filter, bne_iff_ne] at h1
      exact ⟨m, f, h1, h2, h4, h3⟩
  · rintro ⟨m, f, h1, h2, h3, h4⟩
    refine .inr ⟨m, f, ?_, h2, h4, h3⟩
    simp only [publicAttrs, List.mem_filter, bne_iff_ne]
    exact h1

/-- C89: nothing a leaf has anyway is replaced. -/
theorem C89_leaf_kept {V R : Type} (ext : List (Str × List (Str × ExtAttr V R))) (inherited path : List Str) (c h : V) (n : Str) (g : Call V → R)
    (ha : Already inherited n) (bound : List (Str × (Call V → R))) (hb : bindExt ext false inherited path c h = .ok bound) : (n, g) ∉ bound := by
  have loop : ∀ (ms : List (Str × ExtAttr V R)) (bound : List (Str × (Call V → R))), n ∉ bound.map Prod.fst →
      (n, g) ∉ bindLoop c h inherited [] bound ms := by
    intro ms
    induction ms with
    | nil => intro bound hn hg; exact hn (List.mem_map_of_mem (f := Prod.fst) hg)
    | cons x ms ih =>
      intro bound hn
      simp only [bindLoop]
      split
      · exact ih bound hn
      · rename_i hh
        split
        · split
          · exact ih bound hn
          · refine ih _ ?_
            simp only [List.map_append, List.map_cons, List.map_nil, List.mem_append, List.mem_singleton, not_or]
            refine ⟨hn, ?_⟩
            rintro rfl
            refine hh ?_
            rcases ha with ha | ha | ha <;> simp [hasAttr, ha]
        · exact ih bound hn
  unfold bindExt at hb
  cases hl : ext.lookup (chkPath path) with
  | none => rw [hl] at hb; cases hb; simp
  | some ms =>
    rw [hl] at hb
    simp only [extSlots, Bool.false_eq_true, if_false, List.any_nil] at hb
    cases hb
    exact loop _ _ (by simp)

/-- C89: whatever is registered, a leaf keeps the attributes it has anyway. -/
theorem C89_leaf_has {V R : Type} (ext : List (Str × List (Str × ExtAttr V R))) (inherited path : List Str) (bound : List (Str × (Call V → R))) (n : Str)
    (ha : Already inherited n) : extHas ext false inherited path bound n = true := by
  have : ((ext.lookup (chkPath path)).map (extSlots false)).getD [] = [] := by
    cases ext.lookup (chkPath path) <;> rfl
  unfold extHas
  rw [this]
  rcases ha with ha | ha | ha <;> simp [hasAttr, ha]

/-- C89: a container, list or entry gets the methods registered for its schema path, if none
of the names registered, with an underscore in front, is one it has anyway.

Missing: names it has, see below; methods called `method`. -/
theorem C89_holder_partial {V R : Type} (ext : List (Str × List (Str × ExtAttr V R))) (inherited : List Str) (hi : py!"_method" ∉ inherited)
    (steps : List (Str × Str)) (hs : InstPath steps) (c h : V) (ms : List (Str × ExtAttr V R))
    (hl : ext.lookup (schemaText (steps.map Prod.fst)) = some ms) (hn : (ms.map Prod.fst).Nodup) (hm : ∀ m ∈ ms, m.1 ≠ py!"method")
    (hf : ∀ m ∈ ms, '_' :: m.1 ∉ classAttrs ∧ '_' :: m.1 ∉ inherited) :
    ∃ bound, bindExt ext true inherited (steps.map fun s => s.1 ++ s.2) c h = .ok bound ∧
      ∀ n g, (n, g) ∈ bound ↔ ∃ m f, Offered ms m f ∧ n = '_' :: m ∧ ¬ Already inherited n ∧ g = extFn c h f := by
  have e : chkPath (steps.map fun s => s.1 ++ s.2) = schemaText (steps.map Prod.fst) := by
    unfold chkPath
    rw [C05_remove_path_attributes steps (fun s hs' => (hs s hs').2.1) (fun s hs' => (hs s hs').2.2.2), join_schema]
  have sub : ∀ m ∈ publicAttrs ms, m ∈ ms := fun m hm => (List.mem_filter.1 hm).1
  have hslots : ∀ n ∈ (publicAttrs ms).map (fun m => '_' :: m.1), ¬ n ∈ classAttrs ∧ ¬ n ∈ inherited := by
    intro n hn
    obtain ⟨m, hm', rfl⟩ := List.mem_map.1 hn
    exact hf m (sub m hm')
  have hany : ((publicAttrs ms).map fun m => '_' :: m.1).any classAttrs.contains = false := by
    rw [List.any_eq_false]
    intro n hn
    simpa using (hslots n hn).1
  refine ⟨bindLoop c h inherited ((publicAttrs ms).map fun m => '_' :: m.1) [] (publicAttrs ms), by simp only [bindExt, extSlots, e, hl, if_true, hany, Bool.false_eq_true, if_false], ?_⟩
  intro n g
  rw [bindLoop_mem hslots hi (ms := publicAttrs ms) (List.Sublist.nodup (List.Sublist.map _ List.filter_sublist) hn) (fun m hm' => hm m (sub m hm')) (by simp) (by simp)]
  constructor
  · rintro (h1 | ⟨m, f, h1, h2, h3, h4⟩)
    · simp at h1
    · simp only [publicAttrs, List.mem_filter, bne_iff_ne] at h1
      exact ⟨m, f, h1, h2, h4, h3⟩
  · rintro ⟨m, f, h1, h2, h3, h4⟩
    refine .inr ⟨m, f, ?_, h2, h4, h3⟩
    simp only [publicAttrs, List.mem_filter, bne_iff_ne]
    exact h1

/-! ## Calling them -/

theorem kwSet_lookup {V : Type} (k n : Str) (v : V) (xs : List (Str × V)) : (kwSet k v xs).lookup n = if n = k then some v else xs.lookup n := by
  induction xs with
  | nil =>
    by_cases h : n = k
    · simp [kwSet, h]
    · have : (n == k) = false := by simpa using h
      simp [kwSet, List.lookup_cons, h, this]
  | cons x xs ih =>
    obtain ⟨a, w⟩ := x
    simp only [kwSet]
    by_cases hx : a = k
    · subst hx
      simp only [if_true, List.lookup_cons]
      by_cases h : n = a
      · simp [h]
      · have : (n == a) = false := by simpa using h
        simp [h, this]
    · rw [if_neg hx, List.lookup_cons, List.lookup_cons, ih]
      by_cases h : n = k
      · subst h
        have : (n == a) = false := by simpa using fun e => hx e.symm
        simp [this]
      · simp [h]

/-- C89: a method is called with the arguments it was given, and the path and the path helper
of the object as `caller` and `path_helper`. -/
theorem C89_call {V R : Type} (c h : V) (f : Call V → R) (args : List V) (kwargs : List (Str × V)) :
    ∃ kw, extFn c h f ⟨args, kwargs⟩ = f ⟨args, kw⟩ ∧ kw.lookup py!"caller" = some c ∧ kw.lookup py!"path_helper" = some h ∧
      ∀ n, n ≠ py!"caller" → n ≠ py!"path_helper" → kw.lookup n = kwargs.lookup n := by
  refine ⟨_, rfl, ?_, ?_, ?_⟩
  · rw [kwSet_lookup, if_neg (by decide), kwSet_lookup, if_pos rfl]
  · rw [kwSet_lookup, if_pos rfl]
  · intro n h1 h2
    rw [kwSet_lookup, if_neg h2, kwSet_lookup, if_neg h1]

/-! ## The example -/

/-- Methods are told apart by what they return. -/
def demoExt : List (Str × List (Str × ExtAttr Nat Nat)) :=
  [(py!"/item/one", [(py!"__doc__", .value 0), (py!"commit", .call fun _ => 1), (py!"echo", .call fun c => c.args.length), (py!"limit", .value 7),
     (py!"path", .call fun _ => 2)]),
   (py!"/item", [(py!"commit", .call fun _ => 3)])]

def oneAttrs : List Str := [py!"_get_two"]

example : ((bindExt demoExt false oneAttrs [py!"item", py!"one"] 0 0).map fun b => b.map Prod.fst) = .ok [py!"_commit", py!"_echo"] := rfl
example : ((bindExt demoExt true oneAttrs [py!"item"] 0 0).map fun b => b.map Prod.fst) = .ok [py!"_commit"] := rfl
example : ((bindExt demoExt true oneAttrs [py!"item", py!"two"] 0 0).map fun b => b.map Prod.fst) = .ok [] := rfl

/-- The hypotheses of the theorems for it. -/
example : InstPath [(py!"item", []), (py!"one", [])] ∧ demoExt.lookup (schemaText [py!"item", py!"one"]) = demoExt.head?.map Prod.snd ∧
    (∀ ms ∈ demoExt, (ms.2.map Prod.fst).Nodup) ∧ py!"_method" ∉ oneAttrs := by
  refine ⟨?_, rfl, by decide, by decide⟩
  intro s hs
  simp at hs
  rcases hs with rfl | rfl <;> decide

/-! ## Where it fails -/

/-- C89 fails for a method called `method`: those after it in the alphabet are left out. -/
theorem C89_method_refuted :
    ((bindExt [(py!"/one", [(py!"commit", .call fun _ : Call Nat => 1), (py!"method", .call fun _ => 2), (py!"save", .call fun _ => 3)])]
      false [] [py!"one"] 0 0).map fun b => b.map Prod.fst) = .ok [py!"_commit", py!"_method"] := rfl

/-- A container has a method `_get_one` to get its child; one registered under the name
`get_one` takes its place, although it does not for a leaf. -/
theorem C89_accessor_refuted :
    ((bindExt [(py!"/item", [(py!"get_one", .call fun _ : Call Nat => 1)])] true [py!"_get_one", py!"_set_one"] [py!"item"] 0 0).map
      fun b => b.map Prod.fst) = .ok [py!"_get_one"] ∧
    ((bindExt [(py!"/item", [(py!"get_one", .call fun _ : Call Nat => 1)])] false [py!"_get_one", py!"_set_one"] [py!"item"] 0 0).map
      fun b => b.map Prod.fst) = .ok [] := ⟨rfl, rfl⟩

/-- The container loses the method without getting one in its place if what is registered
under the name cannot be called. -/
theorem C89_hidden_refuted :
    bindExt [(py!"/item", [(py!"get_one", ExtAttr.value (R := Nat) 7)])] true [py!"_get_one", py!"_set_one"] [py!"item"] 0 0 = .ok [] ∧
    extHas [(py!"/item", [(py!"get_one", ExtAttr.value (R := Nat) 7)])] true [py!"_get_one", py!"_set_one"] [py!"item"] [] py!"_get_one" = false ∧
    extHas [(py!"/item", [(py!"get_one", ExtAttr.value (R := Nat) 7)])] true [py!"_get_one", py!"_set_one"] [py!"item"] [] py!"_set_one" = true :=
  ⟨rfl, rfl, rfl⟩

/-- The names of methods, after their underscore, that all containers have. -/
def reservedNames : List Str :=
  [py!"pybind_base_class", py!"changed", py!"extensions", py!"path", py!"yang_path", py!"set", py!"add_metadata", py!"register_path", py!"set_present", py!"present"]

/-- A container for which a method called `set`, `path`, `present` … is registered cannot be
made. -/
theorem C89_reserved_refuted {V R : Type} (m : Str) (hr : m ∈ reservedNames) (f : Call V → R) (inherited : List Str) (c h : V) :
    bindExt [(py!"/item", [(m, .call f)])] true inherited [py!"item"] c h = .error .valueError := by
  have hm : '_' :: m ∈ classAttrs := (by decide : ∀ m ∈ reservedNames, '_' :: m ∈ classAttrs) m hr
  have hu : m.head? ≠ some '_' := by
    intro e
    cases m with
    | nil => simp at e
    | cons a m =>
      simp only [List.head?_cons, Option.some.injEq] at e
      subst e
      simp [classAttrs] at hm
  have e : chkPath [py!"item"] = py!"/item" := by decide
  have hf : (m.head? != some '_') = true := by simpa using hu
  simp only [bindExt, extSlots, e, List.lookup_cons, beq_self_eq_true, publicAttrs, List.filter_cons, hf, if_true, List.filter_nil, List.map_cons, List.map_nil,
    List.any_cons, List.contains_eq_mem, hm, decide_true, Bool.true_or]

example : py!"set" ∈ reservedNames := by decide

end Pyb
