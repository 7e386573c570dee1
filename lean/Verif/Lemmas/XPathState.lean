import Verif.Lemmas.XPathEval

namespace Pyb
open Py Spec

/-- The keys of an element. -/
def XElem.keys (e : XElem) : List (Str × Str) := e.attrs.tail

/-- `e` is the child of `e0` that the step names. -/
structure IsChild (es : List XElem) (e0 : XElem) (s : PStep) (e : XElem) : Prop where
  mem : e ∈ es
  par : e.parent = some e0.id
  tag : e.tag = s.tag
  keys : e.keys = s.keys

/-- `e` is at the path. -/
inductive At (es : List XElem) : List PStep → XElem → Prop where
  | root : At es [] rootElem
  | snoc (p e0 s e) : At es p e0 → IsChild es e0 s e → At es (p ++ [s]) e

/-- The invariant of the tree. -/
structure TreeOk (K : List Str → List Str) (es : List XElem) (next : Nat) : Prop where
  root : ∃ rest, es = rootElem :: rest
  ids : (es.map XElem.id).Nodup
  idlt : ∀ e ∈ es, e.id < next
  parent : ∀ e ∈ es, e = rootElem ∨ ∃ i, e.parent = some i ∧ i < next
  attrs : ∀ e ∈ es, e.attrs = (py!"obj_ptr", e.ptr) :: e.keys
  good : ∀ e ∈ es, (e.keys.map (·.1)).Nodup ∧ ∀ k ∈ e.keys, k.1 ≠ py!"obj_ptr"
  ptrlt : ∀ e ∈ es, e = rootElem ∨ ∃ n, e.ptr = uuidStr n ∧ n < next
  ptrs : (es.map XElem.ptr).Nodup
  uniq : ∀ e ∈ es, ∀ e' ∈ es, e.parent = e'.parent → e.tag = e'.tag → e.keys = e'.keys → e = e'
  conf : ∀ p e, At es p e → Conforms K [] p

theorem snoc_inj {α : Type} {a b : List α} {x y : α} (h : a ++ [x] = b ++ [y]) : a = b ∧ x = y := by
  have := List.append_inj' h rfl
  exact ⟨this.1, by simpa using this.2⟩

section
variable {K : List Str → List Str} {es : List XElem} {next : Nat}

theorem nodup_map_inj {α β : Type} {f : α → β} {l : List α} (h : (l.map f).Nodup) {x y : α} (hx : x ∈ l) (hy : y ∈ l) (e : f x = f y) : x = y := by
  induction l with
  | nil => cases hx
  | cons a l ih =>
    simp only [List.map_cons, List.nodup_cons] at h
    rcases List.mem_cons.1 hx with hx' | hx' <;> rcases List.mem_cons.1 hy with hy' | hy'
    · rw [hx', hy']
    · subst hx'; exact absurd (e ▸ List.mem_map_of_mem (f := f) hy') h.1
    · subst hy'; exact absurd (e ▸ List.mem_map_of_mem (f := f) hx') h.1
    · exact ih h.2 hx' hy'

theorem TreeOk.rootMem (h : TreeOk K es next) : rootElem ∈ es := by
  obtain ⟨r, hr⟩ := h.root
  simp [hr]

theorem At.mem (h : TreeOk K es next) {p : List PStep} {e : XElem} (ha : At es p e) : e ∈ es := by
  cases ha with
  | root => exact h.rootMem
  | snoc p e0 s e _ hc => exact hc.mem

theorem TreeOk.byId (h : TreeOk K es next) {e e' : XElem} (he : e ∈ es) (he' : e' ∈ es) (hi : e.id = e'.id) : e = e' :=
  nodup_map_inj h.ids he he' hi

theorem at_snoc {p : List PStep} {s : PStep} {e : XElem} (ha : At es (p ++ [s]) e) : ∃ e0, At es p e0 ∧ IsChild es e0 s e := by
  generalize hq : p ++ [s] = q at ha
  cases ha with
  | root => simp at hq
  | snoc p' e0 s' e h1 h2 =>
    obtain ⟨rfl, rfl⟩ := snoc_inj hq
    exact ⟨e0, h1, h2⟩

theorem at_unique (h : TreeOk K es next) {p : List PStep} {e : XElem} (ha : At es p e) : ∀ {e'}, At es p e' → e = e' := by
  induction ha with
  | root =>
    intro e' ha'
    generalize hq : ([] : List PStep) = q at ha'
    cases ha' with
    | root => rfl
    | snoc => simp at hq
  | snoc p e0 s e h1 h2 ih =>
    intro e' ha'
    obtain ⟨e1, h3, h4⟩ := at_snoc ha'
    have := ih h3
    subst this
    exact h.uniq e h2.mem e' h4.mem (h2.par.trans h4.par.symm) (h2.tag.trans h4.tag.symm) (h2.keys.trans h4.keys.symm)

theorem at_path_unique (h : TreeOk K es next) {p : List PStep} {e : XElem} (ha : At es p e) : ∀ {q}, At es q e → p = q := by
  induction ha with
  | root =>
    intro q hq
    cases hq with
    | root => rfl
    | snoc q e0 s _ h1 h2 => cases h2.par
  | snoc p e0 s e h1 h2 ih =>
    intro q hq
    cases hq with
    | root => cases h2.par
    | snoc q e1 s' _ h3 h4 =>
      have hid : e0.id = e1.id := Option.some.inj (h2.par.symm.trans h4.par)
      have := h.byId (h1.mem h) (h3.mem h) hid
      subst this
      rw [ih h3]
      have hs : s = s' := by
        have h5 := h2.tag.symm.trans h4.tag
        have h6 := h2.keys.symm.trans h4.keys
        cases s; cases s'
        simp at h5 h6
        rw [h5, h6]
      rw [hs]

theorem conforms_append {q : List Str} {p r : List PStep} (h : Conforms K q (p ++ r)) : Conforms K q p ∧ Conforms K (q ++ tags p) r := by
  induction p generalizing q with
  | nil => exact ⟨.nil q, by simpa [tags] using h⟩
  | cons s p ih =>
    cases h with
    | cons _ _ _ h1 h2 =>
      obtain ⟨h3, h4⟩ := ih h2
      exact ⟨.cons q s p h1 h3, by simpa [tags] using h4⟩

/-- An element fits a step of the schema if it is the one the step names. -/
theorem fits_iff (h : TreeOk K es next) {q : List PStep} {e0 e : XElem} (ha : At es q e0) (he : e ∈ es) (hp : e.parent = some e0.id) {s : PStep}
    (hs : s.keys.map (·.1) = K (tags q ++ [s.tag])) : fits e s.tag s.keys = true ↔ IsChild es e0 s e := by
  -- the keys of `e`
  have hk : e.tag = s.tag → e.keys.map (·.1) = s.keys.map (·.1) := by
    intro ht
    have hat : At es (q ++ [⟨e.tag, e.keys⟩]) e := .snoc q e0 _ e ha ⟨he, hp, rfl, rfl⟩
    have := (conforms_append (h.conf _ _ hat)).2
    cases this with
    | cons _ _ _ h1 _ =>
      simp only [List.nil_append] at h1
      rw [h1, hs, ht]
  have hat := h.attrs e he
  obtain ⟨hn, ho⟩ := h.good e he
  simp only [fits, Bool.and_eq_true, decide_eq_true_eq, List.all_eq_true]
  constructor
  · rintro ⟨ht, hall⟩
    refine ⟨he, hp, ht, ?_⟩
    -- the values agree as well
    have hkk := hk ht
    have hval : ∀ k ∈ s.keys, k ∈ e.keys := by
      intro k hks
      have hg := hall k hks
      rw [hat, Dict.get?_cons] at hg
      have hne : k.1 ≠ py!"obj_ptr" := by
        have : k.1 ∈ e.keys.map (·.1) := hkk ▸ List.mem_map_of_mem hks
        obtain ⟨k', hk', hke⟩ := List.mem_map.1 this
        exact hke ▸ ho k' hk'
      rw [if_neg (Ne.symm hne)] at hg
      exact Dict.mem_of_get? hg
    have : ∀ (l m : List (Str × Str)), l.map (·.1) = m.map (·.1) → (l.map (·.1)).Nodup → (∀ k ∈ m, k ∈ l) → l = m := by
      intro l
      induction l with
      | nil => intro m hm _ _; cases m with | nil => rfl | cons => simp at hm
      | cons a l ih =>
        intro m hm hnd hsub
        cases m with
        | nil => simp at hm
        | cons b m =>
          simp only [List.map_cons, List.cons.injEq] at hm
          have hab : b = a := by
            rcases List.mem_cons.1 (hsub b (by simp)) with h | h
            · exact h
            · refine absurd ?_ (List.nodup_cons.1 hnd).1
              show a.fst ∈ _
              rw [hm.1]
              exact List.mem_map_of_mem (f := Prod.fst) h
          subst hab
          rw [ih m hm.2 (List.nodup_cons.1 hnd).2 fun k hk => ?_]
          rcases List.mem_cons.1 (hsub k (List.mem_cons_of_mem _ hk)) with h | h
          · subst h
            refine absurd ?_ (List.nodup_cons.1 hnd).1
            rw [hm.2]
            exact List.mem_map_of_mem (f := Prod.fst) hk
          · exact h
    exact this e.keys s.keys hkk hn hval
  · intro hc
    refine ⟨hc.tag, fun k hks => ?_⟩
    rw [← hc.keys] at hks
    rw [hat, Dict.get?_cons]
    rw [if_neg (Ne.symm (ho k hks))]
    exact Dict.get?_of_mem hn hks

theorem filter_unique {α : Type} {l : List α} {p : α → Bool} (hn : l.Nodup) {x : α} (hx : x ∈ l) (hp : p x = true)
    (hu : ∀ y ∈ l, p y = true → y = x) : l.filter p = [x] := by
  induction l with
  | nil => cases hx
  | cons a l ih =>
    have hn' := List.nodup_cons.1 hn
    rcases List.mem_cons.1 hx with rfl | hx
    · have : l.filter p = [] := by
        rw [List.filter_eq_nil_iff]
        intro y hy hpy
        have := hu y (by simp [hy]) hpy
        subst this
        exact hn'.1 hy
      simp [hp, this]
    · have hpa : p a = false := by
        apply Bool.eq_false_iff.2
        intro hpa
        have := hu a (by simp) hpa
        subst this
        exact hn'.1 hx
      simp only [List.filter_cons, hpa, Bool.false_eq_true, if_false]
      exact ih hn'.2 hx fun y hy => hu y (by simp [hy])

theorem nodup_of_map' {α β : Type} (f : α → β) {l : List α} (h : (l.map f).Nodup) : l.Nodup := by
  induction l with
  | nil => simp
  | cons a l ih =>
    simp only [List.map_cons, List.nodup_cons] at h ⊢
    exact ⟨fun hm => h.1 (List.mem_map_of_mem (f := f) hm), ih h.2⟩

/-- One step from one element. -/
theorem step_one (h : TreeOk K es next) {q : List PStep} {e0 : XElem} (ha : At es q e0) {s : PStep}
    (hs : s.keys.map (·.1) = K (tags q ++ [s.tag])) :
    (∃ e, IsChild es e0 s e ∧ evalStep es [e0] (toXStep s) = [e]) ∨
    ((∀ e, ¬ IsChild es e0 s e) ∧ evalStep es [e0] (toXStep s) = []) := by
  have hev : evalStep es [e0] (toXStep s) = es.filter fun e => e.parent = some e0.id && fits e s.tag s.keys := by
    simp [evalStep, toXStep]
  rw [hev]
  by_cases hex : ∃ e, IsChild es e0 s e
  · obtain ⟨e, hc⟩ := hex
    refine .inl ⟨e, hc, filter_unique (nodup_of_map' _ h.ids) hc.mem ?_ ?_⟩
    · simp [hc.par, (fits_iff h ha hc.mem hc.par hs).2 hc]
    · intro y hy hp
      simp only [Bool.and_eq_true, decide_eq_true_eq] at hp
      have hcy := (fits_iff h ha hy hp.1 hs).1 hp.2
      exact h.uniq y hy e hc.mem (hcy.par.trans hc.par.symm) (hcy.tag.trans hc.tag.symm) (hcy.keys.trans hc.keys.symm)
  · refine .inr ⟨fun e he => hex ⟨e, he⟩, ?_⟩
    rw [List.filter_eq_nil_iff]
    intro y hy hp
    simp only [Bool.and_eq_true, decide_eq_true_eq] at hp
    exact hex ⟨y, (fits_iff h ha hy hp.1 hs).1 hp.2⟩

theorem eval_nil (xs : List XStep) (hx : ∀ x ∈ xs, ∃ s, x = toXStep s) : xs.foldl (evalStep es) [] = [] := by
  induction xs with
  | nil => rfl
  | cons x xs ih =>
    obtain ⟨s, rfl⟩ := hx x (by simp)
    have : evalStep es [] (toXStep s) = [] := rfl
    rw [List.foldl_cons, this]
    exact ih fun y hy => hx y (by simp [hy])

/-- The lookup of a path of the schema gives the element there. -/
theorem eval_path (h : TreeOk K es next) : ∀ (p q : List PStep) (e0 : XElem), At es q e0 → Conforms K (tags q) p →
    (∃ e, At es (q ++ p) e ∧ (p.map toXStep).foldl (evalStep es) [e0] = [e]) ∨
    ((∀ e, ¬ At es (q ++ p) e) ∧ (p.map toXStep).foldl (evalStep es) [e0] = []) := by
  intro p
  induction p with
  | nil => intro q e0 ha _; exact .inl ⟨e0, by simpa using ha, rfl⟩
  | cons s p ih =>
    intro q e0 ha hc
    cases hc with
    | cons _ _ _ h1 h2 =>
      rcases step_one h ha h1 with ⟨e, hce, hev⟩ | ⟨hno, hev⟩
      · have ha' : At es (q ++ [s]) e := .snoc q e0 s e ha hce
        have ht : tags (q ++ [s]) = tags q ++ [s.tag] := by simp [tags]
        have := ih (q ++ [s]) e ha' (by rw [ht]; exact h2)
        simpa [hev] using this
      · refine .inr ⟨?_, ?_⟩
        · intro e he
          have e1 : q ++ s :: p = (q ++ [s]) ++ p := by simp
          rw [e1] at he
          obtain ⟨e', he'⟩ := at_prefix p (q ++ [s]) e he
          obtain ⟨e0', h3, h4⟩ := at_snoc he'
          have := at_unique h ha h3
          subst this
          exact hno e' h4
        · rw [List.map_cons, List.foldl_cons, hev]
          apply eval_nil
          intro x hx
          obtain ⟨s, _, rfl⟩ := List.mem_map.1 hx
          exact ⟨s, rfl⟩
where
  at_prefix : ∀ (r p : List PStep) (e : XElem), At es (p ++ r) e → ∃ e', At es p e' := by
    intro r
    induction r with
    | nil => intro p e he; exact ⟨e, by simpa using he⟩
    | cons s r ih =>
      intro p e he
      obtain ⟨e', he'⟩ := ih (p ++ [s]) e (by simpa using he)
      obtain ⟨e0, h1, _⟩ := at_snoc he'
      exact ⟨e0, h1⟩

end
end Pyb
