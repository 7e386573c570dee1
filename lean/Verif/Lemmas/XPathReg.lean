import Verif.Lemmas.XPathState

namespace Pyb
open Py Spec

theorem uuidStr_inj {a b : Nat} (h : uuidStr a = uuidStr b) : a = b := natStr_injective (List.cons.inj h).2

theorem uuidStr_root (n : Nat) : uuidStr n ≠ py!"root" := by
  intro h
  have := (List.cons.inj h).1
  revert this
  decide

theorem rootElem_ptr : rootElem.ptr = py!"root" := rfl
theorem rootElem_keys : rootElem.keys = [] := rfl

section
variable {K : List Str → List Str} {es : List XElem} {next : Nat}

theorem TreeOk.ptr_ne (h : TreeOk K es next) {e : XElem} (he : e ∈ es) {n : Nat} (hn : next ≤ n) : e.ptr ≠ uuidStr n := by
  intro hp
  rcases h.ptrlt e he with rfl | ⟨m, hm, hlt⟩
  · exact uuidStr_root n (by rw [← hp]; rfl)
  · have := uuidStr_inj (hm.symm.trans hp)
    omega

theorem TreeOk.mono (h : TreeOk K es next) {next' : Nat} (hn : next ≤ next') : TreeOk K es next' where
  root := h.root
  ids := h.ids
  idlt := fun e he => Nat.lt_of_lt_of_le (h.idlt e he) hn
  parent := fun e he => by
    rcases h.parent e he with h | ⟨i, hi, hlt⟩
    · exact .inl h
    · exact .inr ⟨i, hi, by omega⟩
  attrs := h.attrs
  good := h.good
  ptrlt := fun e he => by
    rcases h.ptrlt e he with h | ⟨i, hi, hlt⟩
    · exact .inl h
    · exact .inr ⟨i, hi, by omega⟩
  ptrs := h.ptrs
  uniq := h.uniq
  conf := h.conf

theorem treeOk_new (K : List Str → List Str) : TreeOk K [rootElem] 1 where
  root := ⟨[], rfl⟩
  ids := by simp
  idlt := by simp [rootElem]
  parent := fun e he => .inl (List.mem_singleton.1 he)
  attrs := by
    intro e he
    rw [List.mem_singleton.1 he]
    rfl
  good := by
    intro e he
    rw [List.mem_singleton.1 he, rootElem_keys]
    simp
  ptrlt := fun e he => .inl (List.mem_singleton.1 he)
  ptrs := by simp
  uniq := by
    intro e he e' he' _ _ _
    rw [List.mem_singleton.1 he, List.mem_singleton.1 he']
  conf := by
    intro p e ha
    cases ha with
    | root => exact .nil []
    | snoc p e0 s e h1 h2 =>
      have := List.mem_singleton.1 h2.mem
      subst this
      cases h2.par

/-! ## A new element -/

theorem isChild_mono {es' : List XElem} (hs : ∀ e ∈ es, e ∈ es') {e0 s e} (h : IsChild es e0 s e) : IsChild es' e0 s e :=
  ⟨hs _ h.mem, h.par, h.tag, h.keys⟩

theorem at_mono {es' : List XElem} (hs : ∀ e ∈ es, e ∈ es') {p e} (h : At es p e) : At es' p e := by
  induction h with
  | root => exact .root
  | snoc p e0 s e _ h2 ih => exact .snoc p e0 s e ih (isChild_mono hs h2)

/-- The new element. -/
def newElem (i : Nat) (par : XElem) (s : PStep) (u : Nat) : XElem :=
  { id := i, parent := some par.id, tag := s.tag, attrs := (py!"obj_ptr", uuidStr u) :: s.keys }

theorem newElem_ptr (i par s u) : (newElem i par s u).ptr = uuidStr u := by
  simp [newElem, XElem.ptr, Dict.get?_cons]

theorem newElem_keys (i par s u) : (newElem i par s u).keys = s.keys := rfl

theorem at_add (h : TreeOk K es next) {p0 : List PStep} {par : XElem} (hpar : At es p0 par) (s : PStep) {i u : Nat} (hi : next ≤ i)
    {q : List PStep} {x : XElem} :
    At (es ++ [newElem i par s u]) q x ↔ At es q x ∨ (q = p0 ++ [s] ∧ x = newElem i par s u) := by
  constructor
  · intro ha
    induction ha with
    | root => exact .inl .root
    | snoc q e0 t e h1 h2 ih =>
      -- the new element has no children
      have hpl : e0 ≠ newElem i par s u := by
        intro he
        rcases List.mem_append.1 h2.mem with hm | hm
        · rcases h.parent e hm with rfl | ⟨j, hj, hlt⟩
          · cases h2.par
          · have := Option.some.inj (hj.symm.trans h2.par)
            rw [he] at this
            simp only [newElem] at this
            omega
        · have := List.mem_singleton.1 hm
          have hp := h2.par
          rw [this, he] at hp
          simp only [newElem, Option.some.injEq] at hp
          have := h.idlt par (hpar.mem h)
          omega
      rcases ih with ih | ⟨_, ih⟩
      · rcases List.mem_append.1 h2.mem with hm | hm
        · exact .inl (.snoc q e0 t e ih ⟨hm, h2.par, h2.tag, h2.keys⟩)
        · have he := List.mem_singleton.1 hm
          subst he
          have hid : par.id = e0.id := Option.some.inj h2.par
          have := h.byId (hpar.mem h) (ih.mem h) hid
          subst this
          refine .inr ⟨?_, rfl⟩
          rw [at_path_unique h ih hpar]
          have h5 := h2.tag
          have h6 := h2.keys
          cases s; cases t
          simp only [newElem, XElem.keys, List.tail_cons] at h5 h6
          rw [h5, h6]
      · exact absurd ih hpl
  · rintro (ha | ⟨rfl, rfl⟩)
    · exact at_mono (fun e he => List.mem_append_left _ he) ha
    · exact .snoc p0 par s _ (at_mono (fun e he => List.mem_append_left _ he) hpar) ⟨by simp, rfl, rfl, rfl⟩

theorem treeOk_add (h : TreeOk K es next) {p0 : List PStep} {par : XElem} (hpar : At es p0 par) {s : PStep} (hs : s.Good)
    (hc : Conforms K [] (p0 ++ [s])) (hno : ∀ e, ¬ At es (p0 ++ [s]) e) {i u : Nat} (hi : next ≤ i) (hu : next ≤ u) (hui : u ≤ i) :
    TreeOk K (es ++ [newElem i par s u]) (i + 1) where
  root := by
    obtain ⟨r, hr⟩ := h.root
    exact ⟨r ++ [newElem i par s u], by simp [hr]⟩
  ids := by
    rw [List.map_append, List.nodup_append]
    refine ⟨h.ids, by simp, ?_⟩
    intro a ha b hb
    obtain ⟨e, he, rfl⟩ := List.mem_map.1 ha
    have := h.idlt e he
    simp [newElem] at hb
    omega
  idlt := by
    intro e he
    rcases List.mem_append.1 he with he | he
    · have := h.idlt e he; omega
    · rw [List.mem_singleton.1 he]; simp [newElem]
  parent := by
    intro e he
    rcases List.mem_append.1 he with he | he
    · rcases h.parent e he with h1 | ⟨j, hj, hlt⟩
      · exact .inl h1
      · exact .inr ⟨j, hj, by omega⟩
    · refine .inr ⟨par.id, by rw [List.mem_singleton.1 he]; rfl, ?_⟩
      have := h.idlt par (hpar.mem h)
      omega
  attrs := by
    intro e he
    rcases List.mem_append.1 he with he | he
    · exact h.attrs e he
    · rw [List.mem_singleton.1 he, newElem_ptr]; rfl
  good := by
    intro e he
    rcases List.mem_append.1 he with he | he
    · exact h.good e he
    · rw [List.mem_singleton.1 he, newElem_keys]
      exact ⟨hs.nodup, fun k hk => (hs.names k hk).2.2⟩
  ptrlt := by
    intro e he
    rcases List.mem_append.1 he with he | he
    · rcases h.ptrlt e he with h1 | ⟨j, hj, hlt⟩
      · exact .inl h1
      · exact .inr ⟨j, hj, by omega⟩
    · exact .inr ⟨u, by rw [List.mem_singleton.1 he, newElem_ptr], by omega⟩
  ptrs := by
    rw [List.map_append, List.nodup_append]
    refine ⟨h.ptrs, by simp, ?_⟩
    intro a ha b hb
    obtain ⟨e, he, rfl⟩ := List.mem_map.1 ha
    simp only [List.map_cons, List.map_nil, List.mem_singleton, newElem_ptr] at hb
    rw [hb]
    exact h.ptr_ne he hu
  uniq := by
    have key : ∀ e ∈ es, e.parent = (newElem i par s u).parent → e.tag = (newElem i par s u).tag → e.keys = (newElem i par s u).keys → False := by
      intro e he h1 h2 h3
      exact hno e (.snoc p0 par s e hpar ⟨he, h1, h2, h3⟩)
    intro e he e' he' h1 h2 h3
    rcases List.mem_append.1 he with he | he <;> rcases List.mem_append.1 he' with he' | he'
    · exact h.uniq e he e' he' h1 h2 h3
    · rw [List.mem_singleton.1 he'] at h1 h2 h3
      exact (key e he h1 h2 h3).elim
    · rw [List.mem_singleton.1 he] at h1 h2 h3
      exact (key e' he' h1.symm h2.symm h3.symm).elim
    · rw [List.mem_singleton.1 he, List.mem_singleton.1 he']
  conf := by
    intro p e ha
    rcases (at_add h hpar s hi).1 ha with ha | ⟨rfl, _⟩
    · exact h.conf p e ha
    · exact hc

/-! ## A new pointer -/

/-- The element with another pointer. -/
def rePtr (e : XElem) (u : Nat) (x : XElem) : XElem := if x.id = e.id then { x with attrs := x.attrs.set py!"obj_ptr" (uuidStr u) } else x

theorem rePtr_id (e u x) : (rePtr e u x).id = x.id := by unfold rePtr; split <;> rfl
theorem rePtr_parent (e u x) : (rePtr e u x).parent = x.parent := by unfold rePtr; split <;> rfl
theorem rePtr_tag (e u x) : (rePtr e u x).tag = x.tag := by unfold rePtr; split <;> rfl

theorem rePtr_attrs {e : XElem} {u : Nat} {x : XElem} (h : x.attrs = (py!"obj_ptr", x.ptr) :: x.keys) :
    (rePtr e u x).attrs = (py!"obj_ptr", if x.id = e.id then uuidStr u else x.ptr) :: x.keys := by
  unfold rePtr
  split
  · simp only []
    rw [h]
    simp [Dict.set]
  · exact h

theorem rePtr_keys {e : XElem} {u : Nat} {x : XElem} (h : x.attrs = (py!"obj_ptr", x.ptr) :: x.keys) : (rePtr e u x).keys = x.keys := by
  unfold XElem.keys
  rw [rePtr_attrs h]
  rfl

theorem rePtr_ptr {e : XElem} {u : Nat} {x : XElem} (h : x.attrs = (py!"obj_ptr", x.ptr) :: x.keys) :
    (rePtr e u x).ptr = if x.id = e.id then uuidStr u else x.ptr := by
  unfold XElem.ptr
  rw [rePtr_attrs h]
  simp [Dict.get?_cons, XElem.ptr]

theorem rePtr_root {e : XElem} (h : TreeOk K es next) (he : e ∈ es) (hne : e ≠ rootElem) (u : Nat) : rePtr e u rootElem = rootElem := by
  unfold rePtr
  rw [if_neg]
  exact fun hid => hne (h.byId he h.rootMem hid.symm)

theorem at_rePtr (h : TreeOk K es next) {e : XElem} (he : e ∈ es) (hne : e ≠ rootElem) (u : Nat) {q : List PStep} {y : XElem} :
    At (es.map (rePtr e u)) q y ↔ ∃ x, At es q x ∧ y = rePtr e u x := by
  constructor
  · intro ha
    induction ha with
    | root => exact ⟨rootElem, .root, (rePtr_root h he hne u).symm⟩
    | snoc q e0 s y h1 h2 ih =>
      obtain ⟨x0, hx0, rfl⟩ := ih
      obtain ⟨x, hx, rfl⟩ := List.mem_map.1 h2.mem
      refine ⟨x, .snoc q x0 s x hx0 ⟨hx, ?_, ?_, ?_⟩, rfl⟩
      · have := h2.par
        rwa [rePtr_parent, rePtr_id] at this
      · rw [← h2.tag, rePtr_tag]
      · rw [← h2.keys, rePtr_keys (h.attrs x hx)]
  · rintro ⟨x, hx, rfl⟩
    induction hx with
    | root => rw [rePtr_root h he hne]; exact .root
    | snoc q e0 s x h1 h2 ih =>
      refine .snoc q _ s _ ih ⟨List.mem_map_of_mem h2.mem, ?_, ?_, ?_⟩
      · rw [rePtr_parent, rePtr_id]; exact h2.par
      · rw [rePtr_tag]; exact h2.tag
      · rw [rePtr_keys (h.attrs x h2.mem)]; exact h2.keys

theorem treeOk_rePtr (h : TreeOk K es next) {e : XElem} (he : e ∈ es) (hne : e ≠ rootElem) {u : Nat} (hu : next ≤ u) :
    TreeOk K (es.map (rePtr e u)) (u + 1) where
  root := by
    obtain ⟨r, hr⟩ := h.root
    refine ⟨r.map (rePtr e u), ?_⟩
    rw [hr, List.map_cons, rePtr_root h he hne]
  ids := by
    rw [List.map_map]
    have : (XElem.id ∘ rePtr e u) = XElem.id := by funext x; exact rePtr_id e u x
    rw [this]
    exact h.ids
  idlt := by
    intro y hy
    obtain ⟨x, hx, rfl⟩ := List.mem_map.1 hy
    rw [rePtr_id]
    have := h.idlt x hx
    omega
  parent := by
    intro y hy
    obtain ⟨x, hx, rfl⟩ := List.mem_map.1 hy
    rcases h.parent x hx with rfl | ⟨j, hj, hlt⟩
    · exact .inl (rePtr_root h he hne u)
    · exact .inr ⟨j, by rw [rePtr_parent]; exact hj, by omega⟩
  attrs := by
    intro y hy
    obtain ⟨x, hx, rfl⟩ := List.mem_map.1 hy
    rw [rePtr_attrs (h.attrs x hx), rePtr_ptr (h.attrs x hx), rePtr_keys (h.attrs x hx)]
  good := by
    intro y hy
    obtain ⟨x, hx, rfl⟩ := List.mem_map.1 hy
    rw [rePtr_keys (h.attrs x hx)]
    exact h.good x hx
  ptrlt := by
    intro y hy
    obtain ⟨x, hx, rfl⟩ := List.mem_map.1 hy
    by_cases hid : x.id = e.id
    · exact .inr ⟨u, by rw [rePtr_ptr (h.attrs x hx), if_pos hid], by omega⟩
    · rcases h.ptrlt x hx with rfl | ⟨j, hj, hlt⟩
      · exact .inl (rePtr_root h he hne u)
      · exact .inr ⟨j, by rw [rePtr_ptr (h.attrs x hx), if_neg hid, hj], by omega⟩
  ptrs := by
    rw [List.map_map]
    apply nodup_map_of_inj (nodup_of_map' _ h.ids)
    intro a ha b hb hab
    simp only [Function.comp_apply, rePtr_ptr (h.attrs a ha), rePtr_ptr (h.attrs b hb)] at hab
    by_cases h1 : a.id = e.id <;> by_cases h2 : b.id = e.id
    · exact h.byId ha hb (h1.trans h2.symm)
    · simp only [h1, h2, if_true, if_false] at hab
      exact absurd hab.symm (h.ptr_ne hb hu)
    · simp only [h1, h2, if_true, if_false] at hab
      exact absurd hab (h.ptr_ne ha hu)
    · simp only [h1, h2, if_false] at hab
      exact nodup_map_inj h.ptrs ha hb hab
  uniq := by
    intro y hy y' hy' h1 h2 h3
    obtain ⟨x, hx, rfl⟩ := List.mem_map.1 hy
    obtain ⟨x', hx', rfl⟩ := List.mem_map.1 hy'
    rw [rePtr_parent, rePtr_parent] at h1
    rw [rePtr_tag, rePtr_tag] at h2
    rw [rePtr_keys (h.attrs x hx), rePtr_keys (h.attrs x' hx')] at h3
    rw [h.uniq x hx x' hx' h1 h2 h3]
  conf := by
    intro p y ha
    obtain ⟨x, hx, _⟩ := (at_rePtr h he hne u).1 ha
    exact h.conf p x hx
where
  nodup_map_of_inj {α β : Type} {f : α → β} {l : List α} (hn : l.Nodup) (hf : ∀ a ∈ l, ∀ b ∈ l, f a = f b → a = b) : (l.map f).Nodup := by
    induction l with
    | nil => simp
    | cons a l ih =>
      rw [List.map_cons, List.nodup_cons]
      rw [List.nodup_cons] at hn
      refine ⟨?_, ih hn.2 fun a ha b hb => hf a (by simp [ha]) b (by simp [hb])⟩
      intro hm
      obtain ⟨b, hb, hab⟩ := List.mem_map.1 hm
      have := hf b (by simp [hb]) a (by simp) hab
      subst this
      exact hn.1 hb

/-! ## An element taken out -/

theorem at_remove (h : TreeOk K es next) {p : List PStep} {e : XElem} (ha : At es p e) (hp : p ≠ []) {q : List PStep} {x : XElem} :
    At (es.filter fun x => x.id ≠ e.id) q x ↔ At es q x ∧ ¬ p <+: q := by
  have hsub : ∀ x ∈ es.filter (fun x => x.id ≠ e.id), x ∈ es := fun x hx => (List.mem_filter.1 hx).1
  constructor
  · intro hq
    refine ⟨at_mono hsub hq, ?_⟩
    rintro ⟨t, rfl⟩
    obtain ⟨y, hy⟩ := eval_path.at_prefix t p x hq
    have := at_unique h ha (at_mono hsub hy)
    subst this
    cases hy with
    | root => exact hp rfl
    | snoc _ _ _ _ _ h2 =>
      have := (List.mem_filter.1 h2.mem).2
      simp at this
  · rintro ⟨hq, hn⟩
    induction hq with
    | root => exact .root
    | snoc q e0 s x h1 h2 ih =>
      have hn0 : ¬ p <+: q := fun ⟨t, ht⟩ => hn ⟨t ++ [s], by rw [← ht]; simp⟩
      refine .snoc q e0 s x (ih hn0) ⟨List.mem_filter.2 ⟨h2.mem, ?_⟩, h2.par, h2.tag, h2.keys⟩
      simp only [ne_eq, decide_not, Bool.not_eq_true', decide_eq_false_iff_not]
      intro hid
      have := h.byId h2.mem (ha.mem h) hid
      subst this
      apply hn
      rw [at_path_unique h ha (.snoc q e0 s _ h1 h2)]
      exact List.prefix_refl _

theorem treeOk_remove (h : TreeOk K es next) {p : List PStep} {e : XElem} (ha : At es p e) (hp : p ≠ []) :
    TreeOk K (es.filter fun x => x.id ≠ e.id) next where
  root := by
    obtain ⟨r, hr⟩ := h.root
    refine ⟨r.filter fun x => x.id ≠ e.id, ?_⟩
    have : rootElem.id ≠ e.id := by
      intro hid
      have := h.byId h.rootMem (ha.mem h) hid
      subst this
      exact hp (at_path_unique h ha .root)
    rw [hr, List.filter_cons]
    simp [this]
  ids := h.ids.sublist (List.filter_sublist.map _)
  idlt := fun x hx => h.idlt x (List.mem_filter.1 hx).1
  parent := fun x hx => h.parent x (List.mem_filter.1 hx).1
  attrs := fun x hx => h.attrs x (List.mem_filter.1 hx).1
  good := fun x hx => h.good x (List.mem_filter.1 hx).1
  ptrlt := fun x hx => h.ptrlt x (List.mem_filter.1 hx).1
  ptrs := h.ptrs.sublist (List.filter_sublist.map _)
  uniq := fun x hx y hy => h.uniq x (List.mem_filter.1 hx).1 y (List.mem_filter.1 hy).1
  conf := fun q x hx => h.conf q x ((at_remove h ha hp).1 hx).1

end
end Pyb
