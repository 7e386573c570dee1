import Verif.Lemmas.XPathReg

namespace Pyb
open Py Spec

theorem get?_dictDel {α : Type} (d : Dict α) (k j : Str) : (dictDel d k).get? j = if j = k then none else d.get? j := by
  induction d with
  | nil => simp [dictDel]
  | cons p d ih =>
    unfold dictDel at ih ⊢
    by_cases hp : p.1 = k
    · rw [List.filter_cons_of_neg (by simp [hp]), ih, Dict.get?_cons]
      by_cases hj : j = k
      · simp [hj]
      · rw [if_neg hj, if_neg hj, if_neg (fun e => hj (e.symm.trans hp))]
    · rw [List.filter_cons_of_pos (by simp [hp]), Dict.get?_cons, ih, Dict.get?_cons]
      by_cases hj : p.1 = j
      · rw [if_pos hj, if_neg (fun e => hp (hj.trans e)), if_pos hj]
      · rw [if_neg hj, if_neg hj]

theorem setAttrs_new (ks : List (Str × Str)) : ∀ d : Dict Str, (ks.map (·.1)).Nodup → (∀ k ∈ ks, k.1 ∉ d.map (·.1)) →
    (∀ k ∈ ks, validName k.1 = true ∧ k.2.all xmlChar = true) → setAttrs d ks = (d ++ ks, .ok ()) := by
  induction ks with
  | nil => intro d _ _ _; simp [setAttrs]
  | cons p ps ih =>
    intro d hn hd hv
    have hvp := hv p (by simp)
    rw [setAttrs, if_pos (by simp [hvp.1, hvp.2]), dict_set_new _ _ _ (hd p (by simp)), ih]
    · simp
    · exact (List.nodup_cons.1 hn).2
    · intro k hk hm
      simp only [List.map_append, List.map_cons, List.map_nil, List.mem_append, List.mem_singleton] at hm
      rcases hm with hm | hm
      · exact hd k (by simp [hk]) hm
      · refine (List.nodup_cons.1 hn).1 ?_
        show p.fst ∈ _
        rw [← hm]
        exact List.mem_map_of_mem (f := Prod.fst) hk
    · exact fun k hk => hv k (by simp [hk])

theorem setAttrs_good {s : PStep} (h : s.Good) (u : Str) :
    setAttrs [(py!"obj_ptr", u)] s.keys = ((py!"obj_ptr", u) :: s.keys, .ok ()) := by
  rw [setAttrs_new _ _ h.nodup]
  · rfl
  · intro k hk
    simpa using (h.names k hk).2.2
  · intro k hk
    refine ⟨ident_valid (h.names k hk).1, ?_⟩
    rw [List.all_eq_true]
    intro c hc
    have := ((h.values k hk).2.1 c hc).2.2.2.2.2.2
    simp [xmlChar, this]

section
variable {K : List Str → List Str} {eqv : XObj → XObj → Bool}

/-- The state of the helper against the registry. -/
structure HelperOk (K : List Str → List Str) (eqv : XObj → XObj → Bool) (h : Helper) (m : Registry) : Prop where
  tree : TreeOk K h.elems h.next
  lib : ∀ e ∈ h.elems, (h.lib.get? e.ptr).isSome = true
  abs : ∀ p e, p ≠ [] → At h.elems p e → ∃ o o', m p = some o ∧ h.lib.get? e.ptr = some o' ∧ (o' = o ∨ eqv o' o = true)
  dom : ∀ p o, m p = some o → p ≠ [] ∧ ∃ e, At h.elems p e

theorem helperOk_new : HelperOk K eqv Helper.new (fun _ => none) where
  tree := treeOk_new K
  lib := by
    intro e he
    rw [List.mem_singleton.1 he]
    rfl
  abs := by
    intro p e hp ha
    exfalso
    cases ha with
    | root => exact hp rfl
    | snoc p e0 s e h1 h2 =>
      have := List.mem_singleton.1 h2.mem
      subst this
      cases h2.par
  dom := by intro p o h; cases h

theorem pathLookup (h : Helper) (ht : TreeOk K h.elems h.next) (look) (caller) {p : List PStep} (hne : p ≠ []) (hg : ∀ s ∈ p, s.Good)
    (hc : Conforms K [] p) :
    (∃ e, At h.elems p e ∧ h.getEtree look (p.map PStep.text) caller = .ok [e]) ∨
    ((∀ e, ¬ At h.elems p e) ∧ h.getEtree look (p.map PStep.text) caller = .ok []) := by
  rw [getEtree_text h look caller p hne hg]
  obtain ⟨r, hr⟩ := ht.root
  have h1 : h.elems.take 1 = [rootElem] := by simp [hr]
  rw [h1]
  rcases eval_path ht p [] rootElem .root hc with ⟨e, he, hv⟩ | ⟨hno, hv⟩
  · exact .inl ⟨e, by simpa using he, by rw [hv]⟩
  · exact .inr ⟨by simpa using hno, by rw [hv]⟩

theorem HelperOk.some_iff {h : Helper} {m : Registry} (ok : HelperOk K eqv h m) {p : List PStep} (hne : p ≠ []) :
    (m p).isSome = true ↔ ∃ e, At h.elems p e := by
  constructor
  · intro hs
    obtain ⟨o, ho⟩ := Option.isSome_iff_exists.1 hs
    exact (ok.dom p o ho).2
  · rintro ⟨e, he⟩
    obtain ⟨o, _, ho, _⟩ := ok.abs p e hne he
    rw [ho]; rfl

/-- An entry more in the library changes nothing. -/
theorem helperOk_lib {h : Helper} {m : Registry} (ok : HelperOk K eqv h m) (o : XObj) :
    HelperOk K eqv { h with lib := h.lib.set (uuidStr h.next) o, next := h.next + 1 } m where
  tree := ok.tree.mono (by simp)
  lib := by
    intro e he
    simp only [Dict.get?_set]
    split
    · rfl
    · exact ok.lib e he
  abs := by
    intro p e hp ha
    obtain ⟨a, b, h1, h2, h3⟩ := ok.abs p e hp ha
    refine ⟨a, b, h1, ?_, h3⟩
    simp only [Dict.get?_set]
    rw [if_neg (ok.tree.ptr_ne (ha.mem ok.tree) (Nat.le_refl _)), h2]
  dom := ok.dom

theorem conforms_dropLast {p : List PStep} (hc : Conforms K [] p) : Conforms K [] p.dropLast := by
  rcases List.eq_nil_or_concat p with rfl | ⟨q, s, rfl⟩
  · exact .nil []
  · rw [List.concat_eq_append] at hc ⊢
    rw [List.dropLast_concat]
    exact (conforms_append hc).1

theorem ne_root {es : List XElem} {next : Nat} (ht : TreeOk K es next) {p : List PStep} (hne : p ≠ []) {e : XElem} (ha : At es p e) : e ≠ rootElem := by
  rintro rfl
  exact hne (at_path_unique ht ha .root)

/-- The parent of a new element is looked up. -/
theorem parentOf_eq {h : Helper} (ht : TreeOk K h.elems h.next) {q : List PStep} {s : PStep} (hg : ∀ t ∈ q ++ [s], t.Good)
    (hc : Conforms K [] (q ++ [s])) :
    (∃ e, At h.elems q e ∧ h.parentOf ((q ++ [s]).map PStep.text) = .ok e) ∨
    (q ≠ [] ∧ (∀ e, ¬ At h.elems q e) ∧ h.parentOf ((q ++ [s]).map PStep.text) = .error .xpathError) := by
  unfold Helper.parentOf
  by_cases hq : q = []
  · subst hq
    obtain ⟨r, hr⟩ := ht.root
    refine .inl ⟨rootElem, .root, ?_⟩
    simp [hr]
  · have hl : ((q ++ [s]).map PStep.text).length ≠ 1 := by
      have : q.length ≠ 0 := by simpa using hq
      simp
      exact hq
    have hd : ((q ++ [s]).map PStep.text).dropLast = q.map PStep.text := by simp
    rw [if_neg hl, hd]
    rcases pathLookup h ht h.look none hq (fun t ht => hg t (by simp [ht])) (conforms_append hc).1 with ⟨e, he, hv⟩ | ⟨hno, hv⟩
    · exact .inl ⟨e, he, by rw [hv]⟩
    · exact .inr ⟨hq, hno, by rw [hv]⟩

theorem create_step {h : Helper} {m : Registry} (ok : HelperOk K eqv h m) {q : List PStep} {s : PStep} (hg : ∀ t ∈ q ++ [s], t.Good)
    (hc : Conforms K [] (q ++ [s])) (hno : ∀ e, ¬ At h.elems (q ++ [s]) e) (o : XObj) :
    ((∃ par, At h.elems q par ∧ h.create ((q ++ [s]).map PStep.text) o =
      ({ elems := h.elems ++ [newElem (h.next + 1) par s h.next], lib := h.lib.set (uuidStr h.next) o, next := h.next + 1 + 1 }, .ok ())) ∨
    (q ≠ [] ∧ (∀ e, ¬ At h.elems q e) ∧ h.create ((q ++ [s]).map PStep.text) o =
      ({ h with lib := h.lib.set (uuidStr h.next) o, next := h.next + 1 }, .error .xpathError))) := by
  have hs : s.Good := hg s (by simp)
  have hl : ((q ++ [s]).map PStep.text).getLastD [] = s.text := by simp
  have ok' := helperOk_lib ok o
  unfold Helper.create
  simp only [hl, tagAttrs_text hs]
  rcases parentOf_eq ok'.tree hg hc with ⟨par, hp, hv⟩ | ⟨hq, hn, hv⟩
  · refine .inl ⟨par, hp, ?_⟩
    rw [hv]
    simp only [Helper.addElem, good_tag hs, if_true]
    have hk : (if s.keys = [] then (none : Option (Dict Str)) else some s.keys).getD [] = s.keys := by
      split
      · rename_i h; simp [h]
      · rfl
    rw [hk, setAttrs_good hs]
    simp [newElem]
  · refine .inr ⟨hq, hn, ?_⟩
    rw [hv]

theorem text_head {s : PStep} (hg : s.Good) : ∃ c r, s.text = c :: r ∧ c ≠ '.' ∧ c ≠ '/' := by
  obtain ⟨_, c, cs, hcs, hcc⟩ := hg.tag
  have hc1 : c ≠ '.' ∧ c ≠ '/' := by
    constructor <;> (rintro rfl; revert hcc; decide)
  unfold PStep.text
  split
  · exact ⟨c, cs, hcs, hc1⟩
  · exact ⟨c, cs ++ keyString s.keys, by rw [hcs]; rfl, hc1⟩

theorem register_eq {h : Helper} {p : List PStep} (hne : p ≠ []) (hg : ∀ s ∈ p, s.Good) {o : XObj} : h.register eqv (p.map PStep.text) o =
    match h.getEtree h.look (p.map PStep.text) none with
    | .error e => (h, .error e)
    | .ok [] => h.create (p.map PStep.text) o
    | .ok [e] => h.replace eqv e o
    | .ok _ => (h, .error .xpathError) := by
  cases p with
  | nil => exact absurd rfl hne
  | cons s p =>
    obtain ⟨c, r, hr, hc1, _⟩ := text_head (hg s (by simp))
    have h2 : startsWith s.text py!".." = false := by
      rw [hr]
      simp [startsWith, List.isPrefixOf, hc1.symm]
    rw [List.map_cons, Helper.register, if_neg (by simp [h2])]
    rfl

theorem register_step {h : Helper} {m : Registry} (ok : HelperOk K eqv h m) {p : List PStep} (hne : p ≠ []) (hg : ∀ s ∈ p, s.Good)
    (hc : Conforms K [] p) (o : XObj) :
    HelperOk K eqv (h.register eqv (p.map PStep.text) o).1 (regStep m (.register p o)) ∧
    (h.register eqv (p.map PStep.text) o).2 = if OpAllowed m (.register p o) then .ok () else .error .xpathError := by
  rw [register_eq hne hg]
  rcases pathLookup h ok.tree h.look none hne hg hc with ⟨e, ha, hv⟩ | ⟨hno, hv⟩
  · -- there is an object
    rw [hv]
    have hsome : (m p).isSome = true := (ok.some_iff hne).2 ⟨e, ha⟩
    have hall : OpAllowed m (.register p o) := .inl hsome
    have hroot := ne_root ok.tree hne ha
    simp only [Helper.replace, regStep, hall, if_true, effect]
    obtain ⟨o1, old, hm, hold, heq⟩ := ok.abs p e hne ha
    rw [hold]
    simp only []
    by_cases hee : eqv old o = true
    · rw [if_pos hee]
      refine ⟨⟨ok.tree, ok.lib, ?_, ?_⟩, rfl⟩
      · intro q x hq hx
        by_cases hqp : q = p
        · subst hqp
          have := at_unique ok.tree ha hx
          subst this
          exact ⟨o, old, by simp, hold, .inr hee⟩
        · simp only [hqp, if_false]
          exact ok.abs q x hq hx
      · intro q o2
        by_cases hqp : q = p
        · subst hqp
          exact fun _ => ⟨hne, e, ha⟩
        · simp only [hqp, if_false]
          exact ok.dom q o2
    · rw [if_neg hee]
      have hmap : (h.elems.map fun x => if x.id = e.id then { x with attrs := x.attrs.set py!"obj_ptr" (uuidStr h.next) } else x) =
          h.elems.map (rePtr e h.next) := rfl
      have hlib : ∀ x ∈ h.elems, ((dictDel h.lib e.ptr).set (uuidStr h.next) o).get? (rePtr e h.next x).ptr =
          if x = e then some o else h.lib.get? x.ptr := by
        intro x hx
        rw [rePtr_ptr (ok.tree.attrs x hx), Dict.get?_set, get?_dictDel]
        by_cases hxe : x = e
        · simp [hxe]
        · have hid : x.id ≠ e.id := fun hid => hxe (ok.tree.byId hx (ha.mem ok.tree) hid)
          have hp1 : x.ptr ≠ uuidStr h.next := ok.tree.ptr_ne hx (Nat.le_refl _)
          have hp2 : x.ptr ≠ e.ptr := fun hp => hxe (nodup_map_inj ok.tree.ptrs hx (ha.mem ok.tree) hp)
          simp [hxe, hid, hp1, hp2]
      refine ⟨⟨?_, ?_, ?_, ?_⟩, rfl⟩
      · simp only [hmap]
        exact treeOk_rePtr ok.tree (ha.mem ok.tree) hroot (Nat.le_refl _)
      · simp only [hmap]
        intro y hy
        obtain ⟨x, hx, rfl⟩ := List.mem_map.1 hy
        rw [hlib x hx]
        split
        · rfl
        · exact ok.lib x hx
      · simp only [hmap]
        intro q y hq hy
        obtain ⟨x, hx, rfl⟩ := (at_rePtr ok.tree (ha.mem ok.tree) hroot h.next).1 hy
        rw [hlib x (hx.mem ok.tree)]
        by_cases hqp : q = p
        · subst hqp
          have := at_unique ok.tree ha hx
          subst this
          exact ⟨o, o, by simp, by simp, .inl rfl⟩
        · have hxe : x ≠ e := by
            rintro rfl
            exact hqp (at_path_unique ok.tree hx ha)
          simp only [hqp, hxe, if_false]
          exact ok.abs q x hq hx
      · simp only [hmap]
        intro q o2
        by_cases hqp : q = p
        · subst hqp
          exact fun _ => ⟨hne, _, (at_rePtr ok.tree (ha.mem ok.tree) hroot h.next).2 ⟨e, ha, rfl⟩⟩
        · simp only [hqp, if_false]
          intro hq
          obtain ⟨h1, x, hx⟩ := ok.dom q o2 hq
          exact ⟨h1, _, (at_rePtr ok.tree (ha.mem ok.tree) hroot h.next).2 ⟨x, hx, rfl⟩⟩
  · -- there is none
    rw [hv]
    simp only []
    have hmp : ¬ (m p).isSome = true := fun hs => by
      obtain ⟨e, he⟩ := (ok.some_iff hne).1 hs
      exact hno e he
    rcases List.eq_nil_or_concat p with rfl | ⟨q, s, rfl⟩
    · exact absurd rfl hne
    rw [List.concat_eq_append] at *
    have hall : OpAllowed m (.register (q ++ [s]) o) ↔ ∃ e, At h.elems q e := by
      simp only [OpAllowed, hmp, List.dropLast_concat, List.length_append, List.length_cons, List.length_nil]
      constructor
      · rintro (hf | hl | hs)
        · cases hf
        · have : q = [] := List.eq_nil_of_length_eq_zero (by omega)
          exact ⟨rootElem, this ▸ .root⟩
        · obtain ⟨o1, ho1⟩ := Option.isSome_iff_exists.1 hs
          exact (ok.dom q o1 ho1).2
      · intro he
        by_cases hq : q = []
        · exact .inr (.inl (by simp [hq]))
        · exact .inr (.inr ((ok.some_iff hq).2 he))
    rcases create_step ok hg hc hno o with ⟨par, hp, hcr⟩ | ⟨hq, hn, hcr⟩
    · rw [hcr]
      have hal := hall.2 ⟨par, hp⟩
      simp only [regStep, hal, if_true, effect]
      have hat := fun {q' x} => at_add (q := q') (x := x) (u := h.next) ok.tree hp s (i := h.next + 1) (by omega)
      refine ⟨⟨?_, ?_, ?_, ?_⟩, trivial⟩
      · exact treeOk_add ok.tree hp (hg s (by simp)) hc hno (by omega) (Nat.le_refl _) (by omega)
      · intro e he
        simp only [Dict.get?_set]
        split
        · rfl
        · rename_i hpt
          rcases List.mem_append.1 he with he | he
          · exact ok.lib e he
          · rw [List.mem_singleton.1 he, newElem_ptr] at hpt
            exact absurd rfl hpt
      · intro q' x hq' hx
        simp only [Dict.get?_set]
        rcases hat.1 hx with hx | ⟨rfl, rfl⟩
        · have hne' : q' ≠ q ++ [s] := by
            rintro rfl
            exact hno x hx
          rw [if_neg hne', if_neg (ok.tree.ptr_ne (hx.mem ok.tree) (Nat.le_refl _))]
          exact ok.abs q' x hq' hx
        · exact ⟨o, o, by simp, by rw [newElem_ptr]; simp, .inl rfl⟩
      · intro q' o2
        by_cases hqp : q' = q ++ [s]
        · subst hqp
          exact fun _ => ⟨hne, _, hat.2 (.inr ⟨rfl, rfl⟩)⟩
        · simp only [hqp, if_false]
          intro hq
          obtain ⟨h1, x, hx⟩ := ok.dom q' o2 hq
          exact ⟨h1, x, hat.2 (.inl hx)⟩
    · rw [hcr]
      have hal : ¬ OpAllowed m (.register (q ++ [s]) o) := fun ha => by
        obtain ⟨e, he⟩ := hall.1 ha
        exact hn e he
      simp only [regStep, hal, if_false]
      exact ⟨helperOk_lib ok o, trivial⟩

theorem unregister_eq {h : Helper} {p : List PStep} (hne : p ≠ []) (hg : ∀ s ∈ p, s.Good) : h.unregister (p.map PStep.text) =
    match h.getEtree h.look (p.map PStep.text) none with
    | .error e => (h, .error e)
    | .ok [] => (h, .error .xpathError)
    | .ok es => removeElems h es := by
  cases p with
  | nil => exact absurd rfl hne
  | cons s p =>
    obtain ⟨c, r, hr, hc1, hc2⟩ := text_head (hg s (by simp))
    rw [List.map_cons, Helper.unregister, hr, if_neg]
    · rfl
    · simp [startsWith, hc1.symm, hc2.symm]

theorem unregister_step {h : Helper} {m : Registry} (ok : HelperOk K eqv h m) {p : List PStep} (hne : p ≠ []) (hg : ∀ s ∈ p, s.Good)
    (hc : Conforms K [] p) :
    HelperOk K eqv (h.unregister (p.map PStep.text)).1 (regStep m (.unregister p)) ∧
    (h.unregister (p.map PStep.text)).2 = if OpAllowed m (.unregister p) then .ok () else .error .xpathError := by
  rw [unregister_eq hne hg]
  rcases pathLookup h ok.tree h.look none hne hg hc with ⟨e, ha, hv⟩ | ⟨hno, hv⟩
  · rw [hv]
    have hall : OpAllowed m (.unregister p) := (ok.some_iff hne).2 ⟨e, ha⟩
    have hroot := ne_root ok.tree hne ha
    have hlib := ok.lib e (ha.mem ok.tree)
    have hpar : e.parent ≠ none := by
      rcases ok.tree.parent e (ha.mem ok.tree) with h1 | ⟨i, hi, _⟩
      · exact absurd h1 hroot
      · rw [hi]; simp
    have hisn : (h.lib.get? e.ptr).isNone = false := by
      cases hg : h.lib.get? e.ptr with
      | none => rw [hg] at hlib; cases hlib
      | some => rfl
    simp only [removeElems, hisn, hpar, if_false, Bool.false_eq_true, regStep, hall, if_true, effect]
    have hat := fun {q x} => at_remove (q := q) (x := x) ok.tree ha hne
    refine ⟨⟨treeOk_remove ok.tree ha hne, ?_, ?_, ?_⟩, trivial⟩
    · intro x hx
      obtain ⟨hx1, hx2⟩ := List.mem_filter.1 hx
      have hp2 : x.ptr ≠ e.ptr := fun hp => by
        have := nodup_map_inj ok.tree.ptrs hx1 (ha.mem ok.tree) hp
        subst this
        simp at hx2
      simp only [get?_dictDel, hp2, if_false]
      exact ok.lib x hx1
    · intro q x hq hx
      obtain ⟨hx1, hx2⟩ := hat.1 hx
      have hp2 : x.ptr ≠ e.ptr := fun hp => by
        have := nodup_map_inj ok.tree.ptrs (hx1.mem ok.tree) (ha.mem ok.tree) hp
        subst this
        exact hx2 (at_path_unique ok.tree ha hx1 ▸ List.prefix_refl _)
      have hpf : p.isPrefixOf q = false := by
        apply Bool.eq_false_iff.2
        rw [ne_eq, List.isPrefixOf_iff_prefix]
        exact hx2
      simp only [get?_dictDel, hp2, if_false, hpf, Bool.false_eq_true]
      exact ok.abs q x hq hx1
    · intro q o2 hq
      by_cases hpf : p.isPrefixOf q = true
      · simp [hpf] at hq
      · simp only [hpf, Bool.false_eq_true, if_false] at hq
        obtain ⟨h1, x, hx⟩ := ok.dom q o2 hq
        exact ⟨h1, x, hat.2 ⟨hx, fun hp => hpf (List.isPrefixOf_iff_prefix.2 hp)⟩⟩
  · rw [hv]
    have hall : ¬ OpAllowed m (.unregister p) := fun hs => by
      obtain ⟨e, he⟩ := (ok.some_iff hne).1 hs
      exact hno e he
    simp only [regStep, hall, if_false]
    exact ⟨ok, trivial⟩

end
end Pyb
