import Verif.Lemmas.RegLate
import Verif.Props.XPath

/-! # The registry follows the tree: histories, and what the helper is given -/

namespace Pyb
open Py Spec

variable {K : PyVal → Prop} {st : Bool}

/-- An operation on a child of the module's object, whose `_set` does nothing. -/
theorem root_step {kids : List (Meta × Schema)} {ns : List Inst} {i : Nat} {k : Meta × Schema} {m : Registry} {o : Out} {es : List Ev}
    (hok : Named kids) (hk : kids[i]? = some k) (hh : KidsHere K [] kids ns m) (hf : Follows K [] k.1.name k.2 m o es) :
    KidsHere K [] kids (ns.set i o.inst) (after m (callsOf es)) := by
  have hag := (kidsAgree_iff hok.nodup hh.len).1 hh.agree
  have hlen : (ns.set i o.inst).length = kids.length := by simpa using hh.len
  have hi : i < ns.length := by rw [hh.len]; exact (List.getElem?_eq_some_iff.1 hk).1
  have hkm := List.mem_of_getElem? hk
  refine ⟨.inl rfl, hlen, fun j k' n hj hn => ?_, (kidsAgree_iff hok.nodup hlen).2 ⟨fun j k' n hj hn => ?_, fun s r hs => ?_⟩⟩
  · by_cases e : i = j
    · subst e
      rw [List.getElem?_set_self hi] at hn
      cases hn
      rw [hk] at hj
      cases hj
      exact hf.tree
    · rw [List.getElem?_set_ne e] at hn
      exact hh.tree j k' n hj hn
  · by_cases e : i = j
    · subst e
      rw [List.getElem?_set_self hi] at hn
      cases hn
      rw [hk] at hj
      cases hj
      exact hf.agree
    · rw [List.getElem?_set_ne e] at hn
      intro ks r
      rw [after_off hf.paths.below]
      · exact hag.1 j k' n hj hn ks r
      · intro hb
        have e2 := below_unique hb ⟨_, r, rfl, rfl⟩
        have hij : (kids.map fun k => k.1.name)[i]? = (kids.map fun k => k.1.name)[j]? := by
          rw [List.getElem?_map, List.getElem?_map, hk, hj]
          simp only [Option.map_some, Option.some.injEq]
          exact e2
        exact e ((List.getElem?_inj (by simpa [hh.len] using hi) hok.nodup).1 hij)
  · rw [after_off hf.paths.below]
    · exact hag.2 s r hs
    · intro hb
      exact hs k hkm (below_unique hb ⟨s, r, rfl, rfl⟩)

theorem history_follows (hK : ToldApart K) {kids : List (Meta × Schema)} (hok : Named kids) (ha : ∀ k ∈ kids, Addressable k.2) (hf : ChoicesRoot st kids) :
    ∀ (ops : List (Path × Op)) (ns : List Inst) (m : Registry), KidsHere K [] kids ns m → HistOk K kids ns ops →
      AllOk m (historyCalls kids ns ops) ∧ CallsUnder [] kids (historyCalls kids ns ops) ∧
      KidsHere K [] kids (history kids ns ops) (after m (historyCalls kids ns ops)) := by
  intro ops
  induction ops with
  | nil => intro ns m hh _; exact ⟨trivial, callsUnder_nil _ _, hh⟩
  | cons x ops ih =>
    intro ns m hh h
    obtain ⟨p, op⟩ := x
    obtain ⟨h1, h2, h3⟩ := h
    have hone : AllOk m (rootCalls kids ns p op) ∧ CallsUnder [] kids (rootCalls kids ns p op) ∧
        KidsHere K [] kids (runRoot kids ns p op).1 (after m (rootCalls kids ns p op)) := by
      have hnop : rootCalls kids ns p op = [] → (runRoot kids ns p op).1 = ns → AllOk m (rootCalls kids ns p op) ∧
          CallsUnder [] kids (rootCalls kids ns p op) ∧ KidsHere K [] kids (runRoot kids ns p op).1 (after m (rootCalls kids ns p op)) := by
        intro e1 e2
        rw [e1, e2]
        exact ⟨trivial, callsUnder_nil _ _, hh⟩
      cases p with
      | nil => exact hnop rfl rfl
      | cons s p =>
        cases s with
        | key k => exact hnop rfl rfl
        | field i =>
          cases hk : kids[i]? with
          | none => exact hnop (by simp [rootCalls, hk]) (by simp [runRoot, hk])
          | some k =>
            have hi : i < ns.length := by rw [hh.len]; exact (List.getElem?_eq_some_iff.1 hk).1
            have hc : ns[i]? = some ns[i] := by simp [hi]
            have hkm := List.mem_of_getElem? hk
            have hag := (kidsAgree_iff hok.nodup hh.len).1 hh.agree
            have h2 := callsOk_of h1 h2
            simp only [rootCalls, runRoot, hk, hc] at h2 ⊢
            have hfol := run_follows (st := st) hK (op := op) p (up := []) (t := k.1.name) (n := ns[i]) (m := m) (ha k hkm) (hf k hkm) (.inl rfl)
              (hh.tree i k _ hk hc) (hag.1 i k _ hk hc) (fun S hS => h1 S (by rw [clsAt_field, hk]; exact hS)) h2
            exact ⟨hfol.ok, hfol.paths.under hkm, root_step hok hk hh hfol⟩
    obtain ⟨g1, g2, g3⟩ := hone
    obtain ⟨i1, i2, i3⟩ := ih _ _ g3 h3
    simp only [historyCalls, history]
    exact ⟨allOk_append.2 ⟨g1, i1⟩, callsUnder_append g2 i2, by rw [after_append]; exact i3⟩

/-- The whole history of the calls, with those of making the binding. -/
theorem binding_follows (hK : ToldApart K) {kids : List (Meta × Schema)} (hok : Named kids) (ha : ∀ k ∈ kids, Addressable k.2) (hf : ChoicesRoot st kids)
    {ops : List (Path × Op)} (hh : HistOk K kids (freshKids kids) ops) :
    AllOk (fun _ => none) (regKids [] kids ++ historyCalls kids (freshKids kids) ops) ∧
    CallsUnder [] kids (regKids [] kids ++ historyCalls kids (freshKids kids) ops) ∧
    KidsHere K [] kids (history kids (freshKids kids) ops) (after (fun _ => none) (regKids [] kids ++ historyCalls kids (freshKids kids) ops)) := by
  obtain ⟨h1, h2⟩ := regKids_ok (loc := []) hok.nodup (fun k hk => newOk (ha k hk) _ _) (fun _ => none) (.inl rfl)
  have h0 : KidsHere K [] kids (freshKids kids) (after (fun _ => none) (regKids [] kids)) := by
    refine ⟨.inl rfl, freshKids_length _, fun i k n hk hn => ?_, fun s r => ?_⟩
    · rw [freshKids_get, hk] at hn
      simp at hn
      subst hn
      exact regTree_fresh _
    · rw [h2]
      simp
  obtain ⟨g1, g2, g3⟩ := history_follows hK hok ha hf ops _ _ h0 hh
  exact ⟨allOk_append.2 ⟨h1, g1⟩, callsUnder_append (regKids_paths _ _) g2, by rw [after_append]; exact g3⟩

theorem after_registry {cs : List RegOp} : ∀ {m : Registry}, AllOk m cs → cs.foldl regStep m = after m cs := by
  induction cs with
  | nil => intros; rfl
  | cons c cs ih =>
    intro m h
    have e : regStep m c = effect m c := by rw [regStep, if_pos h.1]
    rw [List.foldl_cons, e, after_cons]
    exact ih h.2

/-! ## The paths are those of the classes -/

/-- The keys of the list at the end of the names. -/
def keysOf : List Str → List (Meta × Schema) → List Str
  | [], _ => []
  | t :: ts, kids =>
    match kids.find? fun k => k.1.name = t with
    | some (_, .list info kids') => if ts = [] then entryKeyNames info kids' else keysOf ts kids'
    | some (_, .cont _ kids') => keysOf ts kids'
    | _ => []

theorem find_kid {kids : List (Meta × Schema)} (hok : Named kids) {k : Meta × Schema} (hk : k ∈ kids) {t : Str} (e : k.1.name = t) :
    kids.find? (fun k => decide (k.1.name = t)) = some k := by
  cases h : kids.find? (fun k => decide (k.1.name = t)) with
  | none =>
    rw [List.find?_eq_none] at h
    exact absurd e (by simpa using h k hk)
  | some k' =>
    have h1 := List.mem_of_find?_eq_some h
    have h2 := List.find?_some h
    simp only [decide_eq_true_eq] at h2
    rw [kid_unique hok h1 hk (h2.trans e.symm)]

theorem keysOf_list {kids kids' : List (Meta × Schema)} {a : Meta} {info : ListInfo} {ts : List Str}
    (h : kids.find? (fun k => decide (k.1.name = t)) = some (a, .list info kids')) :
    keysOf (t :: ts) kids = if ts = [] then entryKeyNames info kids' else keysOf ts kids' := by rw [keysOf, h]
theorem keysOf_cont {kids kids' : List (Meta × Schema)} {a : Meta} {pres : Bool} {ts : List Str}
    (h : kids.find? (fun k => decide (k.1.name = t)) = some (a, .cont pres kids')) : keysOf (t :: ts) kids = keysOf ts kids' := by rw [keysOf, h]
theorem keysOf_leaf {kids : List (Meta × Schema)} {a : Meta} {L : LeafCls} {ts : List Str}
    (h : kids.find? (fun k => decide (k.1.name = t)) = some (a, .leaf L)) : keysOf (t :: ts) kids = [] := by rw [keysOf, h]
theorem keysOf_ll {kids : List (Meta × Schema)} {a : Meta} {L : LLCls} {ts : List Str}
    (h : kids.find? (fun k => decide (k.1.name = t)) = some (a, .leafList L)) : keysOf (t :: ts) kids = [] := by rw [keysOf, h]

theorem path_conforms {kids0 : List (Meta × Schema)} : ∀ (p : List PStep) (q : List Str) (kids : List (Meta × Schema)), Named kids →
    (∀ k ∈ kids, Addressable k.2) → (∀ r, r ≠ [] → keysOf (q ++ r) kids0 = keysOf r kids) → PathOk p kids → Conforms (fun q => keysOf q kids0) q p := by
  intro p
  induction p with
  | nil => intros; exact .nil _
  | cons s p ih =>
    intro q kids hok ha hq h
    obtain ⟨k, hk, hn, hp⟩ := (pathOk_cons _ _ _).1 h
    have hfind := find_kid hok hk hn
    have h1 := hq [s.tag] (by simp)
    obtain ⟨a, S⟩ := k
    have hS := ha _ hk
    cases S with
    | leaf L =>
      obtain ⟨e1, rfl⟩ := hp
      exact .cons _ _ _ (by rw [e1, h1, keysOf_leaf hfind]; rfl) (.nil _)
    | leafList L =>
      obtain ⟨e1, rfl⟩ := hp
      exact .cons _ _ _ (by rw [e1, h1, keysOf_ll hfind]; rfl) (.nil _)
    | cont pres kids' =>
      obtain ⟨e1, hp⟩ := hp
      cases hS with
      | cont _ _ hok' ha' =>
      refine .cons _ _ _ (by rw [e1, h1, keysOf_cont hfind]; rfl) (ih _ kids' hok' ha' (fun r hr => ?_) hp)
      rw [List.append_assoc, List.singleton_append, hq _ (by simp), keysOf_cont hfind]
    | list info kids' =>
      obtain ⟨e1, _, hp⟩ := hp
      cases hS with
      | list _ _ hok' ha' _ _ _ =>
      refine .cons _ _ _ (by rw [e1, h1, keysOf_list hfind]; rfl) (ih _ kids' hok' ha' (fun r hr => ?_) hp)
      rw [List.append_assoc, List.singleton_append, hq _ (by simp), keysOf_list hfind, if_neg hr]

theorem entryKeyNames_good {info : ListInfo} {kids : List (Meta × Schema)} (h : Addressable (.list info kids)) :
    (entryKeyNames info kids).Nodup ∧ ∀ n ∈ entryKeyNames info kids, Identifier n ∧ '.' ∉ n ∧ n ≠ py!"obj_ptr" := by
  cases h with
  | list _ _ hok ha hne hnd hkeys =>
  constructor
  · have : ∀ js : List Nat, js.Nodup → (∀ j ∈ js, j ∈ info.keys) → (js.map fun j => (kids[j]?.map (·.1.name)).getD []).Nodup := by
      intro js
      induction js with
      | nil => intros; simp
      | cons j js ih =>
        intro h1 h2
        rw [List.nodup_cons] at h1
        rw [List.map_cons, List.nodup_cons]
        refine ⟨fun hm => ?_, ih h1.2 fun j hj => h2 j (by simp [hj])⟩
        obtain ⟨j', hj', e⟩ := List.mem_map.1 hm
        obtain ⟨a, L, ha', _⟩ := hkeys j (h2 j (by simp))
        obtain ⟨b, L', hb', _⟩ := hkeys j' (h2 j' (by simp [hj']))
        rw [ha', hb'] at e
        have hij : (kids.map fun k => k.1.name)[j]? = (kids.map fun k => k.1.name)[j']? := by
          rw [List.getElem?_map, List.getElem?_map, ha', hb']
          simpa using e.symm
        have := (List.getElem?_inj (by simpa using (List.getElem?_eq_some_iff.1 ha').1) hok.nodup).1 hij
        subst this
        exact h1.1 hj'
    exact this info.keys hnd fun _ h => h
  · intro n hn
    obtain ⟨j, hj, rfl⟩ := List.mem_map.1 hn
    obtain ⟨a, L, h1, h2, h3⟩ := hkeys j hj
    rw [h1]
    exact ⟨hok.ident _ (List.mem_of_getElem? h1), h2, h3⟩

theorem path_good : ∀ (p : List PStep) (kids : List (Meta × Schema)), Named kids → (∀ k ∈ kids, Addressable k.2) → PathOk p kids →
    ∀ s ∈ p, s.Good ∧ ∀ x ∈ s.keys, KeyText x.2 := by
  intro p
  induction p with
  | nil => intro _ _ _ _ s hs; simp at hs
  | cons s p ih =>
    intro kids hok ha h
    obtain ⟨k, hk, hn, hp⟩ := (pathOk_cons _ _ _).1 h
    have hid : Identifier s.tag := hn ▸ hok.ident k hk
    have hplain : s.keys = [] → s.Good ∧ ∀ x ∈ s.keys, KeyText x.2 := by
      intro e
      exact ⟨⟨hid, by simp [e], by simp [e], by simp [e]⟩, by simp [e]⟩
    obtain ⟨a, S⟩ := k
    have hS := ha _ hk
    cases S with
    | leaf L =>
      obtain ⟨e1, rfl⟩ := hp
      intro x hx
      simp at hx
      subst hx
      exact hplain e1
    | leafList L =>
      obtain ⟨e1, rfl⟩ := hp
      intro x hx
      simp at hx
      subst hx
      exact hplain e1
    | cont pres kids' =>
      obtain ⟨e1, hp⟩ := hp
      cases hS with
      | cont _ _ hok' ha' =>
      intro x hx
      rcases List.mem_cons.1 hx with rfl | hx
      · exact hplain e1
      · exact ih kids' hok' ha' hp x hx
    | list info kids' =>
      obtain ⟨e1, e2, hp⟩ := hp
      obtain ⟨n1, n2⟩ := entryKeyNames_good hS
      cases hS with
      | list _ _ hok' ha' _ _ _ =>
      intro x hx
      rcases List.mem_cons.1 hx with rfl | hx
      · refine ⟨⟨hid, fun y hy => ?_, by rw [e1]; exact n1, fun y hy => (e2 y hy).1⟩, e2⟩
        apply n2
        rw [← e1]
        exact List.mem_map_of_mem hy
      · exact ih kids' hok' ha' hp x hx

/-- A data path of the classes can be given to the helper. -/
theorem path_valid {kids : List (Meta × Schema)} (hok : Named kids) (ha : ∀ k ∈ kids, Addressable k.2) {p : List PStep} (hp : PathOk p kids) (hne : p ≠ []) :
    ValidPath (fun q => keysOf q kids) p :=
  ⟨hne, fun s hs => (path_good p kids hok ha hp s hs).1, path_conforms p [] kids hok ha (fun _ _ => rfl) hp⟩

/-! ## The texts given when an entry is deleted -/

theorem tagAttrs_delText {s : PStep} (h : s.Good) (hv : ∀ x ∈ s.keys, KeyText x.2) : tagAttrs (delText s) = tagAttrs s.text := by
  by_cases e : s.keys = []
  · simp [delText, PStep.text, e]
  · rw [tagAttrs_text h, delText, if_neg e, if_neg e]
    exact C56_delete_partial h e fun l hl => (hv l (List.mem_of_getLast? hl)).2

theorem encodeGo_last (look) (caller) {a b : Str} (h : tagAttrs a = tagAttrs b) : ∀ (ps : List Str) (e : Str),
    encodeGo look caller e (ps ++ [a]) = encodeGo look caller e (ps ++ [b]) := by
  intro ps
  induction ps with
  | nil => intro e; simp only [List.nil_append, encodeGo, h]
  | cons p ps ih => intro e; simp only [List.cons_append, encodeGo, ih]

theorem delText_head {s : PStep} (h : s.Good) : ∃ c r r', s.text = c :: r ∧ delText s = c :: r' ∧ c ≠ '.' ∧ c ≠ '/' := by
  obtain ⟨c, r, h1, h2, h3⟩ := text_head h
  obtain ⟨h4, _⟩ := name_chars (good_tag h)
  obtain ⟨d, ds, hd⟩ := List.exists_cons_of_ne_nil h4
  by_cases e : s.keys = []
  · exact ⟨c, r, r, h1, by rw [← h1]; simp [delText, PStep.text, e], h2, h3⟩
  · rw [PStep.text, if_neg e, hd, List.cons_append] at h1
    cases h1
    exact ⟨c, _, ds ++ keyStringDel s.keys, by rw [PStep.text, if_neg e, hd]; rfl, by rw [delText, if_neg e, hd]; rfl, h2, h3⟩

theorem doCall_eq (eqv : XObj → XObj → Bool) (h : Helper) {c : RegOp} (hne : c.path ≠ []) (hg : ∀ s ∈ c.path, s.Good ∧ ∀ x ∈ s.keys, KeyText x.2) :
    doCall eqv h c = doOp eqv h c := by
  cases c with
  | register p o => rfl
  | unregister p =>
    simp only [RegOp.path] at hne hg
    obtain ⟨q, s, rfl⟩ : ∃ q s, p = q ++ [s] := by
      rcases List.eq_nil_or_concat p with he | ⟨q, s, he⟩
      · exact absurd he hne
      · exact ⟨q, s, by rw [he]; simp⟩
    obtain ⟨hs, hv⟩ := hg s (by simp)
    have ht := tagAttrs_delText hs hv
    simp only [doCall, doOp, List.dropLast_concat, List.getLast?_concat, Option.map_some, Option.toList_some, List.map_append, List.map_cons, List.map_nil]
    cases q with
    | nil =>
      obtain ⟨c, r, r', h1, h2, h3, h4⟩ := delText_head hs
      have henc : ∀ look caller, encodePath look caller [delText s] = encodePath look caller [s.text] := by
        intro look caller
        have := encodeGo_last look caller ht [] ['/']
        simp only [List.nil_append] at this
        have ha : isRelative (delText s) = false := by simp [isRelative, startsWith, List.isPrefixOf, h2, h3.symm]
        have hb : isRelative s.text = false := by simp [isRelative, startsWith, List.isPrefixOf, h1, h3.symm]
        have ha' : delText s ≠ [] := by simp [h2]
        have hb' : s.text ≠ [] := by simp [h1]
        simp only [encodePath, ha, hb, if_neg ha', if_neg hb', Bool.false_eq_true, if_false, this]
      have hst : (startsWith (delText s) py!"." || startsWith (delText s) py!"/") = false := by simp [startsWith, List.isPrefixOf, h2, h3.symm, h4.symm]
      have hst' : (startsWith s.text py!"." || startsWith s.text py!"/") = false := by simp [startsWith, List.isPrefixOf, h1, h3.symm, h4.symm]
      simp only [List.map_nil, List.nil_append, Helper.unregister, hst, hst', Bool.false_eq_true, if_false, Helper.getEtree, henc]
    | cons x q =>
      have henc : ∀ look caller, encodePath look caller (x.text :: (q.map PStep.text ++ [delText s])) =
          encodePath look caller (x.text :: (q.map PStep.text ++ [s.text])) := by
        intro look caller
        have h1 := fun e => encodeGo_last look caller ht (q.map PStep.text) e
        have h2 := fun e => encodeGo_last look caller ht (x.text :: q.map PStep.text) e
        simp only [List.cons_append] at h2
        by_cases hx : x.text = []
        · simp only [encodePath, hx, if_true, h1]
        · simp only [encodePath, if_neg hx, h2]
      simp only [List.map_cons, List.cons_append, Helper.unregister, Helper.getEtree, henc]

end Pyb
