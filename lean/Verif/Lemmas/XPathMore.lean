import Verif.Lemmas.XPathOps

namespace Pyb
open Py Spec

section
variable {K : List Str → List Str} {eqv : XObj → XObj → Bool}

theorem libObjs_one (lib : Dict XObj) (e : XElem) {o : XObj} (h : lib.get? e.ptr = some o) : libObjs lib [e] = .ok [o] := by
  simp [libObjs, h, Except.map]

/-- What is found at a path. -/
theorem get_at {h : Helper} (ht : TreeOk K h.elems h.next) {p : List PStep} (hne : p ≠ []) (hg : ∀ s ∈ p, s.Good) (hc : Conforms K [] p)
    (caller) {e : XElem} (ha : At h.elems p e) {o : XObj} (ho : h.lib.get? e.ptr = some o) : h.get (p.map PStep.text) caller = .ok [o] := by
  rw [Helper.get]
  rcases pathLookup h ht h.look caller hne hg hc with ⟨e', ha', hv⟩ | ⟨hno, hv⟩
  · rw [hv, at_unique ht ha' ha]
    exact libObjs_one _ _ ho
  · exact absurd ha (hno e)

theorem get_none {h : Helper} (ht : TreeOk K h.elems h.next) {p : List PStep} (hne : p ≠ []) (hg : ∀ s ∈ p, s.Good) (hc : Conforms K [] p)
    (caller) (hno : ∀ e, ¬ At h.elems p e) : h.get (p.map PStep.text) caller = .ok [] := by
  rw [Helper.get]
  rcases pathLookup h ht h.look caller hne hg hc with ⟨e', ha', hv⟩ | ⟨hno, hv⟩
  · exact absurd ha' (hno e')
  · rw [hv]; rfl

/-- What `register` does. -/
theorem register_cases {h : Helper} {m : Registry} (ok : HelperOk K eqv h m) {p : List PStep} (hne : p ≠ []) (hg : ∀ s ∈ p, s.Good)
    (hc : Conforms K [] p) (o : XObj) :
    (∃ e old, At h.elems p e ∧ h.lib.get? e.ptr = some old ∧ eqv old o = true ∧ h.register eqv (p.map PStep.text) o = (h, .ok ())) ∨
    (∃ e old, At h.elems p e ∧ h.lib.get? e.ptr = some old ∧ eqv old o = false ∧ h.register eqv (p.map PStep.text) o =
      ({ elems := h.elems.map (rePtr e h.next), lib := (dictDel h.lib e.ptr).set (uuidStr h.next) o, next := h.next + 1 }, .ok ())) ∨
    (∃ q s par, p = q ++ [s] ∧ (∀ e, ¬ At h.elems p e) ∧ At h.elems q par ∧ h.register eqv (p.map PStep.text) o =
      ({ elems := h.elems ++ [newElem (h.next + 1) par s h.next], lib := h.lib.set (uuidStr h.next) o, next := h.next + 1 + 1 }, .ok ())) ∨
    (h.register eqv (p.map PStep.text) o = ({ h with lib := h.lib.set (uuidStr h.next) o, next := h.next + 1 }, .error .xpathError)) := by
  rw [register_eq hne hg]
  rcases pathLookup h ok.tree h.look none hne hg hc with ⟨e, ha, hv⟩ | ⟨hno, hv⟩
  · rw [hv]
    obtain ⟨o1, old, hm, hold, heq⟩ := ok.abs p e hne ha
    simp only [Helper.replace, hold]
    cases hee : eqv old o with
    | true => exact .inl ⟨e, old, ha, hold, hee, by simp⟩
    | false => exact .inr (.inl ⟨e, old, ha, hold, hee, by simp; exact fun _ _ => rfl⟩)
  · rw [hv]
    rcases List.eq_nil_or_concat p with rfl | ⟨q, s, rfl⟩
    · exact absurd rfl hne
    rw [List.concat_eq_append] at *
    rcases create_step ok hg hc hno o with ⟨par, hp, hcr⟩ | ⟨hq, hn, hcr⟩
    · exact .inr (.inr (.inl ⟨q, s, par, rfl, hno, hp, hcr⟩))
    · exact .inr (.inr (.inr hcr))

/-! ## Nothing else in the library -/

/-- Each entry of the library belongs to an element in the tree. -/
def LibTight (h : Helper) : Prop :=
  ∀ k o, h.lib.get? k = some o → k = py!"root" ∨ ∃ q e, q ≠ [] ∧ At h.elems q e ∧ e.ptr = k

theorem libTight_new : LibTight Helper.new := by
  intro k o h
  simp only [Helper.new, Dict.get?_cons, Dict.get?_nil] at h
  split at h
  · rename_i hk; exact .inl hk.symm
  · cases h

theorem libTight_register {h : Helper} {m : Registry} (ok : HelperOk K eqv h m) (tight : LibTight h) {p : List PStep} (hne : p ≠ [])
    (hg : ∀ s ∈ p, s.Good) (hc : Conforms K [] p) (o : XObj) (hok : (h.register eqv (p.map PStep.text) o).2 = .ok ()) :
    LibTight (h.register eqv (p.map PStep.text) o).1 := by
  rcases register_cases ok hne hg hc o with ⟨e, old, ha, hold, hee, hr⟩ | ⟨e, old, ha, hold, hee, hr⟩ | ⟨q, s, par, rfl, hno, hp, hr⟩ | hr
  · rw [hr]; exact tight
  · rw [hr]
    have hroot := ne_root ok.tree hne ha
    intro k o2 hk
    simp only [Dict.get?_set, get?_dictDel] at hk
    by_cases h1 : k = uuidStr h.next
    · refine .inr ⟨p, _, hne, (at_rePtr ok.tree (ha.mem ok.tree) hroot h.next).2 ⟨e, ha, rfl⟩, ?_⟩
      rw [rePtr_ptr (ok.tree.attrs e (ha.mem ok.tree)), if_pos rfl, h1]
    · by_cases h2 : k = e.ptr
      · rw [if_neg h1, if_pos h2] at hk; cases hk
      · simp only [h1, h2, if_false] at hk
        rcases tight k o2 hk with h3 | ⟨q, x, hq, hx, hxp⟩
        · exact .inl h3
        · refine .inr ⟨q, _, hq, (at_rePtr ok.tree (ha.mem ok.tree) hroot h.next).2 ⟨x, hx, rfl⟩, ?_⟩
          rw [rePtr_ptr (ok.tree.attrs x (hx.mem ok.tree)), if_neg, hxp]
          intro hid
          have := ok.tree.byId (hx.mem ok.tree) (ha.mem ok.tree) hid
          subst this
          exact h2 hxp.symm
  · rw [hr]
    have hat := fun {q' x} => at_add (q := q') (x := x) (u := h.next) ok.tree hp s (i := h.next + 1) (by omega)
    intro k o2 hk
    simp only [Dict.get?_set] at hk
    by_cases h1 : k = uuidStr h.next
    · exact .inr ⟨_, _, hne, hat.2 (.inr ⟨rfl, rfl⟩), by rw [newElem_ptr, h1]⟩
    · simp only [h1, if_false] at hk
      rcases tight k o2 hk with h3 | ⟨q, x, hq, hx, hxp⟩
      · exact .inl h3
      · exact .inr ⟨q, x, hq, hat.2 (.inl hx), hxp⟩
  · rw [hr] at hok; cases hok

theorem unregister_cases {h : Helper} {m : Registry} (ok : HelperOk K eqv h m) {p : List PStep} (hne : p ≠ []) (hg : ∀ s ∈ p, s.Good)
    (hc : Conforms K [] p) :
    (∃ e, At h.elems p e ∧ h.unregister (p.map PStep.text) =
      ({ h with lib := dictDel h.lib e.ptr, elems := h.elems.filter fun x => x.id ≠ e.id }, .ok ())) ∨
    ((∀ e, ¬ At h.elems p e) ∧ h.unregister (p.map PStep.text) = (h, .error .xpathError)) := by
  rw [unregister_eq hne hg]
  rcases pathLookup h ok.tree h.look none hne hg hc with ⟨e, ha, hv⟩ | ⟨hno, hv⟩
  · refine .inl ⟨e, ha, ?_⟩
    rw [hv]
    have hroot := ne_root ok.tree hne ha
    have hlib := ok.lib e (ha.mem ok.tree)
    have hpar : e.parent ≠ none := by
      rcases ok.tree.parent e (ha.mem ok.tree) with h1 | ⟨i, hi, _⟩
      · exact absurd h1 hroot
      · rw [hi]; simp
    have hisn : (h.lib.get? e.ptr).isNone = false := by
      cases hg : h.lib.get? e.ptr with
      | none => rw [hg] at hlib; cases hlib
      | some => rfl
    simp only [removeElems, hisn, hpar, if_false, Bool.false_eq_true]
  · exact .inr ⟨hno, by rw [hv]⟩

theorem libTight_unregister {h : Helper} {m : Registry} (ok : HelperOk K eqv h m) (tight : LibTight h) {p : List PStep} (hne : p ≠ [])
    (hg : ∀ s ∈ p, s.Good) (hc : Conforms K [] p) (hleaf : ∀ q, p <+: q → q ≠ p → m q = none) :
    LibTight (h.unregister (p.map PStep.text)).1 := by
  rcases unregister_cases ok hne hg hc with ⟨e, ha, hr⟩ | ⟨_, hr⟩
  · rw [hr]
    intro k o2 hk
    simp only [get?_dictDel] at hk
    by_cases h2 : k = e.ptr
    · rw [if_pos h2] at hk; cases hk
    · rw [if_neg h2] at hk
      rcases tight k o2 hk with h3 | ⟨q, x, hq, hx, hxp⟩
      · exact .inl h3
      · refine .inr ⟨q, x, hq, (at_remove ok.tree ha hne).2 ⟨hx, fun hpq => ?_⟩, hxp⟩
        by_cases hqp : q = p
        · subst hqp
          have := at_unique ok.tree ha hx
          subst this
          exact h2 hxp.symm
        · obtain ⟨o1, _, hm, _⟩ := ok.abs q x hq hx
          rw [hleaf q hpq hqp] at hm
          cases hm
  · rw [hr]; exact tight

/-! ## All entries of a list -/

/-- The elements found for a list without keys. -/
theorem eval_list {h : Helper} (ht : TreeOk K h.elems h.next) {q : List PStep} {tag : Str} (hg : ∀ s ∈ q, s.Good) (hc : Conforms K [] q)
    (htag : Identifier tag) (look caller) : ∃ es, h.getEtree look ((q ++ [(⟨tag, []⟩ : PStep)]).map PStep.text) caller = .ok es ∧ es.Nodup ∧
      ∀ e, e ∈ es ↔ ∃ ks, At h.elems (q ++ [⟨tag, ks⟩]) e := by
  have hgood : ∀ s ∈ q ++ [(⟨tag, []⟩ : PStep)], s.Good := by
    intro s hs
    rcases List.mem_append.1 hs with hs | hs
    · exact hg s hs
    · rw [List.mem_singleton.1 hs]
      exact ⟨htag, by simp, by simp, by simp⟩
  rw [getEtree_text h look caller _ (by simp) hgood]
  obtain ⟨r, hr⟩ := ht.root
  have h1 : h.elems.take 1 = [rootElem] := by simp [hr]
  rw [h1, List.map_append, List.foldl_append]
  refine ⟨_, rfl, ?_⟩
  rcases eval_path ht q [] rootElem .root hc with ⟨e0, he, hv⟩ | ⟨hno, hv⟩
  · rw [hv]
    have hs : ([(⟨tag, []⟩ : PStep)].map toXStep).foldl (evalStep h.elems) [e0] =
        h.elems.filter fun e => e.parent = some e0.id && fits e tag [] := by
      simp [toXStep, evalStep]
    rw [hs]
    refine ⟨(nodup_of_map' _ ht.ids).sublist List.filter_sublist, fun e => ?_⟩
    simp only [List.mem_filter, fits, List.all_nil, Bool.and_true, Bool.and_eq_true, decide_eq_true_eq]
    simp only [List.nil_append] at he
    constructor
    · rintro ⟨hm, hp, htg⟩
      exact ⟨e.keys, .snoc q e0 _ e he ⟨hm, hp, htg, rfl⟩⟩
    · rintro ⟨ks, ha⟩
      obtain ⟨e1, h3, h4⟩ := at_snoc ha
      have := at_unique ht he h3
      subst this
      exact ⟨h4.mem, h4.par, h4.tag⟩
  · rw [hv, eval_nil _ (by
      intro x hx
      obtain ⟨s, _, rfl⟩ := List.mem_map.1 hx
      exact ⟨s, rfl⟩)]
    refine ⟨by simp, fun e => ⟨by simp, ?_⟩⟩
    rintro ⟨ks, ha⟩
    obtain ⟨e1, h3, _⟩ := at_snoc ha
    exact absurd (by simpa using h3) (hno e1)

theorem libObjs_all {lib : Dict XObj} : ∀ {es : List XElem}, (∀ e ∈ es, (lib.get? e.ptr).isSome = true) →
    ∃ os, libObjs lib es = .ok os ∧ os.length = es.length ∧ ∀ o, o ∈ os ↔ ∃ e ∈ es, lib.get? e.ptr = some o := by
  intro es
  induction es with
  | nil => intro _; exact ⟨[], rfl, rfl, by simp⟩
  | cons e es ih =>
    intro h
    obtain ⟨os, h1, h2, h3⟩ := ih fun x hx => h x (by simp [hx])
    obtain ⟨o, ho⟩ := Option.isSome_iff_exists.1 (h e (by simp))
    refine ⟨o :: os, by simp [libObjs, ho, h1, Except.map], by simp [h2], fun x => ?_⟩
    simp only [List.mem_cons, h3, exists_eq_or_imp, ho, Option.some.injEq]
    constructor
    · rintro (rfl | h) <;> simp_all
    · rintro (rfl | h) <;> simp_all

end

/-! ## The text used when an entry is deleted -/

/-- The comparisons, unquoted. -/
def delBody : List (Str × Str) → Str
  | [] => []
  | [p] => p.1 ++ '=' :: p.2
  | p :: q :: r => p.1 ++ '=' :: p.2 ++ ' ' :: delBody (q :: r)

theorem keyTextDel_body (ks : List (Str × Str)) (h : ks ≠ []) : keyTextDel ks = delBody ks ++ [' '] := by
  fun_induction delBody ks with
  | case1 => exact absurd rfl h
  | case2 p => simp [keyTextDel]
  | case3 p q r ih =>
    have e : keyTextDel (p :: q :: r) = p.1 ++ '=' :: p.2 ++ ' ' :: keyTextDel (q :: r) := rfl
    rw [e, ih (by simp)]
    simp

/-- Reading one unquoted comparison. -/
theorem argCore_plain {k v : Str} (hk : k ≠ []) (hkc : ∀ c ∈ k, cmdChar c = true) (hv : v ≠ [])
    (hvc : ∀ c ∈ v, argChar c = true) (at' : Str) (hat' : at' = [] ∨ at' = ['@']) (rest : Str) (hr : rest = [] ∨ ∃ r, rest = ' ' :: r) :
    argCore (at' ++ k ++ '=' :: v ++ rest) = some (k, v, rest.dropWhile (· = ' ')) := by
  have hat : dropOne (· = '@') (at' ++ k ++ '=' :: v ++ rest) = k ++ '=' :: v ++ rest := by
    rcases hat' with rfl | rfl
    · cases k with
      | nil => exact absurd rfl hk
      | cons c k =>
        have := (cmdChar_not c (hkc c (by simp))).1
        simp [dropOne, this]
    · simp [dropOne]
  have htw := takeWhile_stop (p := cmdChar) (a := k) (c := '=') (b := v ++ rest) hkc (by decide)
  have e : k ++ '=' :: v ++ rest = k ++ '=' :: (v ++ rest) := by simp
  rw [argCore, hat, e, htw.1, htw.2, if_neg hk]
  have hsp : ('=' :: (v ++ rest)).dropWhile (· = ' ') = '=' :: (v ++ rest) := by simp
  obtain ⟨c, cs, rfl⟩ := List.exists_cons_of_ne_nil hv
  have hc := hvc c (by simp)
  have hc1 : c ≠ ' ' := by rintro rfl; revert hc; decide
  have hc2 : isQuote c = false := by
    simp only [argChar, isQuote] at hc ⊢
    simp at hc
    simp [hc]
  have hq : dropOne isQuote ((c :: cs ++ rest).dropWhile (· = ' ')) = c :: cs ++ rest := by
    simp [hc1, dropOne, hc2]
  rw [hsp]
  simp only
  rw [hq, argValue]
  rcases hr with rfl | ⟨r, rfl⟩
  · have := takeWhile_all (p := argChar) hvc
    rw [List.append_nil, this.1, this.2, if_neg hv]
    rfl
  · have htv := takeWhile_stop (p := argChar) (a := c :: cs) (c := ' ') (b := r) hvc (by decide)
    rw [htv.1, htv.2, if_neg hv]
    rfl

theorem argLoop_del (ks : List (Str × Str)) : ∀ (f : Nat) (d : Dict Str) (at' : Str), (at' = [] ∨ at' = ['@']) → KeysOk ks → (∀ k ∈ ks, k.1 ∉ d.map (·.1)) →
    ks ≠ [] → ks.length ≤ f → argLoop f d (at' ++ delBody ks) = .ok (d ++ ks) := by
  have ne : ∀ {k : Str} {a x : Str}, k ≠ [] → ∃ c cs, a ++ k ++ x = c :: cs := by
    intro k a x hk
    exact List.exists_cons_of_ne_nil (by simp [hk])
  fun_induction delBody ks with
  | case1 => intro f d a _ _ _ h; exact absurd rfl h
  | case2 p =>
    intro f d a ha hk hd _ hf
    cases f with
    | zero => simp at hf
    | succ f =>
      obtain ⟨hk1, hk2⟩ := hk.names p (by simp)
      obtain ⟨hv1, hv2⟩ := hk.values p (by simp)
      have hc : ':' ∉ p.1 := fun h => (hk2 _ h).2 rfl
      have hb1 : '|' ∉ p.1 := fun h => (cmdChar_not _ (hk2 _ h).1).2.2.1 rfl
      have hb2 : '|' ∉ p.2 := fun h => (hv2 _ h).2.2 rfl
      have e := argCore_plain hk1 (fun c h => (hk2 c h).1) hv1 (fun c h => (hv2 c h).1) a ha [] (.inl rfl)
      have e2 : a ++ (p.1 ++ '=' :: p.2) = a ++ p.1 ++ '=' :: p.2 ++ [] := by simp
      have hre : argRe (a ++ p.1 ++ '=' :: p.2 ++ []) = some (p.1, p.2, []) := by
        rw [argRe_eq, e]
        · rfl
        · intro pre hpre
          rcases ha with rfl | rfl
          · have := not_starts (fun c h => (hk2 c h).1) hk1 p.2 pre hpre
            simpa using this
          · rcases hpre with rfl | rfl <;> simp [startsWith, List.isPrefixOf]
      obtain ⟨c, cs, hcs⟩ := ne (a := a) (x := '=' :: p.2 ++ []) hk1
      have hcs' : a ++ p.1 ++ '=' :: p.2 ++ [] = c :: cs := by rw [← hcs]; simp
      have hsb : splitBars (p.1 ++ py!"||" ++ p.2 ++ py!"||" ++ []) = [p.1, p.2, []] := by
        have : p.1 ++ py!"||" ++ p.2 ++ py!"||" ++ [] = p.1 ++ '|' :: '|' :: (p.2 ++ '|' :: '|' :: []) := by simp
        rw [this, splitBars_sep _ hb1, splitBars_sep _ hb2]
        rfl
      rw [e2, hcs', argLoop, ← hcs', hre]
      · simp only [hsb]
        rw [localName_plain hc, dict_set_new _ _ _ (hd p (by simp))]
        cases f <;> rfl
      · intro h; cases h
  | case3 p q r ih =>
    intro f d a ha hk hd _ hf
    cases f with
    | zero => simp at hf
    | succ f =>
      obtain ⟨hk1, hk2⟩ := hk.names p (by simp)
      obtain ⟨hv1, hv2⟩ := hk.values p (by simp)
      have hk' : KeysOk (q :: r) := ⟨fun k h => hk.names k (by simp [h]), (List.nodup_cons.1 hk.nodup).2, fun k h => hk.values k (by simp [h])⟩
      have hc : ':' ∉ p.1 := fun h => (hk2 _ h).2 rfl
      have hb1 : '|' ∉ p.1 := fun h => (cmdChar_not _ (hk2 _ h).1).2.2.1 rfl
      have hb2 : '|' ∉ p.2 := fun h => (hv2 _ h).2.2 rfl
      obtain ⟨hdn, c0, cs0, hd0, hd1⟩ := delBody_chars (q :: r) hk' (by simp)
      have e := argCore_plain hk1 (fun c h => (hk2 c h).1) hv1 (fun c h => (hv2 c h).1) a ha (' ' :: delBody (q :: r)) (.inr ⟨_, rfl⟩)
      have hdw : (' ' :: delBody (q :: r)).dropWhile (· = ' ') = delBody (q :: r) := by
        have := (cmdChar_not _ hd1).2.2.2.1
        rw [hd0]
        simp [this]
      rw [hdw] at e
      have e2 : a ++ (p.1 ++ '=' :: p.2 ++ ' ' :: delBody (q :: r)) = a ++ p.1 ++ '=' :: p.2 ++ ' ' :: delBody (q :: r) := by simp
      have hre : argRe (a ++ p.1 ++ '=' :: p.2 ++ ' ' :: delBody (q :: r)) = some (p.1, p.2, delBody (q :: r)) := by
        rw [argRe_eq, e]
        intro pre hpre
        rcases ha with rfl | rfl
        · have := not_starts (fun c h => (hk2 c h).1) hk1 (p.2 ++ ' ' :: delBody (q :: r)) pre hpre
          simpa using this
        · rcases hpre with rfl | rfl <;> simp [startsWith, List.isPrefixOf]
      obtain ⟨c, cs, hcs⟩ := ne (a := a) (x := '=' :: p.2 ++ ' ' :: delBody (q :: r)) hk1
      have hcs' : a ++ p.1 ++ '=' :: p.2 ++ ' ' :: delBody (q :: r) = c :: cs := by rw [← hcs]; simp
      have hsb : splitBars (p.1 ++ py!"||" ++ p.2 ++ py!"||" ++ delBody (q :: r)) = [p.1, p.2, delBody (q :: r)] := by
        have : p.1 ++ py!"||" ++ p.2 ++ py!"||" ++ delBody (q :: r) = p.1 ++ '|' :: '|' :: (p.2 ++ '|' :: '|' :: delBody (q :: r)) := by simp
        rw [this, splitBars_sep _ hb1, splitBars_sep _ hb2, splitBars_plain hdn.1]
      rw [e2, hcs', argLoop, ← hcs', hre]
      · simp only [hsb]
        rw [localName_plain hc, dict_set_new _ _ _ (hd p (by simp))]
        have := ih f (d ++ [(p.1, p.2)]) [] (.inl rfl) hk' ?_ (by simp) (by simp at hf ⊢; omega)
        · rw [List.nil_append] at this
          rw [this]
          simp
        · intro k hks hm
          simp only [List.map_append, List.map_cons, List.map_nil, List.mem_append, List.mem_singleton] at hm
          rcases hm with hm | hm
          · exact hd k (List.mem_cons_of_mem _ hks) hm
          · refine (List.nodup_cons.1 hk.nodup).1 ?_
            show p.fst ∈ _
            rw [← hm]
            exact List.mem_map_of_mem (f := Prod.fst) hks
      · intro h; cases h
where
  delBody_chars : ∀ (ks : List (Str × Str)), KeysOk ks → ks ≠ [] →
      ('|' ∉ delBody ks ∧ ']' ∉ delBody ks) ∧ ∃ c cs, delBody ks = c :: cs ∧ cmdChar c = true := by
    intro ks
    fun_induction delBody ks with
    | case1 => intro _ h; exact absurd rfl h
    | case2 p =>
      intro hk _
      obtain ⟨hk1, hk2⟩ := hk.names p (by simp)
      obtain ⟨hv1, hv2⟩ := hk.values p (by simp)
      have hb1 : '|' ∉ p.1 := fun h => (cmdChar_not _ (hk2 _ h).1).2.2.1 rfl
      have hb2 : '|' ∉ p.2 := fun h => (hv2 _ h).2.2 rfl
      have hb3 : ']' ∉ p.1 := fun h => (cmdChar_not _ (hk2 _ h).1).2.2.2.2.2.1 rfl
      have hb4 : ']' ∉ p.2 := fun h => (hv2 _ h).2.1 rfl
      obtain ⟨c, cs, hcs⟩ := List.exists_cons_of_ne_nil hk1
      exact ⟨by simp [hb1, hb2, hb3, hb4], c, cs ++ '=' :: p.2, by rw [hcs]; rfl, (hk2 c (by simp [hcs])).1⟩
    | case3 p q r ih =>
      intro hk _
      have hk' : KeysOk (q :: r) := ⟨fun k h => hk.names k (by simp [h]), (List.nodup_cons.1 hk.nodup).2, fun k h => hk.values k (by simp [h])⟩
      obtain ⟨⟨i1, i2⟩, _⟩ := ih hk' (by simp)
      obtain ⟨hk1, hk2⟩ := hk.names p (by simp)
      obtain ⟨hv1, hv2⟩ := hk.values p (by simp)
      have hb1 : '|' ∉ p.1 := fun h => (cmdChar_not _ (hk2 _ h).1).2.2.1 rfl
      have hb2 : '|' ∉ p.2 := fun h => (hv2 _ h).2.2 rfl
      have hb3 : ']' ∉ p.1 := fun h => (cmdChar_not _ (hk2 _ h).1).2.2.2.2.2.1 rfl
      have hb4 : ']' ∉ p.2 := fun h => (hv2 _ h).2.1 rfl
      obtain ⟨c, cs, hcs⟩ := List.exists_cons_of_ne_nil hk1
      exact ⟨by simp [hb1, hb2, hb3, hb4, i1, i2], c, cs ++ '=' :: p.2 ++ ' ' :: delBody (q :: r), by rw [hcs]; rfl, (hk2 c (by simp [hcs])).1⟩

theorem delBody_last (ks : List (Str × Str)) (hk : KeysOk ks) (hne : ks ≠ []) :
    ∃ l cs c, ks.getLast? = some l ∧ delBody ks = cs ++ [c] ∧ l.2.getLast? = some c := by
  fun_induction delBody ks with
  | case1 => exact absurd rfl hne
  | case2 p =>
    obtain ⟨hv1, _⟩ := hk.values p (by simp)
    rcases List.eq_nil_or_concat p.2 with h | ⟨cs, c, h⟩
    · exact absurd h hv1
    · rw [List.concat_eq_append] at h
      exact ⟨p, p.1 ++ '=' :: cs, c, rfl, by rw [h]; simp, by rw [h]; simp⟩
  | case3 p q r ih =>
    have hk' : KeysOk (q :: r) := ⟨fun k h => hk.names k (by simp [h]), (List.nodup_cons.1 hk.nodup).2, fun k h => hk.values k (by simp [h])⟩
    obtain ⟨l, cs, c, h1, h2, h3⟩ := ih hk' (by simp)
    exact ⟨l, p.1 ++ '=' :: p.2 ++ ' ' :: cs, c, by simpa using h1, by rw [h2]; simp, h3⟩

theorem delBody_length (ks : List (Str × Str)) : ks.length ≤ (delBody ks).length := by
  fun_induction delBody ks with
  | case1 => simp
  | case2 p => simp; omega
  | case3 p q r ih => simp at ih ⊢; omega

theorem keyStringDel_body (ks : List (Str × Str)) (hk : KeysOk ks) (hne : ks ≠ []) :
    ∃ a, (a = [] ∨ a = ['@']) ∧ keyStringDel ks = '[' :: (a ++ delBody ks) ++ [']'] := by
  match ks with
  | [] => exact absurd rfl hne
  | [p] => exact ⟨['@'], .inr rfl, by simp [keyStringDel, delBody]⟩
  | p :: q :: r =>
    refine ⟨[], .inl rfl, ?_⟩
    have e : keyStringDel (p :: q :: r) = '[' :: rstripBy (· = ' ') (keyTextDel (p :: q :: r)) ++ [']'] := rfl
    obtain ⟨l, cs, c, h1, h2, h3⟩ := delBody_last (p :: q :: r) hk (by simp)
    have hc : c ≠ ' ' := by
      have hl : l ∈ p :: q :: r := List.mem_of_getLast? h1
      have hcm : c ∈ l.2 := List.mem_of_getLast? h3
      have := ((hk.values l hl).2 c hcm).1
      rintro rfl
      revert this
      decide
    rw [e, keyTextDel_body _ (by simp), h2]
    have := rstripBy_tail (p := (· = ' ')) cs [' '] (c := c) (by simp [hc]) (by simp)
    simp only [List.append_assoc, List.singleton_append, List.nil_append] at this ⊢
    rw [this]

/-- The step written when an entry is deleted is read back. -/
theorem tagAttrs_del {tag : Str} (ht : validName tag = true) {ks : List (Str × Str)} (hk : KeysOk ks) (hne : ks ≠ [])
    (hlast : ∀ l, ks.getLast? = some l → l.2.getLast? ≠ some '[') :
    tagAttrs (tag ++ keyStringDel ks) = .ok (tag, some ks) := by
  obtain ⟨ht1, ht2⟩ := name_chars ht
  have hbr : '[' ∉ tag := fun h => (ht2 _ h).1 rfl
  have hbar : '|' ∉ tag := fun h => (ht2 _ h).2.2.2.2.2.1 rfl
  obtain ⟨a, ha, hks⟩ := keyStringDel_body ks hk hne
  obtain ⟨⟨hb1, hb2⟩, c, cs, hc1, hc2⟩ := argLoop_del.delBody_chars ks hk hne
  have hb1' : '|' ∉ a ++ delBody ks := by rcases ha with rfl | rfl <;> simp [hb1]
  have hb2' : ']' ∉ a ++ delBody ks := by rcases ha with rfl | rfl <;> simp [hb2]
  have hbne : a ++ delBody ks ≠ [] := by rw [hc1]; simp
  have e : tag ++ keyStringDel ks = tag ++ '[' :: (a ++ delBody ks) ++ [']'] := by rw [hks]; simp
  rw [tagAttrs, e, attrRe_body ht1 hbr hbne hb2']
  have hs : splitBars (tag ++ py!"||" ++ ('[' :: (a ++ delBody ks) ++ [']']) ++ []) = [tag, '[' :: (a ++ delBody ks) ++ [']']] := by
    have : tag ++ py!"||" ++ ('[' :: (a ++ delBody ks) ++ [']']) ++ [] = tag ++ '|' :: '|' :: ('[' :: (a ++ delBody ks) ++ [']']) := by simp
    rw [this, splitBars_sep _ hbar, splitBars_plain]
    intro hm
    rcases List.mem_append.1 hm with hm | hm
    · rcases List.mem_cons.1 hm with hm | hm
      · revert hm; decide
      · exact hb1' hm
    · revert hm; decide
  simp only [hs]
  have hsp : splitOn ']' ('[' :: (a ++ delBody ks) ++ [']']) = ['[' :: (a ++ delBody ks), []] := by
    have := splitOn_append_sep ']' ('[' :: (a ++ delBody ks)) [] (by
      intro hm
      rcases List.mem_cons.1 hm with hm | hm
      · revert hm; decide
      · exact hb2' hm)
    rw [this]
    rfl
  have hst : stripBracket ('[' :: (a ++ delBody ks)) = a ++ delBody ks := by
    apply stripBracket_cons
    · intro x xs hx
      rcases ha with rfl | rfl
      · rw [List.nil_append, hc1] at hx
        cases hx
        exact (cmdChar_not _ hc2).2.2.2.2.2.2
      · cases hx; decide
    · intro xs x hx
      obtain ⟨l, ys, y, h1, h2, h3⟩ := delBody_last ks hk hne
      rw [h2, ← List.append_assoc] at hx
      have := (List.append_inj' hx rfl).2
      cases this
      rintro rfl
      exact hlast l h1 h3
  rw [hsp]
  have hst0 : stripBracket [] = [] := rfl
  have hloop := argLoop_del ks ((a ++ delBody ks).length + 1) [] a ha hk (by simp) hne (by have := delBody_length ks; simp; omega)
  simp only [List.map_cons, List.map_nil, hst, hst0, argParts, hloop, List.nil_append]
  rfl

end Pyb
