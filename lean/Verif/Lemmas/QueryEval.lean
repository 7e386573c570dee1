import Verif.Lemmas.Query

namespace Pyb
open Py Spec

/-! ## Evaluation -/

/-- The paths an expression leads to. -/
inductive SelX (es : List XElem) : List XP → List PStep → List PStep → Prop where
  | done (p) : SelX es [] p p
  | up {xs p s r} : SelX es xs p r → SelX es (.up :: xs) (p ++ [s]) r
  | node {t xs p s r} : (∃ e, At es (p ++ [s]) e) → s.tag = t.tag → (∀ k ∈ t.keys, k ∈ s.keys) → SelX es xs (p ++ [s]) r → SelX es (.node t :: xs) p r

/-- One step of an expression. -/
def StepX (es : List XElem) : XP → List PStep → List PStep → Prop
  | .up, p, r => ∃ s, p = r ++ [s]
  | .node t, p, r => ∃ s, r = p ++ [s] ∧ (∃ e, At es r e) ∧ s.tag = t.tag ∧ ∀ k ∈ t.keys, k ∈ s.keys

theorem selX_cons {es x xs p r} : SelX es (x :: xs) p r ↔ ∃ q, StepX es x p q ∧ SelX es xs q r := by
  constructor
  · intro h
    cases h with
    | up h => exact ⟨_, ⟨_, rfl⟩, h⟩
    | node h1 h2 h3 h4 => exact ⟨_, ⟨_, rfl, h1, h2, h3⟩, h4⟩
  · rintro ⟨q, h1, h2⟩
    cases x with
    | up =>
      obtain ⟨s, rfl⟩ := h1
      exact .up h2
    | node t =>
      obtain ⟨s, rfl, h3, h4, h5⟩ := h1
      exact .node h3 h4 h5 h2

section
variable {K : List Str → List Str} {es : List XElem} {next : Nat}

theorem at_children {p : List PStep} {s : PStep} {e : XElem} (h : At es (p ++ [s]) e) : ∃ e0, At es p e0 := by
  obtain ⟨e0, h1, _⟩ := at_snoc h
  exact ⟨e0, h1⟩

theorem fits_keys (h : TreeOk K es next) {e : XElem} (he : e ∈ es) {t : PStep} (ht : ∀ k ∈ t.keys, k.1 ≠ py!"obj_ptr") :
    fits e t.tag t.keys = true ↔ e.tag = t.tag ∧ ∀ k ∈ t.keys, k ∈ e.keys := by
  have hat := h.attrs e he
  obtain ⟨hn, ho⟩ := h.good e he
  simp only [fits, Bool.and_eq_true, decide_eq_true_eq, List.all_eq_true]
  constructor
  · rintro ⟨h1, h2⟩
    refine ⟨h1, fun k hk => ?_⟩
    have hg := h2 k hk
    rw [hat, Dict.get?_cons, if_neg (Ne.symm (ht k hk))] at hg
    exact Dict.mem_of_get? hg
  · rintro ⟨h1, h2⟩
    refine ⟨h1, fun k hk => ?_⟩
    rw [hat, Dict.get?_cons, if_neg (Ne.symm (ht k hk))]
    exact Dict.get?_of_mem hn (h2 k hk)

theorem nodup_filter_disjoint {α β : Type} {l : List α} {es : List β} {f : α → β → Bool} (hl : l.Nodup) (he : es.Nodup)
    (hd : ∀ a ∈ l, ∀ b ∈ l, ∀ x ∈ es, f a x = true → f b x = true → a = b) : (l.flatMap fun a => es.filter (f a)).Nodup := by
  induction l with
  | nil => simp
  | cons a l ih =>
    rw [List.flatMap_cons, List.nodup_append]
    refine ⟨he.sublist List.filter_sublist, ih (List.nodup_cons.1 hl).2 fun x hx y hy => hd x (by simp [hx]) y (by simp [hy]), ?_⟩
    rintro x hx y hy rfl
    obtain ⟨b, hb, hy⟩ := List.mem_flatMap.1 hy
    rw [List.mem_filter] at hx hy
    have := hd a (by simp) b (by simp [hb]) x hx.1 hx.2 hy.2
    subst this
    exact (List.nodup_cons.1 hl).1 hb

theorem nodup_eraseDups {α : Type} [DecidableEq α] : ∀ (n : Nat) (l : List α), l.length ≤ n → l.eraseDups.Nodup := by
  intro n
  induction n with
  | zero => intro l h; rw [List.eq_nil_of_length_eq_zero (Nat.le_zero.1 h)]; simp
  | succ n ih =>
    intro l h
    cases l with
    | nil => simp
    | cons a l =>
      rw [List.eraseDups_cons, List.nodup_cons]
      refine ⟨?_, ih _ ?_⟩
      · rw [List.mem_eraseDups, List.mem_filter]
        simp
      · have := List.length_filter_le (fun b => !b == a) l
        simp at h
        omega

/-- The names of the keys in an expression. -/
def XP.NoPtr : XP → Prop
  | .up => True
  | .node t => ∀ k ∈ t.keys, k.1 ≠ py!"obj_ptr"

theorem evalStep_sel (h : TreeOk K es next) (x : XP) (hx : x.NoPtr) {ns : List XElem} (hnd : ns.Nodup) (hat : ∀ e ∈ ns, ∃ p, At es p e) :
    (evalStep es ns x.step).Nodup ∧
    ∀ e, e ∈ evalStep es ns x.step ↔ ∃ e0 ∈ ns, ∃ p r, At es p e0 ∧ At es r e ∧ StepX es x p r := by
  cases x with
  | up =>
    simp only [XP.step, evalStep]
    refine ⟨nodup_eraseDups _ _ (Nat.le_refl _), fun e => ?_⟩
    rw [List.mem_eraseDups, List.mem_filterMap]
    constructor
    · rintro ⟨n, hn, hf⟩
      obtain ⟨p, hp⟩ := hat n hn
      have hpe := List.find?_some hf
      have hme := List.mem_of_find?_eq_some hf
      simp only [decide_eq_true_eq] at hpe
      cases hp with
      | root => simp [rootElem] at hpe
      | snoc p e0 s _ h1 h2 =>
        have : e0 = e := h.byId (h1.mem h) hme (Option.some.inj (h2.par.symm.trans hpe))
        subst this
        exact ⟨n, hn, p ++ [s], p, .snoc p e0 s n h1 h2, h1, s, rfl⟩
    · rintro ⟨n, hn, p, r, h1, h2, s, rfl⟩
      refine ⟨n, hn, ?_⟩
      obtain ⟨e0, h3, h4⟩ := at_snoc h1
      have := at_unique h h2 h3
      subst this
      cases hf : es.find? (fun e => n.parent = some e.id) with
      | none =>
        have := List.find?_eq_none.1 hf e (h2.mem h)
        simp [h4.par] at this
      | some e' =>
        have h5 := List.find?_some hf
        have h6 := List.mem_of_find?_eq_some hf
        simp only [decide_eq_true_eq] at h5
        rw [h.byId (h2.mem h) h6 (Option.some.inj (h4.par.symm.trans h5))]
  | node t =>
    simp only [XP.step, toXStep, evalStep]
    constructor
    · apply nodup_filter_disjoint hnd (nodup_of_map' _ h.ids)
      intro a ha b hb x _ h1 h2
      simp only [Bool.and_eq_true, decide_eq_true_eq] at h1 h2
      obtain ⟨p, hp⟩ := hat a ha
      obtain ⟨q, hq⟩ := hat b hb
      exact h.byId (hp.mem h) (hq.mem h) (Option.some.inj (h1.1.symm.trans h2.1))
    · intro e
      simp only [List.mem_flatMap, List.mem_filter, Bool.and_eq_true, decide_eq_true_eq]
      constructor
      · rintro ⟨n, hn, hme, hpar, hf⟩
        obtain ⟨p, hp⟩ := hat n hn
        obtain ⟨h1, h2⟩ := (fits_keys h hme hx).1 hf
        have ha : At es (p ++ [⟨e.tag, e.keys⟩]) e := .snoc p n _ e hp ⟨hme, hpar, rfl, rfl⟩
        exact ⟨n, hn, p, _, hp, ha, _, rfl, ⟨e, ha⟩, h1, h2⟩
      · rintro ⟨n, hn, p, r, h1, h2, s, rfl, _, h3, h4⟩
        obtain ⟨e0, h5, h6⟩ := at_snoc h2
        have := at_unique h h1 h5
        subst this
        refine ⟨n, hn, h6.mem, h6.par, (fits_keys h h6.mem hx).2 ⟨h6.tag.trans h3, fun k hk => ?_⟩⟩
        rw [h6.keys]
        exact h4 k hk

/-- What an expression gives. -/
theorem eval_sel (h : TreeOk K es next) : ∀ (xs : List XP) (ns : List XElem), (∀ x ∈ xs, x.NoPtr) → ns.Nodup → (∀ e ∈ ns, ∃ p, At es p e) →
    ((xs.map XP.step).foldl (evalStep es) ns).Nodup ∧
    ∀ e, e ∈ (xs.map XP.step).foldl (evalStep es) ns ↔ ∃ e0 ∈ ns, ∃ p r, At es p e0 ∧ At es r e ∧ SelX es xs p r := by
  intro xs
  induction xs with
  | nil =>
    intro ns _ hnd hat
    refine ⟨hnd, fun e => ⟨fun he => ?_, ?_⟩⟩
    · obtain ⟨p, hp⟩ := hat e he
      exact ⟨e, he, p, p, hp, hp, .done p⟩
    · rintro ⟨e0, he0, p, r, h1, h2, h3⟩
      cases h3
      rw [at_unique h h2 h1]
      exact he0
  | cons x xs ih =>
    intro ns hx hnd hat
    obtain ⟨h1, h2⟩ := evalStep_sel h x (hx x (by simp)) hnd hat
    obtain ⟨h3, h4⟩ := ih (evalStep es ns x.step) (fun y hy => hx y (by simp [hy])) h1 (by
      intro e he
      obtain ⟨_, _, _, r, _, hr, _⟩ := (h2 e).1 he
      exact ⟨r, hr⟩)
    rw [List.map_cons, List.foldl_cons]
    refine ⟨h3, fun e => ?_⟩
    rw [h4]
    constructor
    · rintro ⟨e1, he1, q, r, hq, hr, hs⟩
      obtain ⟨e0, he0, p, q', hp, hq', hst⟩ := (h2 e1).1 he1
      have := at_path_unique h hq hq'
      subst this
      exact ⟨e0, he0, p, r, hp, hr, selX_cons.2 ⟨_, hst, hs⟩⟩
    · rintro ⟨e0, he0, p, r, hp, hr, hs⟩
      obtain ⟨q, hst, hs⟩ := selX_cons.1 hs
      have hex : ∃ e1, At es q e1 := by
        cases x with
        | up =>
          obtain ⟨s, rfl⟩ := hst
          exact at_children hp
        | node t =>
          obtain ⟨s, rfl, h5, _⟩ := hst
          exact h5
      obtain ⟨e1, he1⟩ := hex
      exact ⟨e1, (h2 e1).2 ⟨e0, he0, p, q, hp, he1, hst⟩, q, r, he1, hr, hs⟩

/-- The same after an exact path. -/
theorem eval_from (h : TreeOk K es next) {c : List PStep} (hc : Conforms K [] c) (hex : ∃ e, At es c e) {xs : List XP} (hx : ∀ x ∈ xs, x.NoPtr) :
    ((c.map XP.node ++ xs).map XP.step |>.foldl (evalStep es) [rootElem]).Nodup ∧
    ∀ e, e ∈ ((c.map XP.node ++ xs).map XP.step).foldl (evalStep es) [rootElem] ↔ ∃ r, At es r e ∧ SelX es xs c r := by
  obtain ⟨e1, he1⟩ := hex
  have hmap : (c.map XP.node).map XP.step = c.map toXStep := by simp [XP.step]
  rcases eval_path h c [] rootElem .root hc with ⟨e0, he, hv⟩ | ⟨hno, _⟩
  · simp only [List.nil_append] at he
    rw [List.map_append, hmap, List.foldl_append, hv]
    obtain ⟨h1, h2⟩ := eval_sel h xs [e0] hx (by simp) (by intro e hm; rw [List.mem_singleton.1 hm]; exact ⟨c, he⟩)
    refine ⟨h1, fun e => ?_⟩
    rw [h2]
    constructor
    · rintro ⟨e', he', p, r, h3, h4, h5⟩
      rw [List.mem_singleton.1 he'] at h3
      rw [at_path_unique h he h3]
      exact ⟨r, h4, h5⟩
    · rintro ⟨r, h3, h4⟩
      exact ⟨e0, by simp, c, r, he, h3, h4⟩
  · exact absurd he1 (by simpa using hno e1)

end

/-! ## The registry -/

section
variable {K : List Str → List Str} {eqv : XObj → XObj → Bool} {h : Helper} {m : Registry}

theorem selX_iff (ok : HelperOk K eqv h m) {val : QVal → Str → Prop} (w : QComp → Str) : ∀ (ps : List QPart) (p r : List PStep),
    (∀ n preds, .step n preds ∈ ps → ∀ c ∈ preds.flatten, ∀ v, val c.val v ↔ v = w c) →
    (SelX h.elems (ps.map (xpOf w)) p r ↔ Selects m val ps p r) := by
  intro ps
  induction ps with
  | nil =>
    intro p r _
    constructor
    · intro hs; cases hs; exact .done _
    · intro hs; cases hs; exact .done _
  | cons q ps ih =>
    intro p r hw
    have ih := fun p => ih p r fun n preds hm => hw n preds (by simp [hm])
    cases q with
    | up =>
      constructor
      · intro hs
        cases hs with
        | up hs => exact .up ((ih _).1 hs)
      · intro hs
        cases hs with
        | up hs => exact .up ((ih _).2 hs)
    | step n preds =>
      have hval := hw n preds (by simp)
      constructor
      · intro hs
        cases hs with
        | node h1 h2 h3 h4 =>
          refine .step ((ok.some_iff (by simp)).2 h1) h2 (fun cs hcs c hc => ?_) ((ih _).1 h4)
          have hm : c ∈ preds.flatten := List.mem_flatten.2 ⟨cs, hcs, hc⟩
          exact ⟨w c, (hval c hm _).2 rfl, h3 _ (List.mem_map_of_mem (f := fun c : QComp => (c.name.name, w c)) hm)⟩
      · intro hs
        cases hs with
        | step h1 h2 h3 h4 =>
          refine .node ((ok.some_iff (by simp)).1 h1) h2 (fun k hk => ?_) ((ih _).2 h4)
          obtain ⟨c, hm, rfl⟩ := List.mem_map.1 hk
          obtain ⟨cs, hcs, hc⟩ := List.mem_flatten.1 hm
          obtain ⟨v, hv, hin⟩ := h3 cs hcs c hc
          rw [(hval c hm v).1 hv] at hin
          exact hin

/-- The objects of the elements found, with their paths. -/
theorem objs_paths (ok : HelperOk K eqv h m) : ∀ (out : List XElem), out.Nodup → (∀ e ∈ out, ∃ r, r ≠ [] ∧ At h.elems r e) →
    ∃ ys : List (List PStep × XObj), libObjs h.lib out = .ok (ys.map Prod.snd) ∧ (ys.map Prod.fst).Nodup ∧
      (∀ r, r ∈ ys.map Prod.fst ↔ ∃ e ∈ out, At h.elems r e) ∧ ∀ y ∈ ys, ∃ o, m y.1 = some o ∧ (y.2 = o ∨ eqv y.2 o = true) := by
  intro out
  induction out with
  | nil => intro _ _; exact ⟨[], rfl, by simp, by simp, by simp⟩
  | cons e out ih =>
    intro hnd hat
    obtain ⟨ys, h1, h2, h3, h4⟩ := ih (List.nodup_cons.1 hnd).2 fun x hx => hat x (by simp [hx])
    obtain ⟨r, hr, ha⟩ := hat e (by simp)
    obtain ⟨o, o', h5, h6, h7⟩ := ok.abs r e hr ha
    refine ⟨(r, o') :: ys, by simp [libObjs, h6, h1, Except.map], ?_, fun q => ?_, ?_⟩
    · rw [List.map_cons, List.nodup_cons]
      refine ⟨fun hm => ?_, h2⟩
      obtain ⟨e', he', ha'⟩ := (h3 r).1 hm
      rw [at_unique ok.tree ha ha'] at hnd
      exact (List.nodup_cons.1 hnd).1 he'
    · rw [List.map_cons, List.mem_cons, h3]
      constructor
      · rintro (rfl | ⟨e', he', ha'⟩)
        · exact ⟨e, by simp, ha⟩
        · exact ⟨e', by simp [he'], ha'⟩
      · rintro ⟨e', he', ha'⟩
        rcases List.mem_cons.1 he' with rfl | he'
        · exact .inl (at_path_unique ok.tree ha' ha)
        · exact .inr ⟨e', he', ha'⟩
    · intro y hy
      rcases List.mem_cons.1 hy with rfl | hy
      · exact ⟨o, h5, h7⟩
      · exact h4 y hy

theorem selects_last {val : QVal → Str → Prop} : ∀ (i : List QPart) {n preds p r}, Selects m val (i ++ [.step n preds]) p r → r ≠ [] := by
  intro i
  induction i with
  | nil =>
    intro n preds p r hs
    cases hs with
    | step _ _ _ hs => cases hs; simp
  | cons q i ih =>
    intro n preds p r hs
    cases hs with
    | up hs => exact ih hs
    | step _ _ _ hs => exact ih hs

/-- The result of a lookup, for an expression from an element on. -/
theorem found (ok : HelperOk K eqv h m) {val : QVal → Str → Prop} (w : QComp → Str) {c : List PStep} (hc : Conforms K [] c) (hex : ∃ e, At h.elems c e)
    {ps : List QPart} (hg : ∀ p ∈ ps, p.Good) (hl : ∃ i n preds, ps = i ++ [.step n preds])
    (hw : ∀ n preds, .step n preds ∈ ps → ∀ c ∈ preds.flatten, ∀ v, val c.val v ↔ v = w c) :
    ∃ ys : List (List PStep × XObj),
      libObjs h.lib (((c.map XP.node ++ ps.map (xpOf w)).map XP.step).foldl (evalStep h.elems) (h.elems.take 1)) = .ok (ys.map Prod.snd) ∧
      (ys.map Prod.fst).Nodup ∧ (∀ r, r ∈ ys.map Prod.fst ↔ Selects m val ps c r) ∧
      ∀ y ∈ ys, ∃ o, m y.1 = some o ∧ (y.2 = o ∨ eqv y.2 o = true) := by
  obtain ⟨rest, hroot⟩ := ok.tree.root
  have h0 : h.elems.take 1 = [rootElem] := by simp [hroot]
  have hptr : ∀ x ∈ ps.map (xpOf w), x.NoPtr := by
    intro x hx
    obtain ⟨p, hp, rfl⟩ := List.mem_map.1 hx
    have := hg p hp
    cases p with
    | up => trivial
    | step n preds =>
      intro k hk
      obtain ⟨c, hc, rfl⟩ := List.mem_map.1 hk
      obtain ⟨cs, h1, h2⟩ := List.mem_flatten.1 hc
      exact (this.2.2.1 cs h1 c h2).1.ptr
  obtain ⟨h1, h2⟩ := eval_from ok.tree hc hex hptr
  rw [h0]
  have hmem : ∀ e, e ∈ ((c.map XP.node ++ ps.map (xpOf w)).map XP.step).foldl (evalStep h.elems) [rootElem] ↔ ∃ r, At h.elems r e ∧ Selects m val ps c r := by
    intro e
    rw [h2]
    constructor
    · rintro ⟨r, h3, h4⟩; exact ⟨r, h3, (selX_iff ok w ps c r hw).1 h4⟩
    · rintro ⟨r, h3, h4⟩; exact ⟨r, h3, (selX_iff ok w ps c r hw).2 h4⟩
  obtain ⟨i, n, preds, hl⟩ := hl
  obtain ⟨ys, h3, h4, h5, h6⟩ := objs_paths ok _ h1 (by
    intro e he
    obtain ⟨r, h3, h4⟩ := (hmem e).1 he
    rw [hl] at h4
    exact ⟨r, selects_last i h4, h3⟩)
  refine ⟨ys, h3, h4, fun r => ?_, h6⟩
  rw [h5]
  constructor
  · rintro ⟨e, he, ha⟩
    obtain ⟨r', h7, h8⟩ := (hmem e).1 he
    rw [at_path_unique ok.tree ha h7]
    exact h8
  · intro hs
    have hex : ∃ e, At h.elems r e := by
      have hsx := (selX_iff ok w ps c r hw).2 hs
      obtain ⟨e0, he0⟩ := hex
      have : ∀ xs p r, SelX h.elems xs p r → (∃ e, At h.elems p e) → ∃ e, At h.elems r e := by
        intro xs p r hs
        induction hs with
        | done p => exact id
        | up _ ih => rintro ⟨e, he⟩; exact ih (at_children he)
        | node h1 _ _ _ ih => intro _; exact ih h1
      exact this _ _ _ hsx ⟨e0, he0⟩
    obtain ⟨e, he⟩ := hex
    exact ⟨e, (hmem e).2 ⟨r, he, hs⟩, he⟩

theorem enc_rstep {look caller} (w : QComp → Str) {r : RStep} (hr : ∀ n, r = .name n → n.Good) : Enc look caller r.text (xpOf w r.part) ∧ (xpOf w r.part).Ok := by
  cases r with
  | up => exact ⟨enc_up look caller, trivial⟩
  | name n => exact ⟨enc_name (hr n rfl), xok_name (hr n rfl)⟩

theorem rpart_good {rs : List RStep} (hg : GoodCurrent rs) : (∀ p ∈ rs.map RStep.part, p.Good) ∧ ∃ i n preds, rs.map RStep.part = i ++ [.step n preds] := by
  constructor
  · intro p hp
    obtain ⟨r, hr, rfl⟩ := List.mem_map.1 hp
    cases r with
    | up => trivial
    | name n => exact ⟨hg.1 n hr, by simp, by simp, by simp⟩
  · obtain ⟨_, i, n, rfl⟩ := hg
    exact ⟨i.map RStep.part, n, [], by simp [RStep.part]⟩

/-- The lookup made for steps from a path. -/
theorem look_from (ok : HelperOk K eqv h m) {c : List PStep} (hgc : ∀ s ∈ c, s.Good) (hc : Conforms K [] c) (hex : ∃ e, At h.elems c e) {rs : List RStep}
    (hg : GoodCurrent rs) (hup : c = [] → ∀ rs', rs ≠ .up :: rs') {r : List PStep} {o : XObj} (hr : Reaches m rs c r)
    (hu : ∀ r', Reaches m rs c r' → r' = r) (ho : m r = some o) :
    ∃ o', h.look (c.map PStep.text ++ rs.map RStep.text) = .ok [o'.text] ∧ (o' = o ∨ eqv o' o = true) := by
  let w : QComp → Str := fun _ => []
  obtain ⟨hp1, hp2⟩ := rpart_good hg
  have hnopred : ∀ n preds, QPart.step n preds ∈ rs.map RStep.part → preds = [] := by
    intro n preds hm
    obtain ⟨r, _, hr⟩ := List.mem_map.1 hm
    cases r with
    | up => cases hr
    | name n' => cases hr; rfl
  obtain ⟨ys, h1, h2, h3, h4⟩ := found ok (val := fun _ _ => False) w hc hex hp1 hp2 (by
    intro n preds hm c' hc'
    rw [hnopred n preds hm] at hc'
    cases hc')
  -- one object
  obtain ⟨y, rfl⟩ : ∃ y, ys = [y] := by
    match ys, h2, h3 with
    | [], _, h3 => exact absurd ((h3 r).2 hr) (by simp)
    | [y], _, _ => exact ⟨y, rfl⟩
    | a :: b :: t, h2, h3 =>
      have e1 := hu a.1 ((h3 a.1).1 (by simp))
      have e2 := hu b.1 ((h3 b.1).1 (by simp))
      simp [e1, e2] at h2
  have hy : y.1 = r := hu _ ((h3 y.1).1 (by simp))
  obtain ⟨o1, h5, h6⟩ := h4 y (by simp)
  rw [hy, ho] at h5
  cases h5
  refine ⟨y.2, ?_, h6⟩
  -- the text
  have hl : ∃ l : List (Str × XP), l.map Prod.fst = c.map PStep.text ++ rs.map RStep.text ∧ l.map Prod.snd = c.map XP.node ++ (rs.map RStep.part).map (xpOf w) ∧
      l ≠ [] ∧ (∀ y ∈ l, Enc (fun _ => .ok []) none y.1 y.2 ∧ y.2.Ok) ∧ ∀ y l', l = y :: l' → isRelative y.1 = false ∧ y.1 ≠ [] := by
    refine ⟨c.map (fun s => (s.text, XP.node s)) ++ rs.map fun r => (r.text, xpOf w r.part), by simp; rfl, by simp; rfl, ?_, ?_, ?_⟩
    · obtain ⟨_, i, n, rfl⟩ := hg
      simp
    · intro y hy
      rcases List.mem_append.1 hy with hy | hy
      · obtain ⟨s, hs, rfl⟩ := List.mem_map.1 hy
        exact ⟨enc_text (hgc s hs), (hgc s hs).xok⟩
      · obtain ⟨r, hr, rfl⟩ := List.mem_map.1 hy
        exact enc_rstep w fun n hn => hg.1 n (hn ▸ hr)
    · intro y l' hyl
      cases c with
      | cons s c =>
        simp only [List.map_cons, List.cons_append, List.cons.injEq] at hyl
        rw [← hyl.1]
        exact text_rel (hgc s (by simp))
      | nil =>
        cases rs with
        | nil => cases hyl
        | cons r rs =>
          simp only [List.map_nil, List.nil_append, List.map_cons, List.cons.injEq] at hyl
          rw [← hyl.1]
          cases r with
          | up => exact absurd rfl (hup rfl rs)
          | name n =>
            have := qname_chars (hg.1 n (by simp))
            exact ⟨this.2.1, this.1⟩
  obtain ⟨l, hl1, hl2, hl3, hl4, hl5⟩ := hl
  obtain ⟨y0, l', rfl⟩ := List.exists_cons_of_ne_nil hl3
  obtain ⟨h7, h8⟩ := hl5 y0 l' rfl
  have henc := encodePath_abs l' y0 h7 h8 hl4
  rw [hl1, hl2] at henc
  have hok : ∀ x ∈ c.map XP.node ++ (rs.map RStep.part).map (xpOf w), x.Ok := by
    rw [← hl2]
    intro x hx
    obtain ⟨y, hy, rfl⟩ := List.mem_map.1 hx
    exact (hl4 y hy).2
  have hget := getEtree_xp h _ none _ (by rw [← hl2]; simp) hok henc
  rw [Helper.look, Helper.getPlain, hget]
  simp only [h1]
  rfl

theorem look_current (ok : HelperOk K eqv h m) {c : List PStep} (hne : c ≠ []) (hgc : ∀ s ∈ c, s.Good) (hc : Conforms K [] c) (hp : ParentThere m c) {rs : List RStep}
    (hg : GoodCurrent rs) {r : List PStep} {o : XObj} (hr : Reaches m rs c r)
    (hu : ∀ r', Reaches m rs c r' → r' = r) (ho : m r = some o) :
    ∃ o', h.look (currentParts c rs) = .ok [o'.text] ∧ (o' = o ∨ eqv o' o = true) := by
  obtain ⟨p, s, rfl⟩ : ∃ p s, c = p ++ [s] := by
    rcases List.eq_nil_or_concat c with h | ⟨p, s, h⟩
    · exact absurd h hne
    · exact ⟨p, s, by simpa using h⟩
  simp only [ParentThere, List.dropLast_concat] at hp
  have hexp : ∃ e, At h.elems p e := by
    rcases hp with rfl | hp
    · exact ⟨_, .root⟩
    · by_cases hpn : p = []
      · subst hpn; exact ⟨_, .root⟩
      · exact (ok.some_iff hpn).1 hp
  have hstep : ∀ rs' r', Reaches m (.up :: rs') (p ++ [s]) r' ↔ Reaches m rs' p r' := by
    intro rs' r'
    constructor
    · intro hs
      have hs : Selects m (fun _ _ => False) (.up :: rs'.map RStep.part) (p ++ [s]) r' := hs
      generalize hq : p ++ [s] = q at hs
      cases hs with
      | up hs =>
        rw [(snoc_inj hq).1]
        exact hs
    · intro hs
      exact .up hs
  cases rs with
  | nil => obtain ⟨_, i, n, h⟩ := hg; simp at h
  | cons a rs =>
    cases a with
    | up =>
      have hg' : GoodCurrent rs := by
        obtain ⟨h1, i, n, h2⟩ := hg
        refine ⟨fun n hn => h1 n (by simp [hn]), ?_⟩
        cases i with
        | nil => simp at h2
        | cons x i => exact ⟨i, n, by simpa using (List.cons.inj h2).2⟩
      have := look_from ok (fun s hs => hgc s (by simp [hs])) (conforms_append hc).1 hexp hg' (by
        rintro rfl rs' rfl
        have := (hstep _ _).1 hr
        have this : Selects m (fun _ _ => False) (.up :: rs'.map RStep.part) [] r := this
        generalize hq : ([] : List PStep) = q at this
        cases this with
        | up hs => simp at hq) ((hstep _ _).1 hr) (fun r' hr' => hu r' ((hstep _ _).2 hr')) ho
      simpa [currentParts] using this
    | name n =>
      have hexc : ∃ e, At h.elems (p ++ [s]) e := by
        have hr' : Selects m (fun _ _ => False) (.step n [] :: rs.map RStep.part) (p ++ [s]) r := hr
        cases hr' with
        | step h1 _ _ _ =>
          obtain ⟨e, he⟩ := (ok.some_iff (by simp)).1 h1
          exact at_children he
      have := look_from ok hgc hc hexc hg (by simp) hr hu ho
      simpa [currentParts] using this

end
end Pyb
