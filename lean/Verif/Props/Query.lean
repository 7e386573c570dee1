import Verif.Lemmas.QueryEval
import Verif.Props.XPath

/-! # The paths of leafrefs: C80 -/

namespace Pyb
open Py Spec

section
variable {K : List Str → List Str} {eqv : XObj → XObj → Bool}

/-- C80: after any history of `register` and `unregister`, a leafref's path (absolute or relative, with or without
prefixes, with predicates that compare keys with literals or with `current()`) gives exactly
the objects at the nodes it selects, each once.  The leaf's path is one of the schema, its parent is there, and for a
relative path the leaf is; each `current()` leads to exactly one node, whose text has no `'`;
objects that are `==` have the same text. -/
theorem C80_select_partial {ops : List RegOp} (hv : ∀ op ∈ ops, ValidPath K op.path) {q : Query} (hq : q.Good) {leaf : Option (List PStep)}
    (hleaf : ∀ l, leaf = some l → ValidPath K l ∧ ParentThere (registryAfter ops) l)
    (hrel : q.absolute = false → ∃ l, leaf = some l ∧ (registryAfter ops l).isSome = true)
    (hcur : ∀ rs, q.Currents rs → UniqueNode (registryAfter ops) leaf rs) (heq : ∀ a b, eqv a b = true → a.text = b.text) :
    ∃ ys : List (List PStep × XObj), (runOps eqv ops).getStr q.text (leaf.map (·.map PStep.text)) = .ok (ys.map Prod.snd) ∧
      (ys.map Prod.fst).Nodup ∧ (∀ r, r ∈ ys.map Prod.fst ↔ q.Selected (registryAfter ops) leaf r) ∧
      ∀ y ∈ ys, ∃ o, registryAfter ops y.1 = some o ∧ (y.2 = o ∨ eqv y.2 o = true) := by
  have ok := runOps_ok (eqv := eqv) hv
  generalize runOps eqv ops = h at *
  generalize registryAfter ops = m at *
  -- the values
  have hval : ∀ n preds, QPart.step n preds ∈ q.parts → ∀ c ∈ preds.flatten, ∃ v, (∀ v', ValueOf m leaf c.val v' ↔ v' = v) ∧ '\'' ∉ v ∧
      Resolves h.look (leaf.map (·.map PStep.text)) c.val v := by
    intro n preds hm c hc
    obtain ⟨cs, hcs, hcc⟩ := List.mem_flatten.1 hc
    have hg := ((hq.parts _ hm).2.2.1 cs hcs c hcc).2
    cases hcv : c.val with
    | lit a v =>
      rw [hcv] at hg
      exact ⟨v, fun v' => Iff.rfl, fun hm => (hg.2.2.1 _ hm).2.2.1 rfl, rfl⟩
    | current rs =>
      rw [hcv] at hg
      obtain ⟨l, r, o, h1, h2, h3, h4, h5⟩ := hcur rs ⟨n, preds, hm, cs, hcs, c, hcc, hcv⟩
      obtain ⟨hvl, hpl⟩ := hleaf l h1
      obtain ⟨o', h6, h7⟩ := look_current ok hvl.ne hvl.good hvl.conf hpl hg h2 h3 h4
      refine ⟨o.text, fun v' => ⟨?_, ?_⟩, h5, currentParts l rs, ?_, ?_⟩
      · rintro ⟨l', r', o1, e1, e2, e3, rfl⟩
        rw [h1] at e1
        cases e1
        rw [h3 r' e2, h4] at e3
        cases e3
        rfl
      · rintro rfl
        exact ⟨l, r, o, h1, h2, h4, rfl⟩
      · rw [h1]
        exact currentPath_text hg l
      · rw [h6]
        rcases h7 with rfl | h7
        · rfl
        · rw [heq _ _ h7]
  classical
  let w : QComp → Str := fun c => if hw : ∃ v, ValueOf m leaf c.val v then Classical.choose hw else []
  have hw : ∀ n preds, QPart.step n preds ∈ q.parts → ∀ c ∈ preds.flatten, (∀ v, ValueOf m leaf c.val v ↔ v = w c) ∧ '\'' ∉ w c ∧
      Resolves h.look (leaf.map (·.map PStep.text)) c.val (w c) := by
    intro n preds hm c hc
    obtain ⟨v, h1, h2, h3⟩ := hval n preds hm c hc
    have hex : ∃ v, ValueOf m leaf c.val v := ⟨v, (h1 v).2 rfl⟩
    have : w c = v := by
      simp only [w, hex, dif_pos]
      exact (h1 _).1 (Classical.choose_spec hex)
    rw [this]
    exact ⟨h1, h2, h3⟩
  -- the expression
  have henc : ∀ p ∈ q.parts, Enc h.look (leaf.map (·.map PStep.text)) p.text (xpOf w p) ∧ (xpOf w p).Ok := by
    intro p hp
    refine ⟨enc_part w (hq.parts p hp) ?_, xpOf_ok w (hq.parts p hp) ?_⟩
    · rintro n preds rfl c hc
      exact (hw n preds hp c hc).2.2
    · rintro n preds rfl c hc
      exact (hw n preds hp c hc).2.1
  have hxok : ∀ x ∈ q.parts.map (xpOf w), x.Ok := by
    intro x hx
    obtain ⟨p, hp, rfl⟩ := List.mem_map.1 hx
    exact (henc p hp).2
  have hne : q.parts ≠ [] := by obtain ⟨i, n, preds, h⟩ := hq.last; rw [h]; simp
  rw [Helper.getStr, pathParts_query hq, Helper.get]
  cases hab : q.absolute with
  | true =>
    obtain ⟨ys, h1, h2, h3, h4⟩ := found ok (val := ValueOf m leaf) w (.nil []) ⟨_, .root⟩ hq.parts hq.last fun n preds hm c hc => (hw n preds hm c hc).1
    refine ⟨ys, ?_, h2, fun r => ?_, h4⟩
    · have hl := encodePath_root (q.parts.map fun p => (p.text, xpOf w p)) (by simpa using hne) (by
        intro y hy
        obtain ⟨p, hp, rfl⟩ := List.mem_map.1 hy
        exact henc p hp)
      have e1 : (q.parts.map fun p => (p.text, xpOf w p)).map Prod.fst = q.parts.map QPart.text := by simp
      have e2 : (q.parts.map fun p => (p.text, xpOf w p)).map Prod.snd = q.parts.map (xpOf w) := by simp
      rw [e1, e2] at hl
      simp only [if_true, List.cons_append, List.nil_append]
      rw [getEtree_xp h _ _ _ (by simpa using hne) hxok hl]
      simpa using h1
    · rw [h3, Query.Selected, hab]
      simp
  | false =>
    obtain ⟨l, hl, hml⟩ := hrel hab
    obtain ⟨hvl, _⟩ := hleaf l hl
    obtain ⟨ps, hps⟩ : ∃ ps, q.parts = .up :: ps := by
      rcases hq.start with h | h
      · rw [hab] at h; cases h
      · exact h
    obtain ⟨ys, h1, h2, h3, h4⟩ := found ok (val := ValueOf m leaf) w hvl.conf ((ok.some_iff hvl.ne).1 hml) hq.parts hq.last fun n preds hm c hc => (hw n preds hm c hc).1
    refine ⟨ys, ?_, h2, fun r => ?_, h4⟩
    · have hl1 := encodePath_rel (look := h.look) (caller := leaf.map (·.map PStep.text)) (ps.map fun p => (p.text, xpOf w p)) (py!"..", XP.up) (by decide) (by
        intro y hy
        rcases List.mem_cons.1 hy with rfl | hy
        · exact ⟨enc_up _ _, trivial⟩
        · obtain ⟨p, hp, rfl⟩ := List.mem_map.1 hy
          exact henc p (by rw [hps]; simp [hp]))
      have e1 : ((py!"..", XP.up) :: ps.map fun p => (p.text, xpOf w p)).map Prod.fst = q.parts.map QPart.text := by rw [hps]; simp; rfl
      have e2 : (ps.map fun p => (p.text, xpOf w p)).map Prod.snd = ps.map (xpOf w) := by simp
      rw [e1, e2] at hl1
      obtain ⟨s, l', rfl⟩ := List.exists_cons_of_ne_nil hvl.ne
      have hcal := encodePath_abs (look := h.look) (caller := none) (l'.map fun s => (s.text, XP.node s)) (s.text, XP.node s) (text_rel (hvl.good s (by simp))).1
        (text_rel (hvl.good s (by simp))).2 (by
          intro y hy
          have hy : y ∈ (s :: l').map fun s => (s.text, XP.node s) := hy
          obtain ⟨t, ht, rfl⟩ := List.mem_map.1 hy
          exact ⟨enc_text (hvl.good t ht), (hvl.good t ht).xok⟩)
      have e3 : ((s.text, XP.node s) :: l'.map fun s => (s.text, XP.node s)).map Prod.fst = (s :: l').map PStep.text := by simp
      have e4 : ((s.text, XP.node s) :: l'.map fun s => (s.text, XP.node s)).map Prod.snd = (s :: l').map XP.node := by simp
      rw [e3, e4] at hcal
      have hx : q.parts.map (xpOf w) = .up :: ps.map (xpOf w) := by rw [hps]; rfl
      rw [hl] at hl1 ⊢
      simp only [Option.map_some, Bool.false_eq_true, if_false, List.nil_append] at hl1 ⊢
      rw [getEtree_rel h h.look _ (xs := ps.map (xpOf w)) (ys := (s :: l').map XP.node) (by simp) (by
        intro x hxm
        rcases List.mem_append.1 hxm with hxm | hxm
        · obtain ⟨t, ht, rfl⟩ := List.mem_map.1 hxm
          exact (hvl.good t ht).xok
        · exact hxok x (by rw [hx]; exact hxm)) hl1 hcal]
      rw [hx] at h1
      exact h1
    · rw [h3, Query.Selected, hab]
      simp [hl]

/-- C80: a leafref to list keys takes a value exactly if it is that of a node its path selects (or no
instance is required); otherwise it raises ValueError.  The hypotheses are those of `C80_select_partial`, and that each
object at a selected node, or equal to one, is a key leaf with its text. -/
theorem C80_keyref_partial {ops : List RegOp} (hv : ∀ op ∈ ops, ValidPath K op.path) {q : Query} (hq : q.Good) {leaf : Option (List PStep)}
    (hleaf : ∀ l, leaf = some l → ValidPath K l ∧ ParentThere (registryAfter ops) l)
    (hrel : q.absolute = false → ∃ l, leaf = some l ∧ (registryAfter ops l).isSome = true)
    (hcur : ∀ rs, q.Currents rs → UniqueNode (registryAfter ops) leaf rs) (heq : ∀ a b, eqv a b = true → a.text = b.text)
    {info : XObj → RefObj} (hinfo : ∀ r o x, q.Selected (registryAfter ops) leaf r → registryAfter ops r = some o → (x = o ∨ eqv x o = true) → info x = ⟨true, .leaf, x.text⟩)
    (setT : Str → Except Err Unit) (req : Bool) (value : Str) :
    ((req = false ∨ ∃ r o, q.Selected (registryAfter ops) leaf r ∧ registryAfter ops r = some o ∧ o.text = value) →
      refInit (some (runOps eqv ops)) info setT req q.text (leaf.map (·.map PStep.text)) value = .ok (.value value, none)) ∧
    (¬ (req = false ∨ ∃ r o, q.Selected (registryAfter ops) leaf r ∧ registryAfter ops r = some o ∧ o.text = value) →
      refInit (some (runOps eqv ops)) info setT req q.text (leaf.map (·.map PStep.text)) value = .error .valueError) := by
  obtain ⟨ys, h1, _, h3, h4⟩ := C80_select_partial hv hq hleaf hrel hcur heq
  have hi : ∀ x ∈ ys.map Prod.snd, info x = ⟨true, .leaf, x.text⟩ := by
    intro x hx
    obtain ⟨y, hy, rfl⟩ := List.mem_map.1 hx
    obtain ⟨o, ho, he⟩ := h4 y hy
    exact hinfo y.1 o y.2 ((h3 _).1 (List.mem_map_of_mem hy)) ho he
  have hr : Referenced ((ys.map Prod.snd).map info) value ↔ ∃ r o, q.Selected (registryAfter ops) leaf r ∧ registryAfter ops r = some o ∧ o.text = value := by
    constructor
    · rintro ⟨i, hm, hval⟩
      obtain ⟨x, hx, rfl⟩ := List.mem_map.1 hm
      rw [hi x hx] at hval
      obtain ⟨y, hy, rfl⟩ := List.mem_map.1 hx
      obtain ⟨o, ho, he⟩ := h4 y hy
      refine ⟨y.1, o, (h3 _).1 (List.mem_map_of_mem hy), ho, ?_⟩
      have hval := (List.mem_singleton.1 hval).symm
      rcases he with he | he
      · rw [← he]; exact hval
      · rw [← heq _ _ he]; exact hval
    · rintro ⟨r, o, hs, ho, rfl⟩
      obtain ⟨y, hy, rfl⟩ := List.mem_map.1 ((h3 r).2 hs)
      obtain ⟨o', ho', he⟩ := h4 y hy
      rw [ho] at ho'
      cases ho'
      have hm : y.2 ∈ ys.map Prod.snd := List.mem_map_of_mem hy
      refine ⟨info y.2, List.mem_map_of_mem hm, ?_⟩
      rw [hi _ hm]
      rcases he with he | he
      · rw [he]; exact List.mem_singleton.2 rfl
      · rw [← heq _ _ he]; exact List.mem_singleton.2 rfl
  rw [← hr]
  refine C54_require_partial h1 ?_ (.inr fun x hx es => ?_)
  · rintro ⟨i, he, hk, _⟩
    have : i ∈ (ys.map Prod.snd).map info := by rw [he]; exact List.mem_singleton.2 rfl
    obtain ⟨x, hx, rfl⟩ := List.mem_map.1 this
    rw [hi x hx] at hk
    cases hk
  · rw [hi x hx]; exact fun h => by cases h

end

/-! An example: the unit of an interface is named by two leaves, and a third refers to it. -/

def exRefLeaf : List PStep := [⟨py!"unit-ref", []⟩]

def exRefOps : List RegOp :=
  [.register [⟨py!"if-ref", []⟩] ⟨1, py!"ge-0/0/1"⟩, .register exRefLeaf ⟨2, []⟩, .register exIfs ⟨3, []⟩, .register (exIf py!"e0") ⟨4, []⟩,
   .register (exIf py!"ge-0/0/1") ⟨5, []⟩, .register exUnit ⟨6, []⟩, .register (exUnit ++ [⟨py!"index", []⟩]) ⟨7, py!"3"⟩]

/-- `/x:ifs/x:if[x:name = current()/../if-ref]/unit[type="v.4"]/index` -/
def exQuery : Query where
  absolute := true
  parts := [.step ⟨some py!"x", py!"ifs"⟩ [],
    .step ⟨some py!"x", py!"if"⟩ [[{ name := ⟨some py!"x", py!"name"⟩, val := .current [.up, .name ⟨none, py!"if-ref"⟩], before := 1, after := 1 }]],
    .step ⟨none, py!"unit"⟩ [[{ name := ⟨none, py!"type"⟩, val := .lit '"' py!"v.4" }]], .step ⟨none, py!"index"⟩ []]

/-- The same, from the leaf on and with both keys. -/
def exQueryRel : Query where
  absolute := false
  parts := [.up, .step ⟨none, py!"ifs"⟩ [], .step ⟨none, py!"if"⟩ [[{ name := ⟨none, py!"name"⟩, val := .current [.up, .name ⟨none, py!"if-ref"⟩] }]],
    .step ⟨none, py!"unit"⟩ [[{ name := ⟨none, py!"type"⟩, val := .lit '\'' py!"v.4", sign := true }, { name := ⟨none, py!"index"⟩, val := .lit '\'' py!"3" }]],
    .step ⟨none, py!"index"⟩ []]

example : exQuery.text = py!"/x:ifs/x:if[x:name = current()/../if-ref]/unit[type=\"v.4\"]/index" ∧
    exQueryRel.text = py!"../ifs/if[name=current()/../if-ref]/unit[@type='v.4' and index='3']/index" := by decide

theorem exQuery_good : exQuery.Good where
  parts := by
    intro p hp
    simp only [exQuery, List.mem_cons, List.not_mem_nil, or_false] at hp
    rcases hp with rfl | rfl | rfl | rfl
    · exact ⟨⟨by rintro p ⟨⟩; exact ident_of (by decide) (by decide), ident_of (by decide) (by decide)⟩, by simp, by simp, by simp⟩
    · refine ⟨⟨by rintro p ⟨⟩; exact ident_of (by decide) (by decide), ident_of (by decide) (by decide)⟩, by simp, ?_, by simp⟩
      intro cs hcs c hc
      rw [List.mem_singleton.1 hcs] at hc
      rw [List.mem_singleton.1 hc]
      refine ⟨⟨⟨by rintro p ⟨⟩; exact ident_of (by decide) (by decide), ident_of (by decide) (by decide)⟩, by rintro p ⟨⟩; decide, by decide, by decide⟩, ?_, [.up], _, rfl⟩
      intro n hn
      simp only [List.mem_cons, List.not_mem_nil, or_false, reduceCtorEq, false_or, RStep.name.injEq] at hn
      subst hn
      exact ⟨by rintro p ⟨⟩, ident_of (by decide) (by decide)⟩
    · refine ⟨⟨by rintro p ⟨⟩, ident_of (by decide) (by decide)⟩, by simp, ?_, by simp⟩
      intro cs hcs c hc
      rw [List.mem_singleton.1 hcs] at hc
      rw [List.mem_singleton.1 hc]
      exact ⟨⟨⟨by rintro p ⟨⟩, ident_of (by decide) (by decide)⟩, by rintro p ⟨⟩, by decide, by decide⟩, .inr rfl, goodValue_of (by decide) (by decide)⟩
    · exact ⟨⟨by rintro p ⟨⟩, ident_of (by decide) (by decide)⟩, by simp, by simp, by simp⟩
  last := ⟨exQuery.parts.take 3, _, _, rfl⟩
  start := .inl rfl

theorem exPlain_valid {t : Str} (ht : Identifier t) : ValidPath exK [⟨t, []⟩] where
  ne := by simp
  good := by
    intro s hs
    rw [List.mem_singleton.1 hs]
    exact ⟨ht, by simp, by simp, by simp⟩
  conf := .cons _ _ _ (by simp [exK]) (.nil _)

theorem exUnitIndex_valid : ValidPath exK (exUnit ++ [⟨py!"index", []⟩]) where
  ne := by simp
  good := by
    intro s hs
    rcases List.mem_append.1 hs with hs | hs
    · exact exUnit_valid.good s hs
    · rw [List.mem_singleton.1 hs]
      exact ⟨ident_of (by decide) (by decide), by simp, by simp, by simp⟩
  conf := .cons _ _ _ (by decide) (.cons _ _ _ (by decide) (.cons _ _ _ (by decide) (.cons _ _ _ (by decide) (.nil _))))

theorem exRefOps_valid : ∀ op ∈ exRefOps, ValidPath exK op.path := by
  intro op hop
  simp only [exRefOps, List.mem_cons, List.not_mem_nil, or_false] at hop
  rcases hop with rfl | rfl | rfl | rfl | rfl | rfl | rfl
  · exact exPlain_valid (ident_of (by decide) (by decide))
  · exact exPlain_valid (ident_of (by decide) (by decide))
  · exact exIfs_valid
  · exact exIf_valid (goodValue_of (by decide) (by decide))
  · exact exIf_valid (goodValue_of (by decide) (by decide))
  · exact exUnit_valid
  · exact exUnitIndex_valid

/-- The hypotheses hold of the example: `current()` leads to the one leaf. -/
theorem exRef_unique : UniqueNode (registryAfter exRefOps) (some exRefLeaf) [.up, .name ⟨none, py!"if-ref"⟩] := by
  refine ⟨exRefLeaf, [⟨py!"if-ref", []⟩], ⟨1, py!"ge-0/0/1"⟩, rfl, ?_, ?_, by decide, by decide⟩
  · exact .up (p := []) (s := ⟨py!"unit-ref", []⟩) (.step (p := []) (s := ⟨py!"if-ref", []⟩) (by decide) rfl (by simp) (.done _))
  · intro r hr
    have hr : Selects (registryAfter exRefOps) (fun _ _ => False) [.up, .step ⟨none, py!"if-ref"⟩ []] exRefLeaf r := hr
    generalize hq : exRefLeaf = l at hr
    cases hr with
    | up hr =>
      rename_i p s
      obtain ⟨rfl, -⟩ := snoc_inj (a := []) hq
      cases hr with
      | step h1 h2 _ h3 =>
        rename_i s'
        cases h3
        obtain ⟨o, ho⟩ := Option.isSome_iff_exists.1 h1
        rcases registry_mem exRefOps _ _ o ho with h | h
        · cases h
        · simp only [exRefOps, List.mem_cons, RegOp.register.injEq, List.not_mem_nil, or_false, reduceCtorEq] at h
          simp only [exRefLeaf, exIfs, exIf, exUnit, List.nil_append, List.cons_append, List.cons.injEq, and_true, reduceCtorEq, and_false, false_and, or_false] at h
          rcases h with ⟨h, _⟩ | ⟨h, _⟩ | ⟨h, _⟩
          · rw [h]; rfl
          · rw [h] at h2; exact absurd h2 (by decide)
          · rw [h] at h2; exact absurd h2 (by decide)

set_option maxRecDepth 8000 in
example : (runOps exEqv exRefOps).getStr exQuery.text (some (exRefLeaf.map PStep.text)) = .ok [⟨7, py!"3"⟩] ∧
    (runOps exEqv exRefOps).getStr exQueryRel.text (some (exRefLeaf.map PStep.text)) = .ok [⟨7, py!"3"⟩] := by decide

/-- All the hypotheses of `C80_select_partial` hold of the absolute one. -/
example : ∃ ys : List (List PStep × XObj), (runOps exEqv exRefOps).getStr exQuery.text (some (exRefLeaf.map PStep.text)) = .ok (ys.map Prod.snd) ∧
    (ys.map Prod.fst).Nodup ∧ (∀ r, r ∈ ys.map Prod.fst ↔ exQuery.Selected (registryAfter exRefOps) (some exRefLeaf) r) ∧
    ∀ y ∈ ys, ∃ o, registryAfter exRefOps y.1 = some o ∧ (y.2 = o ∨ exEqv y.2 o = true) := by
  refine C80_select_partial exRefOps_valid exQuery_good (leaf := some exRefLeaf) ?_ (fun h => by cases h) ?_ (fun a b h => by simpa [exEqv] using h)
  · rintro l ⟨⟩
    exact ⟨exPlain_valid (ident_of (by decide) (by decide)), .inl rfl⟩
  · rintro rs ⟨n, preds, hm, cs, hcs, c, hc, hcv⟩
    simp only [exQuery, List.mem_cons, List.not_mem_nil, or_false, QPart.step.injEq] at hm
    rcases hm with ⟨_, rfl⟩ | ⟨_, rfl⟩ | ⟨_, rfl⟩ | ⟨_, rfl⟩
    · cases hcs
    · rw [List.mem_singleton.1 hcs] at hc
      rw [List.mem_singleton.1 hc] at hcv
      cases hcv
      exact exRef_unique
    · rw [List.mem_singleton.1 hcs] at hc
      rw [List.mem_singleton.1 hc] at hcv
      cases hcv
    · cases hcs

/-- The node it selects. -/
example : exQuery.Selected (registryAfter exRefOps) (some exRefLeaf) (exUnit ++ [⟨py!"index", []⟩]) := by
  refine .step (p := []) (s := ⟨py!"ifs", []⟩) (by decide) rfl (by simp) (.step (p := exIfs) (s := ⟨py!"if", [(py!"name", py!"ge-0/0/1")]⟩) (by decide) rfl ?_
    (.step (p := exIf py!"ge-0/0/1") (s := ⟨py!"unit", [(py!"index", py!"3"), (py!"type", py!"v.4")]⟩) (by decide) rfl ?_
      (.step (p := exUnit) (s := ⟨py!"index", []⟩) (by decide) rfl (by simp) (.done _))))
  · intro cs hcs c hc
    rw [List.mem_singleton.1 hcs] at hc
    rw [List.mem_singleton.1 hc]
    refine ⟨py!"ge-0/0/1", ⟨exRefLeaf, [⟨py!"if-ref", []⟩], ⟨1, py!"ge-0/0/1"⟩, rfl, ?_, by decide, rfl⟩, by simp⟩
    exact .up (p := []) (s := ⟨py!"unit-ref", []⟩) (.step (p := []) (s := ⟨py!"if-ref", []⟩) (by decide) rfl (by simp) (.done _))
  · intro cs hcs c hc
    rw [List.mem_singleton.1 hcs] at hc
    rw [List.mem_singleton.1 hc]
    exact ⟨py!"v.4", rfl, by simp⟩

set_option maxRecDepth 8000 in
/-- What it accepts and what not. -/
example : refInit (some (runOps exEqv exRefOps)) (fun o => ⟨true, .leaf, o.text⟩) (fun _ => .ok ()) true exQuery.text (some (exRefLeaf.map PStep.text)) py!"3" = .ok (.value py!"3", none) ∧
    refInit (some (runOps exEqv exRefOps)) (fun o => ⟨true, .leaf, o.text⟩) (fun _ => .ok ()) true exQuery.text (some (exRefLeaf.map PStep.text)) py!"4" = .error .valueError := by decide

/-! What other paths do.  The history registers interfaces `e0` and `e1` and their names, and the leaf `ref`. -/

def exTwoOps : List RegOp :=
  [.register [⟨py!"ref", []⟩] ⟨1, py!"e0"⟩, .register exIfs ⟨2, []⟩, .register (exIf py!"e0") ⟨3, []⟩, .register (exIf py!"e1") ⟨4, []⟩,
   .register (exIf py!"e0" ++ [⟨py!"name", []⟩]) ⟨5, py!"e0"⟩, .register (exIf py!"e1" ++ [⟨py!"name", []⟩]) ⟨6, py!"e1"⟩]

/-- C80: `current()` alone, the value of the leaf itself, raises IndexError. -/
theorem C80_alone_refuted : registryAfter exTwoOps [⟨py!"ref", []⟩] = some ⟨1, py!"e0"⟩ ∧ registryAfter exTwoOps (exIf py!"e0") = some ⟨3, []⟩ ∧
    (runOps exEqv exTwoOps).getStr py!"/ifs/if[name=current()]" (some [py!"ref"]) = .error .indexError := by decide

set_option maxRecDepth 8000 in
/-- C80: if `current()` leads to several nodes, XPath compares with each of them; the helper raises XPathError. -/
theorem C80_several_refuted :
    Query.Selected (registryAfter exTwoOps) (some [⟨py!"ref", []⟩]) ⟨true, [.step ⟨none, py!"ifs"⟩ [], .step ⟨none, py!"if"⟩
      [[{ name := ⟨none, py!"name"⟩, val := .current [.up, .name ⟨none, py!"ifs"⟩, .name ⟨none, py!"if"⟩, .name ⟨none, py!"name"⟩] }]]]⟩ (exIf py!"e0") ∧
    (runOps exEqv exTwoOps).getStr py!"/ifs/if[name=current()/../ifs/if/name]" (some [py!"ref"]) = .error .xpathError := by
  refine ⟨?_, by decide⟩
  refine .step (p := []) (s := ⟨py!"ifs", []⟩) (by decide) rfl (by simp) (.step (p := exIfs) (s := ⟨py!"if", [(py!"name", py!"e0")]⟩) (by decide) rfl ?_ (.done _))
  intro cs hcs c hc
  rw [List.mem_singleton.1 hcs] at hc
  rw [List.mem_singleton.1 hc]
  refine ⟨py!"e0", ⟨[⟨py!"ref", []⟩], exIf py!"e0" ++ [⟨py!"name", []⟩], ⟨5, py!"e0"⟩, rfl, ?_, by decide, rfl⟩, by simp⟩
  exact .up (p := []) (s := ⟨py!"ref", []⟩) (.step (p := []) (s := ⟨py!"ifs", []⟩) (by decide) rfl (by simp)
    (.step (p := exIfs) (s := ⟨py!"if", [(py!"name", py!"e0")]⟩) (by decide) rfl (by simp)
      (.step (p := exIf py!"e0") (s := ⟨py!"name", []⟩) (by decide) rfl (by simp) (.done _))))

set_option maxRecDepth 8000 in
/-- C80: of two comparisons of the same key joined by `or`, only the last counts. -/
theorem C80_or_refuted : (runOps exEqv exTwoOps).getStr py!"/ifs/if[name='e0' or name='e1']/name" none = .ok [⟨6, py!"e1"⟩] ∧
    registryAfter exTwoOps (exIf py!"e0" ++ [⟨py!"name", []⟩]) = some ⟨5, py!"e0"⟩ := by decide

set_option maxRecDepth 8000 in
/-- C80: a relative path from a leaf that is not registered finds nothing, although the nodes are there. -/
theorem C80_unregistered_refuted : (runOps exEqv exTwoOps).getStr py!"../ifs/if/name" (some [py!"other"]) = .ok [] ∧
    (runOps exEqv exTwoOps).getStr py!"../ifs/if/name" (some [py!"ref"]) = .ok [⟨5, py!"e0"⟩, ⟨6, py!"e1"⟩] := by decide

set_option maxRecDepth 8000 in
/-- C80: an apostrophe in the text that `current()` leads to makes the expression malformed. -/
theorem C80_quote_refuted :
    (runOps exEqv ([.register [⟨py!"ref", []⟩] ⟨1, py!"it's"⟩, .register exIfs ⟨2, []⟩])).getStr py!"/ifs/if[name=current()/../ref]" (some [py!"ref"]) = .error .xpathError := by
  decide

end Pyb
