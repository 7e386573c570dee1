import Verif.Spec.Config

/-! # C06: read-only data is exactly the config-false subtree -/

namespace Pyb
open Py Spec

theorem choiceConfigFalseL_mem {xs : List SNode} {x : SNode} (h : choiceConfigFalseL xs = false)
    (hx : x ∈ xs) : choiceConfigFalse x = false := by
  induction xs with
  | nil => simp at hx
  | cons y ys ih =>
    simp only [choiceConfigFalseL, Bool.or_eq_false_iff] at h
    simp only [List.mem_cons] at hx
    rcases hx with rfl | hx
    · exact h.1
    · exact ih h.2 hx

theorem mem_genElemsL {pcfg path xs e} :
    e ∈ genElemsL pcfg path xs ↔ ∃ x ∈ xs, e ∈ genElems pcfg path x := by
  induction xs with
  | nil => simp [genElemsL]
  | cons y ys ih => simp [genElemsL, ih]

/-- Soundness direction over a forest: what is generated is a data node with the
right flag. -/
theorem dataNode_gen {f p cs} (h : DataNode f p cs) (hc : choiceConfigFalseL f = false)
    (pcfg : Bool) (path : List Str) :
    (path ++ p, pcfg && !(cs.contains (some false))) ∈ genElemsL pcfg path f := by
  induction h generalizing pcfg path with
  | @leaf f n c hm =>
    refine mem_genElemsL.2 ⟨_, hm, ?_⟩
    cases c with
    | none => simp [genElems]
    | some b => cases b <;> simp [genElems]
  | @here f n c ch hm =>
    refine mem_genElemsL.2 ⟨_, hm, ?_⟩
    cases c with
    | none => simp [genElems]
    | some b => cases b <;> simp [genElems]
  | @sub f n c ch p cs hm _ ih =>
    refine mem_genElemsL.2 ⟨_, hm, ?_⟩
    have hcc := choiceConfigFalseL_mem hc hm
    simp only [choiceConfigFalse] at hcc
    have := ih hcc (pcfg && c.getD true) (path ++ [n])
    simp only [genElems, List.mem_cons]
    right
    have e : (pcfg && !((c :: cs).contains (some false))) =
        ((pcfg && c.getD true) && !(cs.contains (some false))) := by
      cases c with
      | none => cases pcfg <;> simp
      | some b => cases b <;> cases pcfg <;> simp
    rw [e]; simpa using this
  | @choice f n c cases p cs hm _ ih =>
    refine mem_genElemsL.2 ⟨_, hm, ?_⟩
    have hcc := choiceConfigFalseL_mem hc hm
    simp only [choiceConfigFalse, Bool.or_eq_false_iff] at hcc
    have := ih hcc.2 pcfg path
    simp only [genElems]
    have e : (pcfg && !((c :: cs).contains (some false))) = (pcfg && !(cs.contains (some false))) := by
      cases c with
      | none => simp
      | some b => cases b <;> simp_all
    rw [e]; exact this
  | @case f n ch p cs hm _ ih =>
    refine mem_genElemsL.2 ⟨_, hm, ?_⟩
    have hcc := choiceConfigFalseL_mem hc hm
    simp only [choiceConfigFalse] at hcc
    simpa only [genElems] using ih hcc pcfg path

mutual
theorem gen_dataNode (x : SNode) (hc : choiceConfigFalse x = false) (pcfg : Bool)
    (path : List Str) (e : List Str × Bool) (he : e ∈ genElems pcfg path x) (f : List SNode)
    (hx : x ∈ f) :
    ∃ p cs, e = (path ++ p, pcfg && !(cs.contains (some false))) ∧ DataNode f p cs := by
  match x with
  | .leaf n c =>
    simp only [genElems, List.mem_singleton] at he
    refine ⟨[n], [c], ?_, .leaf hx⟩
    rw [he]
    cases c with
    | none => simp
    | some b => cases b <;> simp
  | .inner n c ch =>
    simp only [genElems, List.mem_cons] at he
    simp only [choiceConfigFalse] at hc
    rcases he with he | he
    · refine ⟨[n], [c], ?_, .here hx⟩
      rw [he]
      cases c with
      | none => simp
      | some b => cases b <;> simp
    · obtain ⟨p, cs, h1, h2⟩ := gen_dataNodeL ch hc _ _ e he
      refine ⟨n :: p, c :: cs, ?_, .sub hx h2⟩
      rw [h1]
      cases c with
      | none => simp
      | some b => cases b <;> cases pcfg <;> simp
  | .choice n c cs' =>
    simp only [genElems] at he
    simp only [choiceConfigFalse, Bool.or_eq_false_iff] at hc
    obtain ⟨p, cs, h1, h2⟩ := gen_dataNodeL cs' hc.2 _ _ e he
    refine ⟨p, c :: cs, ?_, .choice hx h2⟩
    rw [h1]
    cases c with
    | none => simp
    | some b => cases b <;> simp_all
  | .case n ch =>
    simp only [genElems] at he
    simp only [choiceConfigFalse] at hc
    obtain ⟨p, cs, h1, h2⟩ := gen_dataNodeL ch hc _ _ e he
    exact ⟨p, cs, h1, .case hx h2⟩
theorem gen_dataNodeL (xs : List SNode) (hc : choiceConfigFalseL xs = false) (pcfg : Bool)
    (path : List Str) (e : List Str × Bool) (he : e ∈ genElemsL pcfg path xs) :
    ∃ p cs, e = (path ++ p, pcfg && !(cs.contains (some false))) ∧ DataNode xs p cs := by
  match xs with
  | [] => simp [genElemsL] at he
  | y :: ys =>
    simp only [choiceConfigFalseL, Bool.or_eq_false_iff] at hc
    simp only [genElemsL, List.mem_append] at he
    rcases he with he | he
    · exact gen_dataNode y hc.1 pcfg path e he _ (by simp)
    · obtain ⟨p, cs, h1, h2⟩ := gen_dataNodeL ys hc.2 pcfg path e he
      refine ⟨p, cs, h1, ?_⟩
      have hsub : ∀ z ∈ ys, z ∈ y :: ys := fun z hz => by simp [hz]
      cases h2 with
      | leaf hm => exact .leaf (hsub _ hm)
      | here hm => exact .here (hsub _ hm)
      | sub hm h => exact .sub (hsub _ hm) h
      | choice hm h => exact .choice (hsub _ hm) h
      | case hm h => exact .case (hsub _ hm) h
end

/-- For every schema in which no choice carries `config false`: an element at path
`p` is generated, with a setter iff `w`, exactly when there is a data node at `p`
and `w` says that neither it nor anything enclosing it is `config false`. -/
theorem C06_writable_iff_partial (f : List SNode) (hc : choiceConfigFalseL f = false)
    (p : List Str) (w : Bool) :
    (p, w) ∈ moduleElems f ↔
      ∃ cs, DataNode f p cs ∧ (w = true ↔ some false ∉ cs) := by
  constructor
  · intro h
    obtain ⟨q, cs, h1, h2⟩ := gen_dataNodeL f hc true [] _ h
    simp only [List.nil_append, Prod.mk.injEq] at h1
    refine ⟨cs, h1.1 ▸ h2, ?_⟩
    rw [h1.2]; simp
  · rintro ⟨cs, h1, h2⟩
    have := dataNode_gen h1 hc true []
    have e : w = (true && !(cs.contains (some false))) := by
      cases w with
      | true => have := h2.1 rfl; simp [this]
      | false =>
        have h3 : some false ∈ cs := Decidable.byContradiction fun h => by simpa using h2.2 h
        simp [h3]
    rw [e]; simpa [moduleElems] using this

example : choiceConfigFalseL
    [.inner py!"state" (some false) [.choice py!"c" none [.case py!"a" [.leaf py!"x" none]]]] = false := by
  decide

/-- The full claim fails: `config false` on a choice is ignored, so the leaf `x`
inside it is generated with a setter. -/
theorem C06_writable_iff_refuted :
    ∃ (f : List SNode) (p : List Str) (cs : List (Option Bool)),
      DataNode f p cs ∧ some false ∈ cs ∧ (p, true) ∈ moduleElems f :=
  ⟨[.choice py!"c" (some false) [.case py!"a" [.leaf py!"x" none]]], [py!"x"], [some false, none],
    .choice (n := py!"c") (cases := [.case py!"a" [.leaf py!"x" none]]) (by simp)
      (.case (n := py!"a") (ch := [.leaf py!"x" none]) (by simp) (.leaf (by simp))),
    by decide, by decide⟩

end Pyb
