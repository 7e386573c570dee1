import Verif.Lemmas.JsonUnknown
import Verif.Props.JsonDoc

/-! # Members that are not in the schema (C43) -/

namespace Pyb
open Py Spec

theorem root_rel (g : LoadOpt) (kids : List (Meta × Schema)) (ns : List Inst) (ms : List (Str × J)) :
    SkipRel (ietfMembers (noSkip g) false (rootCls kids) [] none (rootObj ns) ms)
      (ietfMembers (doSkip g) false (rootCls kids) [] none (rootObj ns) ms) (HasUnknown (rootCls kids) (.obj ms)) :=
  members_rel (fun x _ => child_rel x.2) _

/-- C43, reporting: loading a document with a member that is not in the schema, at any
depth, raises an exception; if there is nothing else wrong with the document, that is,
if loading it with `skip_unknown` raises nothing, it is `AttributeError`. -/
theorem C43_unknown_reported (g : LoadOpt) (kids : List (Meta × Schema)) (ns : List Inst) (j : J) (h : HasUnknown (rootCls kids) j) :
    (ietfLoad { g with skip := false } kids ns j).2 ≠ none ∧
    ((ietfLoad { g with skip := true } kids ns j).2 = none →
      (ietfLoad { g with skip := false } kids ns j).2 = some .attributeError) := by
  cases j with
  | obj ms =>
    obtain ⟨_, h2, h3⟩ := root_rel g kids ns ms
    refine ⟨h3 h, ?_⟩
    intro h0
    rcases h2 with h2 | h2
    · exact absurd ((congrArg Out.err h2).trans h0) (h3 h)
    · exact h2
  | _ => exact ⟨by simp [ietfLoad], fun _ => rfl⟩

/-- C43: if there is no such member, `skip_unknown` makes no difference. -/
theorem C43_all_known (g : LoadOpt) (kids : List (Meta × Schema)) (ns : List Inst) (j : J) (h : ¬ HasUnknown (rootCls kids) j) :
    ietfLoad { g with skip := true } kids ns j = ietfLoad { g with skip := false } kids ns j := by
  cases j with
  | obj ms =>
    have := (root_rel g kids ns ms).1 h
    exact congrArg (fun o : Out => (o.inst.kids, o.err)) this.symm
  | _ => rfl

/-- C43, skipping: with `skip_unknown`, loading a document is loading it without the
members that are not in the schema.  What is missing: these must not be arrays with
elements, and there must not be an object in the place of something that is no
container. -/
theorem C43_skip_partial (g : LoadOpt) (kids : List (Meta × Schema)) (hS : Orderly (rootCls kids)) (ns : List Inst) (j : J)
    (h : ¬ Odd (rootCls kids) j) :
    ietfLoad { g with skip := true } kids ns j = ietfLoad { g with skip := false } kids ns (prune (rootCls kids) j) := by
  cases j with
  | obj ms =>
    rw [← C43_all_known g kids ns _ (prune_clean _ _ h)]
    rw [prune_obj]
    rw [Orderly] at hS
    have := members_prune (g := g) (wrapped := false) (keys := []) (own := none) (fun x _ => child_prune (g := g) x.2) hS.2 h (rootObj ns)
    exact congrArg (fun o : Out => (o.inst.kids, o.err)) this.symm
  | _ =>
    rw [prune_other _ _ _ (by simp)]
    rfl

/-! The example: unknown members at the top level, in a container and in an entry. -/

def unkDoc : J :=
  .obj [(py!"m:zz", .num 1), (py!"m:c", .obj
    [(py!"a", .str py!"7"), (py!"q", .obj [(py!"a", .num 3)]),
     (py!"l", .arr [.obj [(py!"k", .str py!"x"), (py!"n:z2", .num 4), (py!"z", .num 50)]])])]

def unkRest : J :=
  .obj [(py!"m:c", .obj [(py!"a", .str py!"7"), (py!"l", .arr [.obj [(py!"k", .str py!"x"), (py!"z", .num 50)]])])]

theorem json_orderly : Orderly (rootCls jsonKids) := by
  refine ⟨⟨by decide, by decide⟩, ⟨⟨by decide, by decide⟩, ?_⟩, trivial⟩
  exact ⟨trivial, trivial, trivial, trivial, ⟨⟨by decide, by decide⟩, trivial, trivial⟩,
    ⟨⟨by decide, by decide⟩, by intro i hi; simp at hi; subst hi; exact ⟨_, _, rfl⟩, trivial, trivial, trivial⟩, trivial, trivial⟩

theorem not_odd_obj {pres : Bool} {kids : List (Meta × Schema)} {ms : List (Str × J)}
    (h : ∀ x ∈ ms, (∀ y ys, x.2 ≠ .arr (y :: ys)) ∧ memberOf kids x.1 = none ∨ ∃ k, memberOf kids x.1 = some k ∧ ¬ Odd k.2 x.2) :
    ¬ Odd (.cont pres kids) (.obj ms) := by
  intro ho
  cases ho with
  | object ho => exact ho _ _ rfl
  | array h1 h2 h3 h4 =>
    rcases h _ h1 with ⟨h5, _⟩ | ⟨k, h5, _⟩
    · exact h5 _ _ h4
    · rw [h3] at h5; simp at h5
  | inside h1 h2 h3 h4 =>
    rcases h _ h1 with ⟨_, h5⟩ | ⟨k, h5, h6⟩
    · rw [h3] at h5; simp at h5
    · rw [h3] at h5; simp only [Option.some.injEq] at h5; subst h5; exact h6 h4

example : HasUnknown (rootCls jsonKids) unkDoc := .here (x := (py!"m:zz", .num 1)) (by simp) (by decide) rfl (by simp)
example : prune (rootCls jsonKids) unkDoc = unkRest := by rfl
example : ¬ Odd (rootCls jsonKids) unkDoc := by
  refine not_odd_obj ?_
  simp only [List.forall_mem_cons, List.not_mem_nil, false_implies, implies_true, and_true]
  refine ⟨.inl ⟨by simp, rfl⟩, .inr ⟨_, rfl, not_odd_obj ?_⟩⟩
  simp only [List.forall_mem_cons, List.not_mem_nil, false_implies, implies_true, and_true]
  refine ⟨.inr ⟨_, rfl, by intro h; cases h⟩, .inl ⟨by simp, rfl⟩, .inr ⟨_, rfl, ?_⟩⟩
  intro h
  cases h with
  | elem h1 h2 =>
    simp only [List.mem_singleton] at h1
    subst h1
    refine not_odd_obj ?_ h2
    simp only [List.forall_mem_cons, List.not_mem_nil, false_implies, implies_true, and_true]
    exact ⟨.inr ⟨_, rfl, by intro h; cases h⟩, .inl ⟨by simp, rfl⟩, .inr ⟨_, rfl, by intro h; cases h⟩⟩
example : (ietfLoad { demoLoad with skip := true } jsonKids (freshKids jsonKids) unkDoc).2 = none ∧
    (ietfLoad demoLoad jsonKids (freshKids jsonKids) unkDoc).2 = some .attributeError := ⟨rfl, rfl⟩

/-- C43 fails for members that are arrays with elements: they raise `AttributeError` even
with `skip_unknown`. -/
theorem C43_unknown_list_refuted :
    HasUnknown (rootCls jsonKids) (.obj [(py!"m:zz", .arr [.num 1])]) ∧
    prune (rootCls jsonKids) (.obj [(py!"m:zz", .arr [.num 1])]) = .obj [] ∧
    (ietfLoad { demoLoad with skip := true } jsonKids (freshKids jsonKids) (.obj [(py!"m:zz", .arr [.num 1])])).2 = some .attributeError ∧
    (ietfLoad demoLoad jsonKids (freshKids jsonKids) (.obj [])).2 = none :=
  ⟨.here (x := (py!"m:zz", .arr [.num 1])) (by simp) (by decide) rfl (by simp), by rfl, rfl, rfl⟩

/-- C43 fails for members that are empty arrays: they are never reported. -/
theorem C43_unknown_empty_refuted :
    memberOf jsonKids py!"m:zz" = none ∧
    (ietfLoad { demoLoad with skip := false } jsonKids (freshKids jsonKids) (.obj [(py!"m:zz", .arr [])])).2 = none := ⟨rfl, rfl⟩

end Pyb
