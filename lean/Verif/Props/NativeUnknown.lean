import Verif.Lemmas.NativeUnknown
import Verif.Props.Native

/-! # Members of native JSON that are not in the schema (C43) -/

namespace Pyb
open Py Spec

theorem native_rel (g : LoadOpt) (kids : List (Meta × Schema)) (ns : List Inst) (ms : List (Str × J)) :
    SkipRel (nativeMembers (noSkip g) g.over false false (rootCls kids) none (rootObj ns) ms)
      (nativeMembers (doSkip g) g.over false false (rootCls kids) none (rootObj ns) ms) (SeenUnknown false (rootCls kids) (.obj ms)) :=
  nMembers_rel (fun x _ => nChild_rel x.2) _

/-- C43, native JSON: loading a document with a member that is not in the schema, at any
depth, raises an exception; if there is nothing else wrong with the document, that is,
if loading it with `skip_unknown` raises nothing, it is `AttributeError`.

Not covered: documents in which two entries of a user-ordered list have the same position
(see `C43_native_dropped_refuted`). -/
theorem C43_native_reported_partial (g : LoadOpt) (kids : List (Meta × Schema)) (ns : List Inst) (j : J)
    (h : NUnknown false (rootCls kids) j) (hp : ¬ SamePlace (rootCls kids) j) :
    (nativeLoad { g with skip := false } kids ns j).2 ≠ none ∧
    ((nativeLoad { g with skip := true } kids ns j).2 = none →
      (nativeLoad { g with skip := false } kids ns j).2 = some .attributeError) := by
  cases j with
  | obj ms =>
    obtain ⟨_, h2, h3⟩ := native_rel g kids ns ms
    have hs := unknown_seen h hp
    refine ⟨h3 hs, ?_⟩
    intro h0
    rcases h2 with h2 | h2
    · exact absurd ((congrArg Out.err h2).trans h0) (h3 hs)
    · exact h2
  | _ => exact ⟨by simp [nativeLoad], fun _ => rfl⟩

/-- C43, native JSON: if there is no such member, `skip_unknown` makes no difference. -/
theorem C43_native_all_known (g : LoadOpt) (kids : List (Meta × Schema)) (ns : List Inst) (j : J) (h : ¬ NUnknown false (rootCls kids) j) :
    nativeLoad { g with skip := true } kids ns j = nativeLoad { g with skip := false } kids ns j := by
  cases j with
  | obj ms =>
    have := (native_rel g kids ns ms).1 fun hs => h (seen_unknown hs)
    exact congrArg (fun o : Out => (o.inst.kids, o.err)) this.symm
  | _ => rfl

/-- C43, native JSON, skipping: with `skip_unknown`, loading a document is loading it
without the members that are not in the schema. -/
theorem C43_native_skip (g : LoadOpt) (kids : List (Meta × Schema)) (ns : List Inst) (j : J) :
    nativeLoad { g with skip := true } kids ns j = nativeLoad { g with skip := false } kids ns (bare false (rootCls kids) j) := by
  rw [← C43_native_all_known g kids ns _ (bare_clean _ _ _)]
  cases j with
  | obj ms =>
    rw [bare_obj]
    have := nMembers_bare (g := g) (over := g.over) (wrapped := false) (ordered := false) (pres := false) (kids := kids) (own := none)
      (fun x _ => nChild_bare (g := g) x.2) (rootObj ns) (ms := ms)
    exact congrArg (fun o : Out => (o.inst.kids, o.err)) this.symm
  | _ =>
    rw [bare_other _ _ _ _ (by simp)]

/-! The example: unknown members at the top level, and in an entry of a user-ordered list
in an entry of a user-ordered list. -/

def unkNative : J :=
  .obj [(py!"zz", .arr [.num 1]), (py!"l", .obj
    [(py!"a", .obj [(py!"k", .str py!"a"), (py!"__yang_order", .num 1)]),
     (py!"z", .obj [(py!"k", .str py!"z"), (py!"n", .obj
        [(py!"p", .obj [(py!"k", .str py!"p"), (py!"__yang_order", .num 1), (py!"w", .num 7)]),
         (py!"q", .obj [(py!"k", .str py!"q"), (py!"__yang_order", .num 0)])]), (py!"__yang_order", .num 0)])])]

example : bare false (rootCls ordKids) unkNative = ordDoc := by rfl

example : NUnknown false (rootCls ordKids) unkNative := .here (x := (py!"zz", .arr [.num 1])) (by simp) (by simp) rfl

/-- The one in the inner list alone. -/
def unkDeep : J :=
  .obj [(py!"l", .obj [(py!"z", .obj [(py!"k", .str py!"z"), (py!"n", .obj
        [(py!"p", .obj [(py!"k", .str py!"p"), (py!"__yang_order", .num 1), (py!"w", .num 7)])]), (py!"__yang_order", .num 0)])])]

theorem unkDeep_unknown : NUnknown false (rootCls ordKids) unkDeep := by
  refine .inside (x := (py!"l", _)) (k := (inM py!"l", .list { keys := [0], ordered := true } ordL)) (List.mem_singleton.2 rfl) (by simp) rfl ?_
  refine .entry (x := (py!"z", _)) (List.mem_singleton.2 rfl) ?_
  refine .inside (x := (py!"n", _)) (k := (inM py!"n", .list { keys := [0], ordered := true } ordN)) (List.mem_cons_of_mem _ (List.mem_cons_self ..))
    (by decide) rfl ?_
  refine .entry (x := (py!"p", _)) (List.mem_singleton.2 rfl) ?_
  exact .here (x := (py!"w", .num 7)) (by simp) (by decide) rfl

theorem samePlace_obj {S : Schema} {j : J} (h : SamePlace S j) : ∃ ms, j = .obj ms := by
  cases h <;> exact ⟨_, rfl⟩

theorem unkDeep_places : ¬ SamePlace (rootCls ordKids) unkDeep := by
  intro h
  cases h with
  | member h1 h2 h3 =>
  simp only [List.mem_singleton] at h1
  subst h1
  have e : childOf ordKids py!"l" = some (inM py!"l", .list { keys := [0], ordered := true } ordL) := rfl
  rw [e, Option.some.injEq] at h2
  subst h2
  cases h3 with
  | here _ h => exact h (by decide)
  | entry h1 h2 =>
  simp only [List.mem_singleton] at h1
  subst h1
  cases h2 with
  | member h1 h2 h3 =>
  simp only [List.mem_cons, List.not_mem_nil, or_false] at h1
  rcases h1 with rfl | rfl | rfl
  · obtain ⟨_, h⟩ := samePlace_obj h3; simp at h
  · have e : childOf ordL py!"n" = some (inM py!"n", .list { keys := [0], ordered := true } ordN) := rfl
    rw [e, Option.some.injEq] at h2
    subst h2
    cases h3 with
    | here _ h => exact h (by decide)
    | entry h1 h2 =>
    simp only [List.mem_singleton] at h1
    subst h1
    cases h2 with
    | member h1 h2 h3 =>
    simp only [List.mem_cons, List.not_mem_nil, or_false] at h1
    rcases h1 with rfl | rfl | rfl <;> (obtain ⟨_, h⟩ := samePlace_obj h3; simp at h)
  · obtain ⟨_, h⟩ := samePlace_obj h3; simp at h

example : (nativeLoad demoLoad ordKids (freshKids ordKids) unkDeep).2 = some .attributeError :=
  (C43_native_reported_partial demoLoad ordKids (freshKids ordKids) _ unkDeep_unknown unkDeep_places).2 rfl

/-- C43 fails for entries of a user-ordered list that have the position of a later one:
they are dropped, and their members are not looked at. -/
theorem C43_native_dropped_refuted :
    NUnknown false (rootCls ordKids) (.obj [(py!"l", .obj [(py!"a", .obj [(py!"zz", .num 1), (py!"__yang_order", .num 0)]),
        (py!"b", .obj [(py!"__yang_order", .num 0)])])]) ∧
    (nativeLoad demoLoad ordKids (freshKids ordKids) (.obj [(py!"l", .obj [(py!"a", .obj [(py!"zz", .num 1), (py!"__yang_order", .num 0)]),
        (py!"b", .obj [(py!"__yang_order", .num 0)])])])).2 = none := by
  refine ⟨?_, rfl⟩
  refine .inside (x := (py!"l", _)) (k := (inM py!"l", .list { keys := [0], ordered := true } ordL)) (List.mem_singleton.2 rfl) (by simp) rfl ?_
  refine .entry (x := (py!"a", _)) (List.mem_cons_self ..) ?_
  exact .here (x := (py!"zz", .num 1)) (by simp) (by decide) rfl

end Pyb
