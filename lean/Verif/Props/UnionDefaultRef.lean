import Verif.Props.UnionDefaultEnum

/-! # C93: leafrefs in typedefs of unions -/

namespace Spec
open Py Pyb

/-- A leafref as a member of a union in a typedef, pyangbind/plugin/pybind.py:1320-1339, 1314. -/
def refMem : UMem := ⟨⟨some false, .one py!"string", none, none⟩, py!"leafref"⟩

end Spec

namespace Pyb
open Py Spec

theorem names_not_leafref (cs : List Ctor) : py!"leafref" ∉ cs.map Ctor.name := by
  intro h
  obtain ⟨c, _, e⟩ := List.mem_map.1 h
  cases c with
  | int t => cases t <;> exact absurd e (by decide)
  | _ => exact absurd e (by decide)

theorem ref_parents (known : List Str) (cs1 cs2 : List Ctor) (hk : ∀ c ∈ cs1 ++ cs2, c.name ∈ known) (hl : py!"leafref" ∈ known) :
    (cs1.map plainMem ++ refMem :: cs2.map plainMem).mapM (memberParent known) =
      .ok (cs1.map (fun c => [c.name]) ++ [py!"leafref"] :: cs2.map fun c => [c.name]) := by
  have e : memberParent known refMem = .ok [py!"leafref"] := by rw [memberParent, refMem, if_pos hl]
  rw [List.mapM_append, List.mapM_cons, e, plain_parents known cs1 fun c hc => hk c (by simp [hc]), plain_parents known cs2 fun c hc => hk c (by simp [hc])]
  rfl

/-- C93 fails for typedefs of unions with a leafref: the typedef is taken, but a leaf of its type stops the generator with
`KeyError`, whether the typedef or the leaf has a default (`own`, `d`) or none has: the search for one looks up `leafref`, for
which the table of types has no entry. -/
theorem C93_typedef_leafref_refuted (cm : Dict CEnt) (hcm : HasBuiltins cm) (hno : cm.get? py!"leafref" = none) (known : List Str)
    (cs1 cs2 : List Ctor) (hk : ∀ c ∈ cs1 ++ cs2, c.name ∈ known) (hl : py!"leafref" ∈ known) (hn : (cs1.map Ctor.name).Nodup)
    (own d : Option Str) (fuel : Nat) :
    ∃ e, unionEntry known own (cs1.map plainMem ++ refMem :: cs2.map plainMem) = .ok e ∧
      namedDefault cm (cs1.length + (fuel + 1)) e d = .error .keyError := by
  refine ⟨⟨some false, .many (cs1.map Ctor.name ++ py!"leafref" :: cs2.map Ctor.name),
    typedefDefault own (cs1.map plainMem ++ refMem :: cs2.map plainMem), none⟩, ?_, ?_⟩
  · rw [unionEntry, ref_parents known cs1 cs2 hk hl]
    simp [flat_names]
  · have hvis : visitAll (tmpMap cm) (cs1.length + (fuel + 1)) (cs1.map Ctor.name ++ py!"leafref" :: cs2.map Ctor.name) [] = .error .keyError := by
      rw [visitAll_ctors (tmpMap cm) _ cs1 _ [] (fun c _ => tmpMap_ctor cm hcm c) (by simpa using hn), List.nil_append, visitAll,
        if_neg (names_not_leafref cs1), tmpMap, Dict.get?_set, if_neg (by decide), hno]
    generalize typedefDefault own (cs1.map plainMem ++ refMem :: cs2.map plainMem) = o
    cases o <;> cases d <;> simp [namedDefault, downToBase, Parents.list, hvis, Except.map]

/-- The hypotheses are met by the built-in types. -/
example : HasBuiltins builtins ∧ builtins.get? py!"leafref" = none ∧ (([Ctor.int .uint8, .string]).map Ctor.name).Nodup :=
  ⟨builtins_has, by decide, by decide⟩

end Pyb
