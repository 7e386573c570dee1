import Verif.Props.UnionDefault

/-! # C93: leaves without a default of their own, of types without one -/

namespace Pyb
open Py Spec

theorem firstDef_builtin (cm : Dict CEnt) : ∀ cs : List Ctor, (∀ c ∈ cs, cm.get? c.name = some c.entry) → firstDef cm (cs.map Ctor.name) = none
  | [], _ => rfl
  | c :: cs, h => by
    rw [List.map_cons, firstDef, h c (by simp)]
    exact firstDef_builtin cm cs fun x hx => h x (by simp [hx])

/-- C93: a leaf whose type is a typedef of a union of different built-in types has no default if neither
it nor the typedef has one. -/
theorem C93_typedef_none (cm : Dict CEnt) (hcm : HasBuiltins cm) (known : List Str) (cs : List Ctor)
    (hk : ∀ c ∈ cs, c.name ∈ known) (hn : (cs.map Ctor.name).Nodup) (fuel : Nat) (hf : cs.length ≤ fuel) :
    ∃ e, unionEntry known none (cs.map plainMem) = .ok e ∧ namedDefault cm fuel e none = .ok none := by
  refine ⟨⟨some false, .many (cs.map Ctor.name), none, none⟩, ?_, ?_⟩
  · rw [unionEntry, plain_parents known _ hk, plain_default]
    have hfl : ∀ l : List Ctor, (l.map fun c => [c.name]).flatten = l.map Ctor.name := by
      intro l
      induction l with
      | nil => rfl
      | cons c l ih => simp [ih]
    simp [hfl]
  · have hvis := visitAll_flat (tmpMap cm) cs (fun c _ => tmpMap_ctor cm hcm c) fuel [] hf (by simpa using hn)
    simp only [namedDefault, Parents.list, hvis, List.nil_append, firstDef_builtin (tmpMap cm) cs fun c _ => tmpMap_ctor cm hcm c]

/-- C93 fails for members without a default whose own type has one: it becomes the default of the leaf,
although a leaf does not take the defaults of the members of its type.  Here `level2` is a typedef of
`level` with a range, so that `level` is its parent (pyangbind/plugin/pybind.py:1262-1270, 591-592),
`level` one of `uint8` with the default `d`, and the type of the leaf a typedef of the union of string and
`level2`. -/
theorem C93_inherited_refuted (cm : Dict CEnt) (hcm : HasBuiltins cm) (known : List Str) (d : Str) (fuel : Nat)
    (h1 : cm.get? py!"level" = some ⟨some false, .one py!"uint8", some d, none⟩) (h2 : cm.get? py!"level2" = some ⟨some false, .one py!"level", none, none⟩)
    (k1 : py!"string" ∈ known) (k2 : py!"level2" ∈ known) :
    ∃ e, unionEntry known none [plainMem .string, ⟨⟨some false, .one py!"level", none, none⟩, py!"level2"⟩] = .ok e ∧
      namedDefault cm (fuel + 4) e none = .ok (some (d, (Ctor.int .uint8).entry)) := by
  refine ⟨⟨some false, .many [py!"string", py!"level2"], none, none⟩, ?_, ?_⟩
  · have a : memberParent known ⟨⟨some false, .one py!"level", none, none⟩, py!"level2"⟩ = .ok [py!"level2"] := by rw [memberParent, if_pos k2]
    have b : memberParent known (plainMem .string) = .ok [py!"string"] := by rw [memberParent]; exact if_pos k1
    rw [unionEntry, List.mapM_cons, List.mapM_cons, a, b]
    rfl
  · have g1 : (tmpMap cm).get? py!"level" = some ⟨some false, .one py!"uint8", some d, none⟩ := by rw [tmpMap, Dict.get?_set, if_neg (by decide)]; exact h1
    have g2 : (tmpMap cm).get? py!"level2" = some ⟨some false, .one py!"level", none, none⟩ := by rw [tmpMap, Dict.get?_set, if_neg (by decide)]; exact h2
    have g3 : (tmpMap cm).get? py!"string" = some Ctor.string.entry := tmpMap_ctor cm hcm .string
    have g4 : (tmpMap cm).get? py!"uint8" = some (Ctor.int .uint8).entry := tmpMap_ctor cm hcm (.int .uint8)
    have hv : visitAll (tmpMap cm) (fuel + 4) [py!"string", py!"level2"] [] = .ok [py!"string", py!"level2", py!"level", py!"uint8"] := by
      rw [visitAll, if_neg (by simp), g3]
      simp only [Ctor.entry, Parents.list, List.append_nil, List.nil_append]
      rw [visitAll, if_neg (by decide), g2]
      simp only [Parents.list, List.nil_append, List.cons_append]
      rw [visitAll, if_neg (by decide), g1]
      simp only [Parents.list, List.nil_append, List.cons_append]
      rw [visitAll, if_neg (by decide), g4]
      simp only [Ctor.entry, Parents.list, List.nil_append, List.cons_append]
      cases fuel <;> rfl
    have hu : visitAll (tmpMap cm) (fuel + 4) [py!"uint8"] [] = .ok [py!"uint8"] := by
      rw [visitAll, if_neg (by simp), g4]
      rfl
    simp only [namedDefault, Parents.list, hv, firstDef, g3, g2, g1, Ctor.entry, downToBase, hu, List.getLast?_singleton, g4]
    rfl

/-- The built-in types with those two typedefs; a union of string and `uint8`. -/
def levelMap : Dict CEnt := (builtins.set py!"level" ⟨some false, .one py!"uint8", some py!"7", none⟩).set py!"level2" ⟨some false, .one py!"level", none, none⟩

example : HasBuiltins levelMap ∧ levelMap.get? py!"level" = some ⟨some false, .one py!"uint8", some py!"7", none⟩ ∧
    levelMap.get? py!"level2" = some ⟨some false, .one py!"level", none, none⟩ ∧ ([Ctor.string, .int .uint8].map Ctor.name).Nodup := by
  refine ⟨?_, rfl, rfl, by decide⟩
  intro c
  cases c with
  | int t => cases t <;> rfl
  | _ => rfl

end Pyb
