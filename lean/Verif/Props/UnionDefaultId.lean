import Verif.Props.UnionDefaultEnum

/-! # C93: identityrefs in typedefs of unions -/

namespace Spec
open Py Pyb

/-- An identityref as a member of a union in a typedef: the entry of its base, pyangbind/plugin/pybind.py:1342-1347, 509-520. -/
def idMem : UMem := ⟨⟨some false, .one py!"string", none, none⟩, py!"identityref"⟩

end Spec

namespace Pyb
open Py Spec

theorem id_parent (known : List Str) (h : py!"identityref" ∉ known) : memberParent known idMem = .ok [py!"string"] := by
  rw [memberParent, idMem, if_neg h, if_pos rfl]
  rfl

theorem id_default (own : Option Str) (cs1 cs2 : List Ctor) :
    typedefDefault own (cs1.map plainMem ++ idMem :: cs2.map plainMem) = typedefDefault own ((cs1 ++ Ctor.string :: cs2).map plainMem) := by
  have h : ∀ (ms : List UMem) (acc : Option Str), (∀ m ∈ ms, m.elem.default = none) →
      ms.foldl (fun acc m => match m.elem.default with
        | some x => if acc = none then some x else acc
        | none => acc) acc = acc := by
    intro ms
    induction ms with
    | nil => intro acc _; rfl
    | cons m ms ih => intro acc hm; rw [List.foldl_cons, hm m (by simp)]; exact ih _ fun x hx => hm x (by simp [hx])
  have hp : ∀ (cs : List Ctor), ∀ m ∈ cs.map plainMem, m.elem.default = none := by
    intro cs m hm
    obtain ⟨c, _, rfl⟩ := List.mem_map.1 hm; rfl
  rw [typedefDefault, typedefDefault]
  refine (h _ _ fun m hm => ?_).trans (h _ _ (hp _)).symm
  rcases List.mem_append.1 hm with hm | hm
  · exact hp _ m hm
  · rcases List.mem_cons.1 hm with rfl | hm
    · rfl
    · exact hp _ m hm

/-- C93: in a typedef of a union an identityref counts as a string would in its place. -/
theorem C93_typedef_identity (known : List Str) (own : Option Str) (cs1 cs2 : List Ctor) (hi : py!"identityref" ∉ known)
    (hk : ∀ c ∈ cs1 ++ Ctor.string :: cs2, c.name ∈ known) :
    unionEntry known own (cs1.map plainMem ++ idMem :: cs2.map plainMem) = unionEntry known own ((cs1 ++ Ctor.string :: cs2).map plainMem) := by
  have e1 := plain_parents known cs1 fun c hc => hk c (by simp [hc])
  have e2 := plain_parents known cs2 fun c hc => hk c (by simp [hc])
  have e3 := plain_parents known (cs1 ++ Ctor.string :: cs2) hk
  have e4 : (cs1.map plainMem ++ idMem :: cs2.map plainMem).mapM (memberParent known) =
      .ok (cs1.map (fun c => [c.name]) ++ [py!"string"] :: cs2.map fun c => [c.name]) := by
    rw [List.mapM_append, List.mapM_cons, id_parent known hi, e1, e2]
    rfl
  rw [unionEntry, unionEntry, e4, e3, id_default]
  simp [Ctor.name]

/-- C93 fails for such typedefs: with an identityref and `uint8` a default that names an identity is given the class of the
number, which refuses it; and with `uint8` and an identityref the default `5`, which means the number, is given that of
strings. -/
theorem C93_typedef_identity_refuted (rx : Str → Str → Bool) (cm : Dict CEnt) (hcm : HasBuiltins cm) (known : List Str) (hi : py!"identityref" ∉ known)
    (hk : py!"uint8" ∈ known) (hs : py!"string" ∈ known) (fuel : Nat) :
    (∃ e, unionEntry known (some py!"eth") [idMem, plainMem (.int .uint8)] = .ok e ∧
      namedDefault cm (fuel + 2) e none = .ok (some (py!"eth", (Ctor.int .uint8).entry)) ∧
      (Ctor.int .uint8).call rx py!"eth" = .error .typeError ∧
      Means rx [.stringR [.dictKey [py!"eth"]], .int .uint8] py!"eth" (.str py!"eth")) ∧
    ∃ e, unionEntry known (some py!"5") [plainMem (.int .uint8), idMem] = .ok e ∧
      namedDefault cm (fuel + 2) e none = .ok (some (py!"5", Ctor.string.entry)) ∧
      Means rx [.int .uint8, .stringR [.dictKey [py!"eth"]]] py!"5" (.int 5) := by
  have k1 : ∀ c ∈ [] ++ Ctor.string :: [Ctor.int .uint8], c.name ∈ known := by
    intro c hc
    simp at hc
    rcases hc with rfl | rfl
    · exact hs
    · exact hk
  have k2 : ∀ c ∈ [Ctor.int .uint8] ++ Ctor.string :: [], c.name ∈ known := by
    intro c hc
    simp at hc
    rcases hc with rfl | rfl
    · exact hk
    · exact hs
  have u1 := C93_typedef_identity known (some py!"eth") [] [.int .uint8] hi k1
  have u2 := C93_typedef_identity known (some py!"5") [.int .uint8] [] hi k2
  obtain ⟨e1, a1, b1⟩ := C93_typedef_last cm hcm known [Ctor.string] (.int .uint8) py!"eth" k1 (by decide) (by decide) (fuel + 2) (by simp)
  obtain ⟨e2, a2, b2⟩ := C93_typedef_last cm hcm known [Ctor.int .uint8] .string py!"5" k2 (by decide) (by decide) (fuel + 2) (by simp)
  exact ⟨⟨e1, u1.trans a1, b1, rfl, rfl⟩, e2, u2.trans a2, b2, rfl⟩

/-- The hypotheses are met. -/
example : ∃ known : List Str, py!"identityref" ∉ known ∧ py!"uint8" ∈ known ∧ py!"string" ∈ known := ⟨[py!"uint8", py!"string"], by decide, by decide, by decide⟩

end Pyb
