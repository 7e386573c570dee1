import Verif.Props.UnionDefault

/-! # C93: typedefs of unions with an enumeration -/

namespace Spec
open Py Pyb

/-- An enumeration as a member of a union in a typedef, pyangbind/plugin/pybind.py:1284-1293. -/
def enumMem : UMem := ⟨⟨some false, .one py!"string", none, none⟩, py!"enumeration"⟩

end Spec

namespace Pyb
open Py Spec

/-- Built-in types are gone through one by one. -/
theorem visitAll_ctors (cm : Dict CEnt) (rest : List Str) : ∀ (cs : List Ctor) (n : Nat) (done : List Str), (∀ c ∈ cs, cm.get? c.name = some c.entry) →
    (done ++ cs.map Ctor.name).Nodup → visitAll cm (cs.length + n) (cs.map Ctor.name ++ rest) done = visitAll cm n rest (done ++ cs.map Ctor.name)
  | [], n, done, _, _ => by simp
  | c :: cs, n, done, h, hn => by
    have hc : c.name ∉ done := fun hd => by
      have := (List.nodup_append.1 hn).2.2 _ hd c.name (by simp)
      exact this rfl
    have e : (c :: cs).length + n = (cs.length + n) + 1 := by simp; omega
    rw [e, List.map_cons, List.cons_append, visitAll, if_neg hc, h c (by simp)]
    simp only [Ctor.entry, Parents.list, List.append_nil]
    rw [visitAll_ctors cm rest cs n (done ++ [c.name]) (fun x hx => h x (by simp [hx])) (by simpa using hn)]
    simp

theorem tmpMap_enum (cm : Dict CEnt) : (tmpMap cm).get? py!"enumeration" = some enumEnt := by
  rw [tmpMap, Dict.get?_set, if_pos rfl]

theorem names_not_enum (cs : List Ctor) : py!"enumeration" ∉ cs.map Ctor.name := by
  intro h
  obtain ⟨c, _, e⟩ := List.mem_map.1 h
  exact ctor_not_enum c e

theorem names_not_string {cs : List Ctor} (h : Ctor.string ∉ cs) : py!"string" ∉ cs.map Ctor.name := by
  intro hm
  obtain ⟨c, hc, e⟩ := List.mem_map.1 hm
  cases c with
  | string => exact h hc
  | int t => cases t <;> exact absurd e (by decide)
  | _ => exact absurd e (by decide)

theorem enum_parents (known : List Str) (cs1 cs2 : List Ctor) (hk : ∀ c ∈ cs1 ++ cs2, c.name ∈ known) (he : py!"enumeration" ∈ known) :
    (cs1.map plainMem ++ enumMem :: cs2.map plainMem).mapM (memberParent known) =
      .ok (cs1.map (fun c => [c.name]) ++ [py!"enumeration"] :: cs2.map fun c => [c.name]) := by
  have e : memberParent known enumMem = .ok [py!"enumeration"] := by rw [memberParent, enumMem, if_pos he]
  rw [List.mapM_append, List.mapM_cons, e, plain_parents known cs1 fun c hc => hk c (by simp [hc]), plain_parents known cs2 fun c hc => hk c (by simp [hc])]
  rfl

theorem flat_names : ∀ l : List Ctor, (l.map fun c => [c.name]).flatten = l.map Ctor.name
  | [] => rfl
  | c :: l => by simp [flat_names l]

theorem enum_default (v : Str) (hv : v ≠ []) (cs1 cs2 : List Ctor) : typedefDefault (some v) (cs1.map plainMem ++ enumMem :: cs2.map plainMem) = some v := by
  have h : ∀ (ms : List UMem) (acc : Option Str), (∀ m ∈ ms, m.elem.default = none) →
      ms.foldl (fun acc m => match m.elem.default with
        | some x => if acc = none then some x else acc
        | none => acc) acc = acc := by
    intro ms
    induction ms with
    | nil => intro acc _; rfl
    | cons m ms ih => intro acc hm; rw [List.foldl_cons, hm m (by simp)]; exact ih _ fun x hx => hm x (by simp [hx])
  rw [typedefDefault, if_neg (by simpa using hv)]
  refine h _ _ fun m hm => ?_
  rcases List.mem_append.1 hm with hm | hm
  · obtain ⟨c, _, rfl⟩ := List.mem_map.1 hm; rfl
  · rcases List.mem_cons.1 hm with rfl | hm
    · rfl
    · obtain ⟨c, _, rfl⟩ := List.mem_map.1 hm; rfl

theorem enum_entry (known : List Str) (cs1 cs2 : List Ctor) (v : Str) (hk : ∀ c ∈ cs1 ++ cs2, c.name ∈ known) (he : py!"enumeration" ∈ known) (hv : v ≠ []) :
    unionEntry known (some v) (cs1.map plainMem ++ enumMem :: cs2.map plainMem) =
      .ok ⟨some false, .many (cs1.map Ctor.name ++ py!"enumeration" :: cs2.map Ctor.name), some v, none⟩ := by
  rw [unionEntry, enum_parents known cs1 cs2 hk he, enum_default v hv]
  simp [flat_names]

/-- C93, the default of a typedef of a union of an enumeration and different built-in types other than
string, exactly: the class is that of strings, wherever the enumeration stands and whatever the members
take. -/
theorem C93_typedef_enum (cm : Dict CEnt) (hcm : HasBuiltins cm) (known : List Str) (cs1 cs2 : List Ctor) (v : Str)
    (hk : ∀ c ∈ cs1 ++ cs2, c.name ∈ known) (he : py!"enumeration" ∈ known) (hn : ((cs1 ++ cs2).map Ctor.name).Nodup)
    (hs : Ctor.string ∉ cs1 ++ cs2) (hv : v ≠ []) (fuel : Nat) :
    ∃ e, unionEntry known (some v) (cs1.map plainMem ++ enumMem :: cs2.map plainMem) = .ok e ∧
      namedDefault cm (cs1.length + (cs2.length + (fuel + 1) + 1)) e none = .ok (some (v, Ctor.string.entry)) := by
  refine ⟨_, enum_entry known cs1 cs2 v hk he hv, ?_⟩
  have hn1 : (cs1.map Ctor.name).Nodup := by
    rw [List.map_append] at hn; exact (List.nodup_append.1 hn).1
  have hn2 : (cs1.map Ctor.name ++ [py!"enumeration"] ++ cs2.map Ctor.name).Nodup := by
    rw [List.map_append] at hn
    obtain ⟨a, b, c⟩ := List.nodup_append.1 hn
    rw [List.append_assoc, List.singleton_append]
    refine List.nodup_append.2 ⟨a, List.nodup_cons.2 ⟨names_not_enum cs2, b⟩, fun x hx y hy => ?_⟩
    rcases List.mem_cons.1 hy with rfl | hy
    · intro e; subst e; exact names_not_enum cs1 hx
    · exact c x hx y hy
  have hvis : visitAll (tmpMap cm) (cs1.length + (cs2.length + (fuel + 1) + 1)) (cs1.map Ctor.name ++ py!"enumeration" :: cs2.map Ctor.name) [] =
      .ok (cs1.map Ctor.name ++ [py!"enumeration"] ++ cs2.map Ctor.name ++ [py!"string"]) := by
    rw [visitAll_ctors (tmpMap cm) _ cs1 _ [] (fun c _ => tmpMap_ctor cm hcm c) (by simpa using hn1), List.nil_append, visitAll,
      if_neg (names_not_enum cs1), tmpMap_enum]
    simp only [enumEnt, Parents.list]
    rw [visitAll_ctors (tmpMap cm) _ cs2 _ _ (fun c _ => tmpMap_ctor cm hcm c) hn2, visitAll, if_neg,
      show (tmpMap cm).get? py!"string" = some Ctor.string.entry from tmpMap_ctor cm hcm .string]
    · cases fuel <;> rfl
    · simp only [List.map_append, List.mem_append, List.mem_singleton, not_or]
      have := names_not_string hs
      rw [List.map_append, List.mem_append, not_or] at this
      exact ⟨⟨this.1, by decide⟩, this.2⟩
  simp only [namedDefault, downToBase, Parents.list, hvis, List.getLast?_append, List.getLast?_singleton, Option.some_or]
  rw [show (tmpMap cm).get? py!"string" = some Ctor.string.entry from tmpMap_ctor cm hcm .string]
  rfl

/-- C93 fails for such typedefs: with an enumeration of the name `auto` and `uint8`, in any order, the
default `5`, which means the number, is given the class of strings. -/
theorem C93_typedef_enum_refuted (rx : Str → Str → Bool) (cm : Dict CEnt) (hcm : HasBuiltins cm) (known : List Str) (hk : py!"uint8" ∈ known)
    (he : py!"enumeration" ∈ known) (fuel : Nat) :
    (∃ e, unionEntry known (some py!"5") [enumMem, plainMem (.int .uint8)] = .ok e ∧
      namedDefault cm (fuel + 3) e none = .ok (some (py!"5", Ctor.string.entry)) ∧ Means rx [.stringR [.dictKey [py!"auto"]], .int .uint8] py!"5" (.int 5)) ∧
    ∃ e, unionEntry known (some py!"5") [plainMem (.int .uint8), enumMem] = .ok e ∧
      namedDefault cm (fuel + 3) e none = .ok (some (py!"5", Ctor.string.entry)) ∧ Means rx [.int .uint8, .stringR [.dictKey [py!"auto"]]] py!"5" (.int 5) := by
  have hu : ∀ c ∈ [Ctor.int .uint8], c.name ∈ known := fun c hc => by rw [List.mem_singleton.1 hc]; exact hk
  obtain ⟨e1, a1, b1⟩ := C93_typedef_enum cm hcm known [] [.int .uint8] py!"5" (by simpa using hu) he (by decide) (by decide) (by decide) fuel
  obtain ⟨e2, a2, b2⟩ := C93_typedef_enum cm hcm known [.int .uint8] [] py!"5" (by simpa using hu) he (by decide) (by decide) (by decide) fuel
  rw [show [].length + ([Ctor.int .uint8].length + (fuel + 1) + 1) = fuel + 3 by simp; omega] at b1
  rw [show [Ctor.int .uint8].length + ([].length + (fuel + 1) + 1) = fuel + 3 by simp; omega] at b2
  exact ⟨⟨e1, a1, b1, rfl⟩, e2, a2, b2, rfl⟩

/-- C93 fails with `KeyError` and no program is written when the enumeration is the last member and string
is one of those before it, whatever the default: the search ends at the enumeration, which has no
`base_type`. -/
theorem C93_typedef_enum_error_refuted (cm : Dict CEnt) (hcm : HasBuiltins cm) (known : List Str) (cs : List Ctor) (v : Str)
    (hk : ∀ c ∈ cs, c.name ∈ known) (he : py!"enumeration" ∈ known) (hn : (cs.map Ctor.name).Nodup) (hs : Ctor.string ∈ cs) (hv : v ≠ []) (fuel : Nat) :
    ∃ e, unionEntry known (some v) (cs.map plainMem ++ [enumMem]) = .ok e ∧ namedDefault cm (cs.length + (fuel + 2)) e none = .error .keyError := by
  refine ⟨_, enum_entry known cs [] v (by simpa using hk) he hv, ?_⟩
  have hvis : visitAll (tmpMap cm) (cs.length + (fuel + 2)) (cs.map Ctor.name ++ py!"enumeration" :: [].map Ctor.name) [] =
      .ok (cs.map Ctor.name ++ [py!"enumeration"]) := by
    rw [visitAll_ctors (tmpMap cm) _ cs _ [] (fun c _ => tmpMap_ctor cm hcm c) (by simpa using hn), List.nil_append, visitAll,
      if_neg (names_not_enum cs), tmpMap_enum]
    simp only [enumEnt, Parents.list, List.map_nil, List.nil_append]
    have hm : py!"string" ∈ cs.map Ctor.name ++ [py!"enumeration"] := List.mem_append.2 (.inl (List.mem_map.2 ⟨Ctor.string, hs, rfl⟩))
    rw [visitAll, if_pos hm]
    cases fuel <;> rfl
  simp only [namedDefault, downToBase, Parents.list, hvis, List.getLast?_append, List.getLast?_singleton, Option.some_or, tmpMap_enum, enumEnt]
  rfl

/-- Hypotheses met: an enumeration between `uint8` and boolean; a string before one. -/
example : HasBuiltins builtins ∧ (([Ctor.int .uint8] ++ [Ctor.boolean]).map Ctor.name).Nodup ∧ Ctor.string ∉ [Ctor.int .uint8] ++ [Ctor.boolean] ∧
    (([Ctor.int .uint8, .string]).map Ctor.name).Nodup ∧ Ctor.string ∈ [Ctor.int .uint8, .string] :=
  ⟨builtins_has, by decide, by decide, by decide, by decide⟩

end Pyb
