import Verif.Lemmas.UnionDefault
import Verif.Props.Scalar

/-! # C93 -/

namespace Pyb
open Py Spec

/-- C93, in part.  The default of a leaf whose type is a union is made with a class that
gives, for its text, the value that assigning the text to the leaf gives (the first member
type that takes it: C20).  This holds for integer, string, boolean and enumeration members
without a default of their own, as long as no member before the one that takes the text
refuses it while the built-in type it restricts takes it. -/
theorem C93_value_partial (rx : Str → Str → Bool) (cm : Dict CEnt) (hcm : HasBuiltins cm) (ms : List MemTy) (v : Str) (x : PyVal)
    (h : Means rx ms v x) (hw : ∀ m ∈ ms, NoNarrower rx m v) (fuel : Nat) :
    ∃ c : Ctor, inlineDefault rx cm fuel (ms.map MemTy.elem) (some v) = .ok (some (v, c.entry)) ∧ c.call rx v = .ok x := by
  have key : ∀ ms : List MemTy, (∀ m ∈ ms, NoNarrower rx m v) →
      ((ms.map MemTy.leafTy).find? (fun t => (t.call rx (.str v)).toBool) = none ∨
        ∃ m ∈ ms, ∃ y, m.leafTy.call rx (.str v) = .ok y
          ∧ (ms.map MemTy.leafTy).find? (fun t => (t.call rx (.str v)).toBool) = some m.leafTy
          ∧ firstTaker rx cm v (ms.map MemTy.elem) = .ok (some m.ctor.entry)) := by
    intro ms
    induction ms with
    | nil => intro _; exact Or.inl rfl
    | cons m ms ih =>
      intro hw
      rw [List.map_cons, List.map_cons, List.find?_cons, firstTaker_step rx cm hcm]
      cases hc : m.leafTy.call rx (.str v) with
      | ok y =>
        right
        refine ⟨m, List.mem_cons_self, y, hc, rfl, ?_⟩
        rw [ctor_of_member rx m v y hc]
      | error e =>
        have hb : ∃ e', m.ctor.call rx v = .error e' := by
          cases hb : m.ctor.call rx v with
          | error e' => exact ⟨e', rfl⟩
          | ok z =>
            have := hw m List.mem_cons_self (by rw [hb]; rfl)
            rw [hc] at this
            simp [Except.toBool] at this
        obtain ⟨e', hb⟩ := hb
        rw [hb]
        rcases ih (fun m' hm' => hw m' (List.mem_cons_of_mem _ hm')) with h | ⟨m', h1, y, h2, h3, h4⟩
        · exact Or.inl h
        · exact Or.inr ⟨m', List.mem_cons_of_mem _ h1, y, h2, h3, h4⟩
  rcases key ms hw with hn | ⟨m, hm, y, h1, h2, h3⟩
  · rw [Means, setUnion, hn] at h
    simp at h
  · have hxy : x = y := by
      rw [Means, setUnion, h2] at h
      simp only [dyn_of_call rx m.leafTy (.str v) y h1] at h
      exact (Except.ok.inj h).symm
    subst hxy
    refine ⟨m.ctor, ?_, ctor_of_member rx m v x h1⟩
    rw [inlineDefault, memberDefault_none _ _ (by
      intro e he
      obtain ⟨m', _, rfl⟩ := List.mem_map.1 he
      exact elem_default m')]
    simp only [Option.map_some, absoluteType, h3]
    rfl

/-- Hypotheses met: an enumeration that has the text among its names comes before a string;
and an integer and a boolean, with the default `true`. -/
example : Means (fun _ _ => true) [.intR .uint8 [.range [py!"1..10"]], .stringR [.dictKey [py!"auto", py!"off"]], .string] py!"auto" (.str py!"auto")
    ∧ (∀ m ∈ [MemTy.intR .uint8 [.range [py!"1..10"]], .stringR [.dictKey [py!"auto", py!"off"]], .string], NoNarrower (fun _ _ => true) m py!"auto")
    ∧ inlineDefault (fun _ _ => true) builtins 0 ([MemTy.int .int8, .boolean].map MemTy.elem) (some py!"true") = .ok (some (py!"true", Ctor.boolean.entry)) := by
  refine ⟨by rw [Means]; decide, ?_, rfl⟩
  intro m hm
  simp only [List.mem_cons, List.not_mem_nil, or_false] at hm
  rcases hm with rfl | rfl | rfl <;> rw [NoNarrower] <;> decide

/-- C93, the default of a typedef of a union, exactly: of different built-in types, the
class is that of the last member, whatever the members take. -/
theorem C93_typedef_last (cm : Dict CEnt) (hcm : HasBuiltins cm) (known : List Str) (cs : List Ctor) (last : Ctor) (v : Str)
    (hk : ∀ c ∈ cs ++ [last], c.name ∈ known) (hn : ((cs ++ [last]).map Ctor.name).Nodup) (hv : v ≠ []) (fuel : Nat) (hf : cs.length < fuel) :
    ∃ e, unionEntry known (some v) ((cs ++ [last]).map plainMem) = .ok e
      ∧ namedDefault cm fuel e none = .ok (some (v, last.entry)) := by
  have hd : typedefDefault (some v) ((cs ++ [last]).map plainMem) = some v := by
    rw [plain_default, if_neg (by simpa using hv)]
  refine ⟨⟨some false, .many ((cs ++ [last]).map Ctor.name), some v, none⟩, ?_, ?_⟩
  · rw [unionEntry, plain_parents known _ hk, hd]
    simp only
    have hfl : ∀ l : List Ctor, (l.map fun c => [c.name]).flatten = l.map Ctor.name := by
      intro l
      induction l with
      | nil => rfl
      | cons c l ih => rw [List.map_cons, List.flatten_cons, ih]; rfl
    rw [hfl]
  · have hvis := visitAll_flat (tmpMap cm) (cs ++ [last]) (fun c _ => tmpMap_ctor cm hcm c) fuel [] (by simp; omega) (by simpa using hn)
    simp only [namedDefault, downToBase, Parents.list, hvis]
    simp only [List.nil_append, List.map_append, List.map_cons, List.map_nil,
      List.getLast?_append, List.getLast?_singleton, Option.some_or, tmpMap_ctor cm hcm last]
    rfl

/-- C93, the default of a typedef of a union, in part: the class gives the value the text
means when the last member is the one that takes the text. -/
theorem C93_typedef_partial (rx : Str → Str → Bool) (cm : Dict CEnt) (hcm : HasBuiltins cm) (known : List Str) (ms : List MemTy) (last : MemTy)
    (v : Str) (x : PyVal) (hk : ∀ m ∈ ms ++ [last], m.ctor.name ∈ known) (hn : ((ms ++ [last]).map fun m => m.ctor.name).Nodup)
    (hv : v ≠ []) (fuel : Nat) (hf : ms.length < fuel)
    (h : Means rx (ms ++ [last]) v x) (hr : ∀ m ∈ ms, (m.leafTy.call rx (.str v)).toBool = false) :
    ∃ e c, unionEntry known (some v) ((ms ++ [last]).map fun m => plainMem m.ctor) = .ok e
      ∧ namedDefault cm fuel e none = .ok (some (v, Ctor.entry c)) ∧ c.call rx v = .ok x := by
  obtain ⟨e, h1, h2⟩ := C93_typedef_last cm hcm known (ms.map MemTy.ctor) last.ctor v
    (by
      intro c hc
      rw [List.mem_append, List.mem_map, List.mem_singleton] at hc
      rcases hc with ⟨m, hm, rfl⟩ | rfl
      · exact hk m (List.mem_append.2 (Or.inl hm))
      · exact hk last (by simp))
    (by simpa [List.map_map, Function.comp_def] using hn) hv fuel (by simpa using hf)
  refine ⟨e, last.ctor, ?_, h2, ?_⟩
  · simpa [List.map_map, Function.comp_def] using h1
  · have hf : ((ms ++ [last]).map MemTy.leafTy).find? (fun t => (t.call rx (.str v)).toBool)
        = if (last.leafTy.call rx (.str v)).toBool then some last.leafTy else none := by
      rw [List.map_append, List.find?_append]
      have hnone : (ms.map MemTy.leafTy).find? (fun t => (t.call rx (.str v)).toBool) = none := by
        rw [List.find?_eq_none]
        intro t ht
        obtain ⟨m, hm, rfl⟩ := List.mem_map.1 ht
        simp [hr m hm]
      rw [hnone]
      cases hl : (last.leafTy.call rx (.str v)).toBool <;> simp [List.find?_cons, hl]
    rw [Means, setUnion, hf] at h
    cases hl : last.leafTy.call rx (.str v) with
    | error e => simp [hl, Except.toBool] at h
    | ok y =>
      simp only [hl, Except.toBool, if_true, dyn_of_call rx last.leafTy (.str v) y hl] at h
      cases h
      exact ctor_of_member rx last v _ hl

/-- Hypotheses met: a typedef of `uint8` and `string` with the default `auto`. -/
example : Means (fun _ _ => true) ([.int .uint8] ++ [.string]) py!"auto" (.str py!"auto")
    ∧ ((MemTy.int .uint8).leafTy.call (fun _ _ => true) (.str py!"auto")).toBool = false
    ∧ (([MemTy.int .uint8] ++ [MemTy.string]).map fun m : MemTy => m.ctor.name).Nodup := by
  rw [Means]; decide

/-- C93 fails for typedefs: a union of string and `uint8` with the default `auto` is given
the class of `uint8`, which refuses it; one of `uint8` and string with the default `5`, which
means the number, is given the class of strings. -/
theorem C93_typedef_refuted (rx : Str → Str → Bool) (cm : Dict CEnt) (hcm : HasBuiltins cm) (known : List Str) (hk : ∀ c : Ctor, c.name ∈ known) (fuel : Nat) :
    (∃ e, unionEntry known (some py!"auto") [plainMem .string, plainMem (.int .uint8)] = .ok e
      ∧ namedDefault cm (fuel + 2) e none = .ok (some (py!"auto", (Ctor.int .uint8).entry))
      ∧ (Ctor.int .uint8).call rx py!"auto" = .error .typeError
      ∧ Means rx [.string, .int .uint8] py!"auto" (.str py!"auto"))
    ∧ ∃ e, unionEntry known (some py!"5") [plainMem (.int .uint8), plainMem .string] = .ok e
      ∧ namedDefault cm (fuel + 2) e none = .ok (some (py!"5", Ctor.string.entry))
      ∧ Ctor.string.call rx py!"5" = .ok (.str py!"5")
      ∧ Means rx [.int .uint8, .string] py!"5" (.int 5) := by
  obtain ⟨e, h1, h2⟩ := C93_typedef_last cm hcm known [.string] (.int .uint8) py!"auto" (fun c _ => hk c) (by decide) (by decide) (fuel + 2) (by simp)
  obtain ⟨e', h3, h4⟩ := C93_typedef_last cm hcm known [.int .uint8] .string py!"5" (fun c _ => hk c) (by decide) (by decide) (fuel + 2) (by simp)
  exact ⟨⟨e, h1, h2, rfl, rfl⟩, e', h3, h4, rfl, rfl⟩

/-- C93 fails for members with a default of their own: the last such default replaces the
leaf's, although a leaf does not take the defaults of the members of its type. -/
theorem C93_member_refuted (rx : Str → Str → Bool) (cm : Dict CEnt) (fuel : Nat) (own : Option Str) (before after : List CEnt)
    (m : CEnt) (d : Str) (hd : m.default = some d) (ha : ∀ a ∈ after, a.default = none) :
    inlineDefault rx cm fuel (before ++ m :: after) own = (downToBase cm fuel m).map fun b => some (d, b) := by
  have hm : memberDefault (own.map fun v => (v, none)) (before ++ m :: after) = some (d, some m) := by
    have := memberDefault_none (some (d, some m)) after ha
    rw [memberDefault] at this ⊢
    rw [List.foldl_append, List.foldl_cons, hd]
    exact this
  simp only [inlineDefault, hm]

/-- A typedef of `uint8` with the default `7` as a member: the leaf's own default `auto` is
lost. -/
example : inlineDefault (fun _ _ => true) builtins 1 [⟨some false, .one py!"uint8", some py!"7", none⟩, Ctor.string.entry] (some py!"auto")
    = .ok (some (py!"7", (Ctor.int .uint8).entry)) := rfl

/-- C93 fails for members with restrictions: the text is tried on the built-in type.  An
enumeration without the name `5` before `uint8` makes the default the text, not the number;
`uint8` from 1 to 10 before string makes `50` the number, not the text. -/
theorem C93_narrow_refuted (rx : Str → Str → Bool) (cm : Dict CEnt) (hcm : HasBuiltins cm) (fuel : Nat) :
    (Means rx [.stringR [.dictKey [py!"auto"]], .int .uint8] py!"5" (.int 5)
      ∧ inlineDefault rx cm fuel ([MemTy.stringR [.dictKey [py!"auto"]], .int .uint8].map MemTy.elem) (some py!"5") = .ok (some (py!"5", Ctor.string.entry)))
    ∧ Means rx [.intR .uint8 [.range [py!"1..10"]], .string] py!"50" (.str py!"50")
      ∧ inlineDefault rx cm fuel ([MemTy.intR .uint8 [.range [py!"1..10"]], .string].map MemTy.elem) (some py!"50") = .ok (some (py!"50", (Ctor.int .uint8).entry))
      ∧ (Ctor.int .uint8).call rx py!"50" = .ok (.int 50) := by
  have h1 := firstTaker_step rx cm hcm py!"5" (.stringR [.dictKey [py!"auto"]]) [(MemTy.int .uint8).elem]
  have h2 := firstTaker_step rx cm hcm py!"50" (.intR .uint8 [.range [py!"1..10"]]) [MemTy.string.elem]
  refine ⟨⟨rfl, ?_⟩, rfl, ?_, rfl⟩
  · rw [inlineDefault, memberDefault_none _ _ (by simp [elem_default])]
    simp only [List.map_cons, List.map_nil, Option.map_some, absoluteType, h1]
    rfl
  · rw [inlineDefault, memberDefault_none _ _ (by simp [elem_default])]
    simp only [List.map_cons, List.map_nil, Option.map_some, absoluteType, h2]
    rfl

/-- C93 fails with an exception, and no program is written: a decimal before the member that
takes the text; a bits member before it; a restriction of a typedef (`pct`); a typedef of a
union; and a default none of the built-in types takes. -/
theorem C93_error_refuted (rx : Str → Str → Bool) (cm : Dict CEnt) (hcm : HasBuiltins cm) (fuel : Nat)
    (hp : cm.get? py!"pct" = some ⟨some false, .one py!"uint8", none, none⟩) :
    inlineDefault rx cm fuel [⟨some false, .one py!"decimal64", none, none⟩, Ctor.string.entry] (some py!"auto") = .error .invalidOperation
    ∧ inlineDefault rx cm fuel [⟨some true, .one py!"bits", none, none⟩, Ctor.string.entry] (some py!"auto") = .error .keyError
    ∧ inlineDefault rx cm fuel [⟨some false, .one py!"pct", none, none⟩, Ctor.string.entry] (some py!"auto") = .error .keyError
    ∧ inlineDefault rx cm fuel [⟨some false, .many [py!"uint8", py!"string"], none, none⟩, Ctor.string.entry] (some py!"auto") = .error .typeError
    ∧ inlineDefault rx cm fuel [(Ctor.int .uint8).entry, Ctor.boolean.entry] (some py!"auto") = .error .runtimeError := by
  have hd : cm.get? py!"decimal64" = some Ctor.decimal.entry := hcm .decimal
  refine ⟨?_, ?_, ?_, ?_, ?_⟩
  · simp only [inlineDefault, memberDefault, List.foldl, Ctor.entry, Option.map_some, absoluteType, firstTaker, hd]
    rfl
  · rfl
  · simp only [inlineDefault, memberDefault, List.foldl, Ctor.entry, Option.map_some, absoluteType, firstTaker, hp]
  · rfl
  · rfl

/-- C93 fails for typedefs of unions in two more ways: an empty default is lost, and a
default of a member becomes the default of the union. -/
theorem C93_typedef_default_refuted (known : List Str) (d : Str) (h1 : py!"uint8" ∈ known) (h2 : py!"string" ∈ known) (h3 : py!"pct" ∈ known) :
    (∃ e, unionEntry known (some []) [plainMem (.int .uint8), plainMem .string] = .ok e ∧ e.default = none)
    ∧ ∃ e, unionEntry known none [⟨⟨some false, .one py!"uint8", some d, none⟩, py!"pct"⟩, plainMem .string] = .ok e ∧ e.default = some d := by
  constructor
  · refine ⟨_, by rw [unionEntry, show [plainMem (.int .uint8), plainMem .string] = [Ctor.int .uint8, .string].map plainMem from rfl, plain_parents known _ (by intro c hc; simp at hc; rcases hc with rfl | rfl <;> assumption)], rfl⟩
  · refine ⟨⟨some false, .many [py!"pct", py!"string"], some d, none⟩, ?_, rfl⟩
    have a : memberParent known ⟨⟨some false, .one py!"uint8", some d, none⟩, py!"pct"⟩ = .ok [py!"pct"] := by rw [memberParent, if_pos h3]
    have b : memberParent known (plainMem .string) = .ok [py!"string"] := by rw [memberParent]; exact if_pos h2
    rw [unionEntry, List.mapM_cons, List.mapM_cons, a, b]
    rfl

end Pyb
