import Verif.Lemmas.UnionList
import Verif.Props.UnionDoc

/-! # Leaf-lists of unions in documents -/

namespace Pyb
open Py Spec

/-- C81 for leaf-lists, IETF JSON: if every element is a value of a member, the members
before take neither it nor what is written for it, and none is there twice, the elements
are written one by one, those that are neither booleans nor otherwise outside `UnionWell`
as RFC 7951 says for their member, and read back.  Not proved, since it is wrong: for
other elements (see below). -/
theorem C81_leaflist_encoding_partial (rx : Str → Str → Bool) (repr : J → Str) (mod : Str) (u : UTy) (b : Bool) (tx : List PyVal → Str)
    (vs : List PyVal) (hne : vs ≠ []) (h : ∀ v ∈ vs, ∃ pre t, ElemMember rx u pre t v) (hd : vs.Pairwise fun x y => pyEq x y = false) :
    ∃ xs, vs.mapM (serElem true mod (u.llCls rx b tx)) = .ok xs ∧ ietfVal (u.llCls rx b tx).yangType (.arr xs) = .ok (.arr xs) ∧
      tlInit (u.llCls rx b tx).conv b (.seq (xs.map (jPy repr))) = .ok vs ∧
      ∀ v ∈ vs, ∀ pre t, ElemMember rx u pre t v → UnionWell mod t v → (∀ c, v ≠ .bool c) →
        ∃ j, serElem true mod (u.llCls rx b tx) v = .ok j ∧ Rfc7951 mod t v j := by
  obtain ⟨xs, h1, h2, h3⟩ := leafListBack_union (repr := repr) (mod := mod) (b := b) (tx := tx) hne h hd
  refine ⟨xs, h1, h2, h3, ?_⟩
  intro v hv pre t hm hw hb
  refine ⟨elemJ t v, by rw [serElem_union hm]; exact serElem_value hm.elem, ?_⟩
  have hpl := hm.plain
  obtain ⟨hval, hnt, hc⟩ := hm.elem
  cases hval with
  | int name t chain lo hi n ha hb' hl hn =>
    simp only [elemJ, UnionWell] at hw ⊢
    by_cases ht : t ∈ [IntTy.int64, .uint64]
    · have : t.bits = 64 := by revert ht; cases t <;> simp [IntTy.bits]
      rw [if_pos ⟨hw ht, this⟩]
      exact .large _ _ _ _ ht
    · have : t.bits ≠ 64 := by revert ht; cases t <;> simp [IntTy.bits]
      rw [if_neg (by simp [this])]
      exact .small _ _ _ _ ht
  | str name T s ha => exact .str _ _ _
  | ident name ids s ha hs hc hm => exact .identHere _ _ _ hw
  | bool name c ha => exact absurd rfl (hb c)
  | empty name ha => exact absurd rfl (hnt.1 name)
  | ext name x => exact absurd rfl (hpl name x)

theorem refusesElem {t : YTy} {v : PyVal} (h : (elemCheck noRx t.ty v).isSome = false) : ¬ ElemTakes noRx t v := by
  rintro ⟨w, hw⟩
  rw [conv_one] at hw
  rw [hw] at h
  cases h

/-- 300 is a value of the second member, 7 of the first, `a` of the last. -/
theorem uMany_300 : ElemMember noRx uMany [tTen] tU64 (.int 300) where
  name := .inl rfl
  pos := ⟨_, rfl⟩
  elem := ⟨val_u64 300 (by decide), by simp [tU64], rfl⟩
  plain := by simp [tU64]
  first := by
    intro s hs
    simp only [List.mem_singleton] at hs
    subst hs
    exact refusesElem (by decide)
  long := by
    intro _ s hs
    simp only [List.mem_singleton] at hs
    subst hs
    exact refusesElem (by decide)
  bool := by simp

theorem uMany_7 : ElemMember noRx uMany [] tTen (.int 7) where
  name := .inl rfl
  pos := ⟨_, rfl⟩
  elem := ⟨val_ten 7 (by decide), by simp [tTen], rfl⟩
  plain := by simp [tTen]
  first := by simp
  long := by simp
  bool := by simp

theorem uLongStr_a : ElemMember noRx uLongStr [tU64] tStr (.str py!"a") where
  name := .inl rfl
  pos := ⟨_, rfl⟩
  elem := ⟨.str _ _ _ (.inl (.inl rfl)), by simp [tStr], rfl⟩
  plain := by simp [tStr]
  first := by
    intro s hs
    simp only [List.mem_singleton] at hs
    subst hs
    exact refusesElem (by decide)
  long := fun h => absurd h id
  bool := by simp

theorem uLongStr_5 : ElemMember noRx uLongStr [] tU64 (.int 5) where
  name := .inl rfl
  pos := ⟨_, rfl⟩
  elem := ⟨val_u64 5 (by decide), by simp [tU64], rfl⟩
  plain := by simp [tU64]
  first := by simp
  long := by simp
  bool := by simp

theorem uMany_elems : ∀ v ∈ [PyVal.int 300, .int 7], ∃ pre t, ElemMember noRx uMany pre t v := by
  intro v hv
  simp only [List.mem_cons, List.not_mem_nil, or_false] at hv
  rcases hv with rfl | rfl
  · exact ⟨_, _, uMany_300⟩
  · exact ⟨_, _, uMany_7⟩

theorem uLongStr_elems : ∀ v ∈ [PyVal.int 5, .str py!"a"], ∃ pre t, ElemMember noRx uLongStr pre t v := by
  intro v hv
  simp only [List.mem_cons, List.not_mem_nil, or_false] at hv
  rcases hv with rfl | rfl
  · exact ⟨_, _, uLongStr_5⟩
  · exact ⟨_, _, uLongStr_a⟩

example : [PyVal.int 300, .int 7].mapM (serElem true py!"m" (uMany.llCls noRx)) = .ok [.str py!"300", .num 7] ∧
    ∃ xs, [PyVal.int 300, .int 7].mapM (serElem true py!"m" (uMany.llCls noRx)) = .ok xs ∧
      tlInit (uMany.llCls noRx).conv true (.seq (xs.map (jPy fun _ => []))) = .ok [.int 300, .int 7] := by
  obtain ⟨xs, h1, _, h3, _⟩ := C81_leaflist_encoding_partial noRx (fun _ => []) py!"m" uMany true (fun _ => []) _ (by simp) uMany_elems (by decide)
  exact ⟨rfl, xs, h1, h3⟩

/-- C81 for leaf-lists, native JSON: each element is written, and read back. -/
theorem C81_leaflist_native_partial (rx : Str → Str → Bool) (repr : J → Str) (u : UTy) (b : Bool) (tx : List PyVal → Str) (pre : List YTy) (t : YTy)
    (v : PyVal) (h : ElemMember rx u pre t v) :
    ∃ j, serElem false [] (u.llCls rx b tx) v = .ok j ∧ (u.llCls rx b tx).conv (jPy repr j) = some v := by
  obtain ⟨j, h1, h2, _⟩ := nElemBack_union (repr := repr) (b := b) (tx := tx) h
  exact ⟨j, h1, h2⟩

example : ∃ j, serElem false [] (uMany.llCls noRx) (.int 300) = .ok j ∧ (uMany.llCls noRx).conv (jPy (fun _ => []) j) = some (.int 300) :=
  C81_leaflist_native_partial noRx (fun _ => []) uMany true _ [tTen] tU64 _ uMany_300

/-- C81 for leaf-lists of integers, then strings: whatever was put in (texts, or integers
in one of the ranges), if no two elements are equal they come back from IETF JSON and
native JSON.  Missing: elements that are equal, which do not (C38). -/
theorem C81_leaflist_ints_strings_partial (rx : Str → Str → Bool) (repr : J → Str) (mod : Str) (u : UTy) (b : Bool) (tx : List PyVal → Str)
    (ints strs : List YTy) (hname : TypeArg py!"union" u.name)
    (hu : u.members = ints ++ strs) (hi : ∀ t ∈ ints, IntType t) (hs : ∀ t ∈ strs, StrType t) (vs : List PyVal) (hne : vs ≠ [])
    (h : ∀ w ∈ vs, ∃ x, ((∃ s, x = .str s) ∨ ((∃ n, x = .int n) ∧ ∃ t ∈ ints, Accepts rx t x)) ∧ (u.llCls rx b tx).conv x = some w)
    (hd : vs.Pairwise fun x y => pyEq x y = false) :
    (∃ xs, vs.mapM (serElem true mod (u.llCls rx b tx)) = .ok xs ∧ ietfVal (u.llCls rx b tx).yangType (.arr xs) = .ok (.arr xs) ∧
      tlInit (u.llCls rx b tx).conv b (.seq (xs.map (jPy repr))) = .ok vs) ∧
    ∀ v ∈ vs, ∃ j, serElem false [] (u.llCls rx b tx) v = .ok j ∧ (u.llCls rx b tx).conv (jPy repr j) = some v := by
  have hall : ∀ w ∈ vs, ∃ pre t, ElemMember rx u pre t w := by
    intro w hw
    obtain ⟨x, hx, hc⟩ := h w hw
    exact ints_strings_elem hname hu hi hs hx hc
  refine ⟨?_, fun v hv => ?_⟩
  · obtain ⟨xs, h1, h2, h3, _⟩ := C81_leaflist_encoding_partial rx repr mod u b tx vs hne hall hd
    exact ⟨xs, h1, h2, h3⟩
  · obtain ⟨pre, t, hm⟩ := hall v hv
    exact C81_leaflist_native_partial rx repr u b tx pre t v hm

example : ∃ xs, [PyVal.int 5, .str py!"a"].mapM (serElem true py!"m" (uLongStr.llCls noRx)) = .ok xs ∧
    tlInit (uLongStr.llCls noRx).conv true (.seq (xs.map (jPy fun _ => []))) = .ok [.int 5, .str py!"a"] := by
  obtain ⟨⟨xs, h1, _, h3⟩, _⟩ := C81_leaflist_ints_strings_partial noRx (fun _ => []) py!"m" uLongStr true (fun _ => []) [tU64] [tStr] (.inl rfl) rfl
    (by
      intro t ht
      simp only [List.mem_singleton] at ht
      subst ht
      exact ⟨_, .uint64, [], 0, 18446744073709551615, .inl rfl, rfl, builtin_legal .uint64, rfl⟩)
    (by
      intro t ht
      simp only [List.mem_singleton] at ht
      subst ht
      exact ⟨_, .base .str, .inl (.inl rfl), rfl, rfl⟩) [.int 5, .str py!"a"] (by simp)
    (by
      intro w hw
      simp only [List.mem_cons, List.not_mem_nil, or_false] at hw
      rcases hw with rfl | rfl
      · exact ⟨.str py!"+5", .inl ⟨_, rfl⟩, rfl⟩
      · exact ⟨.str py!"a", .inl ⟨_, rfl⟩, rfl⟩) (by decide)
  exact ⟨xs, h1, h3⟩

/-! ## Whole trees: C38, C39 and C69 with leaf-lists of unions -/

def uLists : List (Meta × Schema) := [(inM py!"x", .leafList (uMany.llCls noRx)), (inM py!"y", .leafList (uLongStr.llCls noRx))]

def uListsTree : List Inst := [.leafList [.int 300, .int 7] true, .leafList [.int 5, .str py!"a"] true]

theorem uLists_apart : ApartRoot uLists := by
  intro k hk
  simp only [uLists, List.mem_cons, List.not_mem_nil, or_false] at hk
  rcases hk with rfl | rfl <;> simp [Choices, inM]

example : ∃ j ns', ietfDump {} uLists uListsTree = .ok j ∧ ietfLoad demoLoad uLists (freshKids uLists) j = (ns', none) ∧ SameKids uLists uListsTree ns' :=
  C38_ietf_roundtrip_partial noRx demoLoad rfl demoUuid_fresh uLists uLists_apart ⟨by decide, by decide⟩ _
    ⟨fun _ => ⟨rfl, .inr ⟨_, _, _, rfl, uMany_elems⟩, by decide⟩, fun _ => ⟨rfl, .inr ⟨_, _, _, rfl, uLongStr_elems⟩, by decide⟩, trivial⟩

theorem uLists_xml : EveryKids (XmlOrderly noRx demoInfer) uLists uListsTree := by
  refine ⟨⟨fun _ => by decide, fun _ => ⟨rfl, .inr ⟨_, _, _, rfl, ?_⟩, by decide⟩⟩, ⟨fun _ => by decide, fun _ => ⟨rfl, .inr ⟨_, _, _, rfl, ?_⟩, by decide⟩⟩, trivial⟩
  all_goals
    intro v hv
    simp only [List.mem_cons, List.not_mem_nil, or_false] at hv
  · rcases hv with rfl | rfl
    · exact ⟨_, _, uMany_300, by simp [InXml, tU64], by simp [UntypedIn]⟩
    · exact ⟨_, _, uMany_7, by simp [InXml, tTen], by simp [UntypedIn]⟩
  · rcases hv with rfl | rfl
    · exact ⟨_, _, uLongStr_5, by simp [InXml, tU64], by simp [UntypedIn]⟩
    · refine ⟨_, _, uLongStr_a, ⟨?_, by simp [tStr], by simp⟩, fun s e => .inr (.inl ?_)⟩
      · intro s e
        cases e
        decide
      · cases e
        decide

example : ∃ x ns', xmlDump id true py!"m" py!"urn:m" uLists uListsTree = .ok x ∧ xmlLoad demoInfer uLists (freshKids uLists) x = (ns', none) ∧
    SameKids uLists uListsTree ns' :=
  C69_xml_roundtrip_partial noRx id demoInfer demo_objectify py!"m" py!"urn:m" uLists uLists_apart ⟨by decide, by decide⟩ _ uLists_xml

/-- What a user may call to get there. -/
def uListsOps : List (Path × Op) :=
  [([.field 0], .ll (.append (.int 300))), ([.field 0], .ll (.append (.str py!"7"))),
   ([.field 1], .ll (.append (.str py!"+5"))), ([.field 1], .ll (.append (.str py!"a")))]

theorem uLists_reached : history uLists (freshKids uLists) uListsOps = uListsTree := by rfl

theorem uLists_flat : FlatRoot uLists := by
  intro k hk
  simp only [uLists, List.mem_cons, List.not_mem_nil, or_false] at hk
  rcases hk with rfl | rfl <;> simp [Choices, inM]

example : ∃ j ns', nativeDump uLists (history uLists (freshKids uLists) uListsOps) = .ok j ∧
    nativeLoad demoLoad uLists (freshKids uLists) j = (ns', none) ∧ SameKids uLists (history uLists (freshKids uLists) uListsOps) ns' :=
  C39_reachable_partial noRx demoLoad rfl uLists uLists_flat ⟨by decide, by decide⟩ uListsOps (by simp [uListsOps, Plain])
    (by
      rw [uLists_reached]
      exact ⟨fun _ => ⟨⟨.inr ⟨_, _, _, rfl, uMany_elems⟩, by simp⟩, by decide⟩,
        fun _ => ⟨⟨.inr ⟨_, _, _, rfl, uLongStr_elems⟩, by simp⟩, by decide⟩, trivial⟩)

/-! ## Elements that do not come back -/

/-- A leaf-list of `union { type uint8; type boolean; }` to which the text `true` was
appended: it holds `True`, is written as the number 1, and read as that. -/
theorem C81_leaflist_boolean_refuted : ∃ kids ops j ns', ietfDump {} kids (history kids (freshKids kids) ops) = .ok j ∧
    ietfLoad demoLoad kids (freshKids kids) j = (ns', none) ∧
    history kids (freshKids kids) ops = [.leafList [.bool true] true] ∧ ns' = [.leafList [.int 1] true] :=
  ⟨[(inM py!"x", .leafList (UTy.llCls noRx ⟨py!"union", [.int py!"uint8" .uint8 [], tBool]⟩))], [([.field 0], .ll (.append (.str py!"true")))],
    _, _, rfl, rfl, rfl, rfl⟩

/-- A leaf-list of `union { type string; type uint64; }`, to which 5 and "5" were
appended, which are different values: both are written as "5", and one is read back. -/
theorem C81_leaflist_long_refuted : ∃ kids ops j ns', ietfDump {} kids (history kids (freshKids kids) ops) = .ok j ∧
    ietfLoad demoLoad kids (freshKids kids) j = (ns', none) ∧
    history kids (freshKids kids) ops = [.leafList [.int 5, .str py!"5"] true] ∧ ns' = [.leafList [.str py!"5"] true] :=
  ⟨[(inM py!"x", .leafList (UTy.llCls noRx ⟨py!"union", [tStr, tU64]⟩))], [([.field 0], .ll (.append (.int 5))), ([.field 0], .ll (.append (.str py!"5")))],
    _, _, rfl, rfl, rfl, rfl⟩

end Pyb
