import Verif.Lemmas.UnionDoc
import Verif.Props.Xml
import Verif.Props.Native

/-! # Unions in documents -/

namespace Pyb
open Py Spec

/-- `union { type int8 { range "0..10"; } type uint64; type boolean; type identityref;
type string; }` -/
def uMany : UTy := ⟨py!"union", [tTen, tU64, tBool, tIdent, tStr]⟩

theorem refuses_of {t : YTy} {v : PyVal} (h : (t.ty.call noRx v).toBool = false) : ¬ Accepts noRx t v := by
  rintro ⟨w, hw⟩
  rw [hw] at h
  simp [Except.toBool] at h

theorem uMany_long : MemberValue noRx uMany [tTen] tU64 (.int 300) where
  name := .inl rfl
  pos := ⟨_, rfl⟩
  value := val_u64 300 (by decide)
  plain := by simp [tU64]
  same := rfl
  first := by
    intro s hs
    simp only [List.mem_singleton] at hs
    subst hs
    exact refuses_of (by decide)

theorem uMany_text : ∀ s ∈ [tTen], ¬ Accepts noRx s (.str (PyVal.int 300).toStr) := by
  intro s hs
  simp only [List.mem_singleton] at hs
  subst hs
  exact refuses_of (by decide)

/-- C81 for IETF JSON: if the value of a leaf of a union is a value of its member `t`, and
the first one `t` has is the first that takes it, it is written as RFC 7951 says for that
member (6.10), and read back.  Not proved, since it is wrong (see below): for other values
than those of `UnionWell`, and for 64-bit integers whose text a member before takes. -/
theorem C81_encoding_partial (rx : Str → Str → Bool) (repr : J → Str) (mod : Str) (u : UTy) (d : Option PyVal) (pre : List YTy) (t : YTy)
    (v : PyVal) (h : MemberValue rx u pre t v) (hl : LongInt t → ∀ s ∈ pre, ¬ Accepts rx s (.str v.toStr)) (hw : UnionWell mod t v) :
    ∃ j j', serLeaf true mod (u.cls rx d) v = .ok j ∧ Rfc7951 mod t v j ∧
      ietfVal (u.cls rx d).yangType j = .ok j' ∧ (u.cls rx d).set (jPy repr j') = .ok v := by
  obtain ⟨j, j', h1, _, _, h4, _, h6⟩ := leafBack_union (repr := repr) (mod := mod) (d := d) h hl
  refine ⟨j, j', h1, ?_, h4, h6⟩
  rw [serLeaf_union h] at h1
  simp only [Except.ok.injEq] at h1
  subst h1
  cases h.value with
  | int name t chain lo hi n ha hb hl hn =>
    simp only [unionJ, UnionWell] at hw ⊢
    by_cases ht : t ∈ [IntTy.int64, .uint64]
    · have : t.bits = 64 := by revert ht; cases t <;> simp [IntTy.bits]
      rw [if_pos ⟨hw ht, this, trivial⟩]
      exact .large _ _ _ _ ht
    · have : t.bits ≠ 64 := by revert ht; cases t <;> simp [IntTy.bits]
      rw [if_neg (by simp [this])]
      exact .small _ _ _ _ ht
  | str name T s ha => exact .str _ _ _
  | ident name ids s ha hs hc hm => exact .identHere _ _ _ hw
  | bool name b ha => exact .bool _ _
  | empty name ha => exact absurd hw id
  | ext name x => exact absurd rfl (h.plain name x)

example : ∃ j j', serLeaf true py!"m" (uMany.cls noRx none) (.int 300) = .ok j ∧ Rfc7951 py!"m" tU64 (.int 300) j ∧
    ietfVal py!"union" j = .ok j' ∧ (uMany.cls noRx none).set (jPy (fun _ => []) j') = .ok (.int 300) :=
  C81_encoding_partial noRx (fun _ => []) py!"m" uMany none [tTen] tU64 _ uMany_long (fun _ => uMany_text) (fun _ => rfl)

/-- C81 for native JSON. -/
theorem C81_native (rx : Str → Str → Bool) (repr : J → Str) (mod : Str) (u : UTy) (d : Option PyVal) (pre : List YTy) (t : YTy)
    (v : PyVal) (h : MemberValue rx u pre t v) :
    ∃ j, serLeaf false mod (u.cls rx d) v = .ok j ∧ (u.cls rx d).set (jPy repr j) = .ok v := by
  refine ⟨_, serLeaf_union h, ?_⟩
  have hs := union_set (d := d) h.pos h.same h.first
  cases h.value with
  | ext name x => exact absurd rfl (h.plain name x)
  | _ => simp only [unionJ, Bool.false_eq_true, and_false, if_false]; exact hs

example : ∃ j, serLeaf false py!"m" (uMany.cls noRx none) (.int 300) = .ok j ∧
    (uMany.cls noRx none).set (jPy (fun _ => []) j) = .ok (.int 300) :=
  C81_native noRx (fun _ => []) py!"m" uMany none [tTen] tU64 _ uMany_long

theorem xmlTextOf_ne {t : YTy} {v : PyVal} (h : Value t v) (hp : ∀ n x, t ≠ .ext n x) (hne : v ≠ .str []) : xmlTextOf v ≠ [] := by
  cases h with
  | int name t chain lo hi n => exact (intStr_xml n).2
  | str name T s => exact fun e => hne (by rw [show s = [] from e])
  | ident name ids s => exact fun e => hne (by rw [show s = [] from e])
  | bool name b => cases b <;> simp [xmlTextOf]
  | empty name => simp [xmlTextOf]
  | ext name x => exact absurd rfl (hp name x)

/-- C81 for XML: the text of the element is that of the value; it is read back if no
member before takes it. -/
theorem C81_xml (rx : Str → Str → Bool) (nsOf : Str → Str) (m : Meta) (u : UTy) (d : Option PyVal) (pre : List YTy) (t : YTy)
    (v : PyVal) (h : MemberValue rx u pre t v) (hx : InXml t v) (hne : v ≠ .str [])
    (hf : ∀ s ∈ pre, ¬ Accepts rx s (.str (xmlTextOf v))) :
    ∃ ds, xmlLeaf nsOf m (u.cls rx d) v true = .ok (.elem m.ns m.name ds (some (xmlTextOf v)) []) ∧
      ∀ own c, (xmlSet (u.cls rx d) own false c (some (xmlTextOf v))).inst = .leaf v true ∧
        (xmlSet (u.cls rx d) own false c (some (xmlTextOf v))).err = none := by
  obtain ⟨h1, h2⟩ := xunion h hx hf (xmlTextOf_ne h.value h.plain hne) (nsOf := nsOf) (m := m) (d := d)
  exact ⟨_, h1, fun own c => by rw [h2]; exact ⟨rfl, rfl⟩⟩

example : ∃ ds, xmlLeaf id (inM py!"x") (uMany.cls noRx none) (.int 300) true = .ok (.elem py!"urn:m" py!"x" ds (some py!"300") []) ∧
    ∀ own c, (xmlSet (uMany.cls noRx none) own false c (some py!"300")).inst = .leaf (.int 300) true ∧
      (xmlSet (uMany.cls noRx none) own false c (some py!"300")).err = none :=
  C81_xml noRx id (inM py!"x") uMany none [tTen] tU64 _ uMany_long ⟨by simp, by simp [tU64], by simp⟩ (by simp) uMany_text

/-- C81 for what a leaf of a union of integers, then strings, may hold.  It was set to a
text, or to an integer that is in one of its ranges.  Then it comes back from all three
kinds of document (from XML, if it is no empty string and XML can hold it). -/
theorem C81_ints_strings (rx : Str → Str → Bool) (u : UTy) (d : Option PyVal) (ints strs : List YTy) (hname : TypeArg py!"union" u.name)
    (hu : u.members = ints ++ strs) (hi : ∀ t ∈ ints, IntType t) (hs : ∀ t ∈ strs, StrType t) (x w : PyVal)
    (hx : (∃ s, x = .str s) ∨ ((∃ n, x = .int n) ∧ ∃ t ∈ ints, Accepts rx t x)) (h : (u.cls rx d).set x = .ok w) :
    (∀ repr mod, ∃ j j', serLeaf true mod (u.cls rx d) w = .ok j ∧ ietfVal (u.cls rx d).yangType j = .ok j' ∧
      (u.cls rx d).set (jPy repr j') = .ok w) ∧
    (∀ repr mod, ∃ j, serLeaf false mod (u.cls rx d) w = .ok j ∧ (u.cls rx d).set (jPy repr j) = .ok w) ∧
    ∀ nsOf m, (∀ s, w = .str s → s ≠ [] ∧ s.all xmlChar = true) →
      ∃ ds, xmlLeaf nsOf m (u.cls rx d) w true = .ok (.elem m.ns m.name ds (some (xmlTextOf w)) []) ∧
        ∀ own c, (xmlSet (u.cls rx d) own false c (some (xmlTextOf w))).inst = .leaf w true := by
  obtain ⟨pre, t, hm, hp⟩ := ints_strings hname hu hi hs hx h
  refine ⟨fun repr mod => ?_, fun repr mod => C81_native rx repr mod u d pre t w hm, fun nsOf m hxm => ?_⟩
  · obtain ⟨j, j', h1, _, _, h4, _, h6⟩ := leafBack_union (repr := repr) (mod := mod) (d := d) hm fun _ s hs => (hp s hs).2
    exact ⟨j, j', h1, h4, h6⟩
  · have hin : InXml t w := by
      refine ⟨fun s e => (hxm s e).2, ?_, ?_⟩
      rotate_left
      · rintro ns rfl
        have hv := hm.value
        have hp := hm.plain
        cases hv with
        | ext name x => exact absurd rfl (hp name x)
      rintro n ids rfl
      obtain ⟨post, hpos⟩ := hm.pos
      have : YTy.ident n ids ∈ ints ++ strs := by rw [← hu, hpos]; simp
      rcases List.mem_append.1 this with h' | h'
      · obtain ⟨_, _, _, _, _, _, _, _, e⟩ := hi _ h'; simp at e
      · obtain ⟨_, _, _, _, e⟩ := hs _ h'; simp at e
    obtain ⟨ds, h1, h2⟩ := C81_xml rx nsOf m u d pre t w hm hin (fun e => (hxm [] e).1 rfl) fun s hs => (hp s hs).1
    exact ⟨ds, h1, fun own c => (h2 own c).1⟩

/-- `union { type uint64; type string; }` -/
def uLongStr : UTy := ⟨py!"union", [tU64, tStr]⟩

example : ∀ repr mod, ∃ j j', serLeaf true mod (uLongStr.cls noRx) (.int 5) = .ok j ∧ ietfVal py!"union" j = .ok j' ∧
    (uLongStr.cls noRx).set (jPy repr j') = .ok (.int 5) :=
  (C81_ints_strings noRx uLongStr none [tU64] [tStr] (.inl rfl) rfl
    (by
      intro t ht
      simp only [List.mem_singleton] at ht
      subst ht
      exact ⟨_, .uint64, [], 0, 18446744073709551615, .inl rfl, rfl, builtin_legal .uint64, rfl⟩)
    (by
      intro t ht
      simp only [List.mem_singleton] at ht
      subst ht
      exact ⟨_, .base .str, .inl (.inl rfl), rfl, rfl⟩) (.str py!"+5") (.int 5) (.inl ⟨_, rfl⟩) rfl).1

/-! ## A whole tree -/

def uKids : List (Meta × Schema) := [(inM py!"x", .leaf (uMany.cls noRx)), (inM py!"y", .leaf (uLongStr.cls noRx))]

/-- C38, C39 and C69 hold with leaves of unions in the tree: this one can be written. -/
example : ∃ j ns', ietfDump {} uKids [.leaf (.int 300) true, .leaf (.str py!"a") true] = .ok j ∧
    ietfLoad demoLoad uKids (freshKids uKids) j = (ns', none) ∧ SameKids uKids [.leaf (.int 300) true, .leaf (.str py!"a") true] ns' := by
  refine C38_ietf_roundtrip_partial noRx demoLoad rfl demoUuid_fresh uKids ?_ ⟨by decide, by decide⟩ _ ⟨?_, ?_, ?_⟩
  · intro k hk
    simp only [uKids, List.mem_cons, List.not_mem_nil, or_false] at hk
    rcases hk with rfl | rfl <;> simp [Choices, inM]
  · exact fun _ => .inr ⟨_, _, _, _, rfl, uMany_long, fun _ => uMany_text⟩
  · refine fun _ => .inr ⟨_, _, [tU64], tStr, rfl, ⟨.inl rfl, ⟨_, rfl⟩, .str _ _ _ (.inl (.inl rfl)), by simp [tStr], rfl, ?_⟩, fun h => ?_⟩
    · intro s hs
      simp only [List.mem_singleton] at hs
      subst hs
      exact refuses_of (by decide)
    · exact absurd h id
  · trivial

/-! ## Values that do not come back, or are written differently -/

/-- `union { type uint8; type boolean; }`, set to the text `true`: the value is `True`.
It is written as `true`, but that is read as the number 1. -/
theorem C81_boolean_refuted : ∃ u : UTy, (u.cls noRx).set (.str py!"true") = .ok (.bool true) ∧
    serLeaf true py!"m" (u.cls noRx) (.bool true) = .ok (.bool true) ∧ (u.cls noRx).set (.bool true) = .ok (.int 1) :=
  ⟨⟨py!"union", [.int py!"uint8" .uint8 [], tBool]⟩, rfl, rfl, rfl⟩

/-- The same for whole documents: what is loaded from what was written differs. -/
theorem C81_document_refuted : ∃ kids ops j ns', ietfDump {} kids (history kids (freshKids kids) ops) = .ok j ∧
    ietfLoad demoLoad kids (freshKids kids) j = (ns', none) ∧
    history kids (freshKids kids) ops = [.leaf (.bool true) true] ∧ ns' = [.leaf (.int 1) true] :=
  ⟨[(inM py!"x", .leaf (UTy.cls noRx ⟨py!"union", [.int py!"uint8" .uint8 [], tBool]⟩))], [([.field 0], .set (.str py!"true") false)],
    _, _, rfl, rfl, rfl, rfl⟩

/-- `union { type string { length "1..10"; } type uint64; }`, set to the number 5: the
length of a number is not known, so the value is a number.  It is written as the string
"5", which the first member takes. -/
theorem C81_long_refuted : ∃ u : UTy, (u.cls noRx).set (.int 5) = .ok (.int 5) ∧
    serLeaf true py!"m" (u.cls noRx) (.int 5) = .ok (.str py!"5") ∧ (u.cls noRx).set (.str py!"5") = .ok (.str py!"5") :=
  ⟨⟨py!"union", [.str py!"string" (genRTy (.base .str) [] (some py!"1..10") none), tU64]⟩, rfl, rfl, rfl⟩

/-- `union { type identityref; }`, an identity of module `n` in a leaf of module `m`: it
is written without the name of the module, which RFC 7951 does not allow. -/
theorem C81_identity_refuted : ∃ u : UTy, MemberValue noRx u [] tIdent (.str py!"red") ∧
    serLeaf true py!"m" (u.cls noRx) (.str py!"red") = .ok (.str py!"red") ∧ ¬ Rfc7951 py!"m" tIdent (.str py!"red") (.str py!"red") := by
  refine ⟨⟨py!"union", [tIdent]⟩, ⟨.inl rfl, ⟨_, rfl⟩, .ident _ _ _ (.inl rfl) (by decide) (by decide) (by decide), by simp [tIdent], rfl, by simp⟩, rfl, ?_⟩
  intro h
  generalize hj : J.str py!"red" = j at h
  generalize hv : PyVal.str py!"red" = v at h
  generalize ht : tIdent = t at h
  cases h with
  | ident name ids s m hl =>
    simp only [J.str.injEq, PyVal.str.injEq] at hj hv
    subst hv
    have := congrArg List.length hj
    simp at this
  | identHere name ids s hl =>
    simp only [tIdent, YTy.ident.injEq, PyVal.str.injEq] at ht hv
    obtain ⟨_, rfl⟩ := ht
    subst hv
    exact absurd hl (by decide)
  | _ => simp [tIdent] at ht

/-- `union { type empty; }`: written as `true`, where RFC 7951 has `[null]`. -/
theorem C81_empty_refuted : ∃ u : UTy, MemberValue noRx u [] tEmpty (.bool true) ∧
    serLeaf true py!"m" (u.cls noRx) (.bool true) = .ok (.bool true) ∧ ¬ Rfc7951 py!"m" tEmpty (.bool true) (.bool true) := by
  refine ⟨⟨py!"union", [tEmpty]⟩, ⟨.inl rfl, ⟨_, rfl⟩, .empty _ (.inl rfl), by simp [tEmpty], rfl, by simp⟩, rfl, ?_⟩
  intro h
  cases h

/-- `union { type uint64 { range "0..max"; } }`: written as a number, where RFC 7951 has a
string. -/
theorem C81_range_refuted : ∃ u : UTy, (u.cls noRx).set (.int 5) = .ok (.int 5) ∧
    serLeaf true py!"m" (u.cls noRx) (.int 5) = .ok (.num 5) ∧
    ¬ ∃ t ∈ u.members, Rfc7951 py!"m" t (.int 5) (.num 5) := by
  refine ⟨⟨py!"union", [tCounter]⟩, rfl, rfl, ?_⟩
  rintro ⟨t, ht, h⟩
  simp only [List.mem_singleton] at ht
  subst ht
  exact rfc7951_num (by decide) h

end Pyb
