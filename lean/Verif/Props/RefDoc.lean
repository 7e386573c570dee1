import Verif.Lemmas.RefDoc
import Verif.Props.Json
import Verif.Props.ExtDoc

/-! # C94 -/

namespace Pyb
open Py Spec

/-- What C54 looks at of an object. -/
def Target.info (o : Target) : RefObj :=
  ⟨o.isKey, match o.val with
    | .leafList _ _ vs => .leafList (vs.map PyVal.toStr)
    | _ => .leaf, o.val.text⟩

/-- The assignments that are taken are those of C54. -/
theorem refHold_refInit {h : Helper} {path : Str} {caller : Option (List Str)} {xs : List XObj} (tgt : XObj → Target)
    (hx : h.getStr path caller = .ok xs) (setT : PyVal → Except Err Unit) (req : Bool) (w : PyVal) :
    (refInit (some h) (fun x => (tgt x).info) (fun _ => setT w) req path caller w.toStr).toBool
      = (refHold setT req (some (xs.map tgt)) w).toBool := by
  have hlist : ∀ o : Target, o.info.isList = o.val.isList := by
    intro o
    obtain ⟨k, v⟩ := o
    cases v <;> rfl
  have hfound : ∀ os : List Target, refFound (os.map Target.info) w.toStr = (refPick os w.toStr).isSome := by
    intro os
    have hmany : ∀ os : List Target, (os.map Target.info).any (·.text = w.toStr)
        = (((os.map Target.val).reverse).find? fun x => x.text = w.toStr).isSome := by
      intro os
      rw [Bool.eq_iff_iff, List.any_eq_true, List.find?_isSome]
      constructor
      · rintro ⟨i, hi, hi2⟩
        obtain ⟨o, ho, rfl⟩ := List.mem_map.1 hi
        exact ⟨o.val, List.mem_reverse.2 (List.mem_map.2 ⟨o, ho, rfl⟩), hi2⟩
      · rintro ⟨y, hy, hy2⟩
        obtain ⟨o, ho, rfl⟩ := List.mem_map.1 (List.mem_reverse.1 hy)
        exact ⟨o.info, List.mem_map.2 ⟨o, ho, rfl⟩, hy2⟩
    cases os with
    | nil => rfl
    | cons o os =>
      cases os with
      | cons o' os => exact (by simpa [refFound, refPick] using hmany (o :: o' :: os))
      | nil =>
        obtain ⟨k, v⟩ := o
        cases v with
        | leafList mod L vs =>
          simp only [List.map_cons, List.map_nil, Target.info, refFound, refPick, Option.isSome_map]
          rw [Bool.eq_iff_iff, List.any_eq_true, List.find?_isSome]
          constructor
          · rintro ⟨i, hi, hi2⟩
            obtain ⟨v, hv, rfl⟩ := List.mem_map.1 hi
            exact ⟨v, hv, hi2⟩
          · rintro ⟨v, hv, hv2⟩
            exact ⟨v.toStr, List.mem_map.2 ⟨v, hv, rfl⟩, hv2⟩
        | given v => have := hmany [⟨k, .given v⟩]; simpa [refFound, refPick, Target.info] using this
        | leaf m L v => have := hmany [⟨k, .leaf m L v⟩]; simpa [refFound, refPick, Target.info] using this
        | elem m L v => have := hmany [⟨k, .elem m L v⟩]; simpa [refFound, refPick, Target.info] using this
        | ref x => have := hmany [⟨k, .ref x⟩]; simpa [refFound, refPick, Target.info] using this
  have hmap : xs.map (fun x => (tgt x).info) = (xs.map tgt).map Target.info := by simp
  have std : ∀ os : List Target,
      (if req && !refFound (os.map Target.info) w.toStr then (.error .valueError : Except Err (RefState × Option Str)) else .ok (.value w.toStr, none)).toBool
      = (if req then
          match refPick os w.toStr with
          | some x => .ok (.value x)
          | none => .error .valueError
        else .ok (.value (.given w)) : Except Err RefHeld).toBool := by
    intro os
    rw [hfound]
    cases req <;> cases refPick os w.toStr <;> rfl
  simp only [refInit, hx, hmap, refHold]
  generalize xs.map tgt = os
  cases os with
  | nil => exact std []
  | cons o os =>
    cases os with
    | cons o' os => exact std (o :: o' :: os)
    | nil =>
      simp only [List.map_cons, List.map_nil]
      rw [hlist]
      have hk : o.info.isKey = o.isKey := rfl
      rw [hk]
      by_cases hb : isPointer [o] = true
      · have hb' : (!o.isKey && !o.val.isList) = true := hb
        rw [if_pos hb, if_pos hb']
        cases setT w <;> rfl
      · have hb' : ¬ (!o.isKey && !o.val.isList) = true := hb
        rw [if_neg hb, if_neg hb']
        exact std [o]

/-- C94, in part: JSON.  A leafref that requires an instance, of a binding with a path
helper, is written in IETF JSON as RFC 7951 says for the leaf it refers to: a value of the
leaf's type with the text that was assigned.  The leaves may themselves be leafrefs.
(`EncodedWell`: the values that are written well for leaves, C46; `mod` is the module of the
leaf referred to.) -/
theorem C94_encoding_partial (rx : Str → Str → Bool) (mod : Str) (t : YTy) (objs : List Target) (h : LeavesOf rx mod t objs)
    (hw : ∀ o ∈ objs, ∀ v, Leads rx mod t v o.val → EncodedWell t v) (setT : PyVal → Except Err Unit) (w : PyVal) (x : RefVal)
    (hx : refHold setT true (some objs) w = .ok (.value x)) :
    ∃ o ∈ objs, ∃ v j, Leads rx mod t v o.val ∧ v.toStr = w.toStr ∧ refSer true x = .ok j ∧ Rfc7951 mod t v j := by
  obtain ⟨o, ho, rfl, hs⟩ := refPick_some h (refHold_value hx).2
  obtain ⟨v, hv, hst⟩ := h o ho
  obtain ⟨j, _, h1, h2, _⟩ := C46_encoding_partial rx (fun _ => []) mod t none v hst (hw o ho v hv)
  exact ⟨o, ho, v, j, hv, by rw [← leads_text hv]; exact hs, by rw [leads_ser hv]; exact h1, h2⟩

/-- C94, in part: a pointer (the path leads to one leaf that is no list key) is written like
the leaf the path leads to, with the value the leaf has when the document is written. -/
theorem C94_pointer_partial (rx : Str → Str → Bool) (mod : Str) (t : YTy) (o now : Target) (v w : PyVal) (ho : o.isKey = false ∧ o.val.isList = false)
    (hn : Leads rx mod t v now.val) (hst : Stored rx t v) (hw : EncodedWell t v) (setT : PyVal → Except Err Unit) (hset : setT w = .ok ()) (req : Bool) :
    ∃ j, refHold setT req (some [o]) w = .ok .pointer ∧ refGet [now] .pointer = .ok now.val ∧ refSer true now.val = .ok j ∧ Rfc7951 mod t v j := by
  obtain ⟨j, _, h1, h2, _⟩ := C46_encoding_partial rx (fun _ => []) mod t none v hst hw
  refine ⟨j, ?_, rfl, by rw [leads_ser hn]; exact h1, h2⟩
  simp [refHold, isPointer, ho.1, ho.2, hset, Except.map]

/-- C94, in part: what is written, in IETF or native JSON, is taken when it is read with the
same leaves at the path, and refers to the same leaf again.  For integers, strings,
enumerations, booleans, bits and, in IETF JSON, decimals. -/
theorem C94_roundtrip_partial (rx : Str → Str → Bool) (ietf : Bool) (repr : J → Str) (mod : Str) (t : YTy) (ht : SameText ietf t)
    (objs : List Target) (h : LeavesOf rx mod t objs) (setT : PyVal → Except Err Unit) (w : PyVal) (x : RefVal) (j : J)
    (hx : refHold setT true (some objs) w = .ok (.value x)) (hj : refSer ietf x = .ok j) :
    refHold setT true (some objs) (jPy repr j) = .ok (.value x) := by
  obtain ⟨o, ho, rfl, hs⟩ := refPick_some h (refHold_value hx).2
  obtain ⟨v, hv, hst⟩ := h o ho
  refine refHold_text hx ?_
  rw [leads_ser hv] at hj
  rw [json_text hst.1 ht hj, ← leads_text hv]
  exact hs

/-- C94, in part: the same for XML: integers, strings, enumerations, bits and decimals whose
text is not empty. -/
theorem C94_xml_partial (rx : Str → Str → Bool) (m : Meta) (mod : Str) (t : YTy) (ht : SameXmlText t)
    (objs : List Target) (h : LeavesOf rx mod t objs) (hc : ∀ o ∈ objs, ∀ v, Leads rx mod t v o.val → InXml t v) (setT : PyVal → Except Err Unit) (w : PyVal) (x : RefVal)
    (hne : w.toStr ≠ []) (hx : refHold setT true (some objs) w = .ok (.value x)) :
    refXml m x = .ok (.elem m.ns m.name [] (some w.toStr) [])
    ∧ refHold setT true (some objs) (.str w.toStr) = .ok (.value x) := by
  obtain ⟨o, ho, rfl, hs⟩ := refPick_some h (refHold_value hx).2
  obtain ⟨v, hv, hst⟩ := h o ho
  have htext : v.toStr = w.toStr := by rw [← leads_text hv]; exact hs
  refine ⟨?_, refHold_text hx rfl⟩
  obtain ⟨j, h1, h2⟩ := xleafText_value (rx := rx) (mod := mod) (d := none) hst.1 (hc o ho v hv)
  rw [refXml, leads_xml hv, h1]
  have h3 : xleafText mod t v = some w.toStr := by
    rw [← htext] at hne ⊢
    cases hst.1 with
    | int name t chain lo hi n ha hb hl hn => rfl
    | str name T s ha =>
      simp only [xleafText, someText]
      exact if_neg hne
    | ident name ids s ha hs' hc hm => exact ht.elim
    | bool name b ha => exact ht.elim
    | empty name ha => exact ht.elim
    | ext name y o ha hx =>
      cases hx with
      | dec => simp only [xleafText, someText, xmlTextOf]; exact if_neg hne
      | bin => exact ht.elim
      | bits => simp only [xleafText, someText, xmlTextOf]; exact if_neg hne
  show (scalarText j).bind _ = _
  rw [h2, h3]
  rfl


/-! ## Cases -/

/-- Key leaves `1`, `2` and a leafref with `2`, of type `uint8`, in module `n`. -/
def demoTargets : List Target :=
  [⟨true, .leaf py!"n" (tU8.cls noRx) (.int 1)⟩, ⟨true, .leaf py!"n" (tU8.cls noRx) (.int 2)⟩,
   ⟨false, .ref (.leaf py!"n" (tU8.cls noRx) (.int 2))⟩]

/-- No leaf takes a value. -/
def noSet (_ : PyVal) : Except Err Unit := .error .valueError

theorem demo_leaves : LeavesOf noRx py!"n" tU8 demoTargets := by
  have hst : ∀ n : Int, n = 1 ∨ n = 2 → Stored noRx tU8 (.int n) := by
    intro n hn
    refine ⟨.int _ .uint8 [] 0 255 n (.inl rfl) rfl (by simp [LegalChain, InType, RangePart.bounds]) ?_, fun _ => ?_⟩
    · rcases hn with rfl | rfl <;> simp [InType]
    · rcases hn with rfl | rfl <;> rfl
  intro o ho
  simp only [demoTargets, List.mem_cons, List.not_mem_nil, or_false] at ho
  rcases ho with rfl | rfl | rfl
  · exact ⟨_, .leaf none, hst 1 (.inl rfl)⟩
  · exact ⟨_, .leaf none, hst 2 (.inr rfl)⟩
  · exact ⟨_, .ref _ (.leaf none), hst 2 (.inr rfl)⟩

example : refHold noSet true (some demoTargets) (.str py!"2") = .ok (.value (.ref (.leaf py!"n" (tU8.cls noRx) (.int 2)))) := rfl


/-- The leafref `2` is written as the number `2`, as RFC 7951 says for `uint8`. -/
example : ∃ o ∈ demoTargets, ∃ v j, Leads noRx py!"n" tU8 v o.val ∧ v.toStr = py!"2" ∧
    refSer true (.ref (.leaf py!"n" (tU8.cls noRx) (.int 2))) = .ok j ∧ Rfc7951 py!"n" tU8 v j :=
  C94_encoding_partial noRx py!"n" tU8 demoTargets demo_leaves (by intro o _ v _ h; simp at h) noSet (.str py!"2") _ rfl

/-- The number `2` refers to the same leaf when it is read. -/
example : refHold noSet true (some demoTargets) (jPy (fun _ => []) (.num 2)) = .ok (.value (.ref (.leaf py!"n" (tU8.cls noRx) (.int 2)))) :=
  C94_roundtrip_partial noRx true (fun _ => []) py!"n" tU8 trivial demoTargets demo_leaves noSet (.str py!"2") _ _ rfl rfl

example : refXml (inM py!"r") (.ref (.leaf py!"n" (tU8.cls noRx) (.int 2))) = .ok (.elem py!"urn:m" py!"r" [] (some py!"2") []) :=
  (C94_xml_partial noRx (inM py!"r") py!"n" tU8 trivial demoTargets demo_leaves (by
    intro o ho v hv
    obtain ⟨v', hv', hst⟩ := demo_leaves o ho
    refine ⟨?_, by simp [tU8], ?_⟩
    all_goals
      intro s e
      subst e
      simp only [demoTargets, List.mem_cons, List.not_mem_nil, or_false] at ho
      rcases ho with rfl | rfl | rfl
      · cases hv
      · cases hv
      · cases hv with
        | ref _ h => cases h) noSet (.str py!"2") _ (by decide) rfl).1

example : refHold (fun _ => .ok ()) true (some [⟨false, .leaf py!"n" (tIdent.cls noRx) (.str py!"blue")⟩]) (.str py!"red") = .ok .pointer ∧
    ∃ j, refSer true (.leaf py!"m" (tIdent.cls noRx) (.str py!"red")) = .ok j ∧ Rfc7951 py!"m" tIdent (.str py!"red") j := by
  obtain ⟨j, h1, _, h2, h3⟩ := C94_pointer_partial noRx py!"m" tIdent ⟨false, .leaf py!"n" (tIdent.cls noRx) (.str py!"blue")⟩
    ⟨false, .leaf py!"m" (tIdent.cls noRx) (.str py!"red")⟩ (.str py!"red") (.str py!"red") ⟨rfl, rfl⟩ (.leaf none)
    ⟨.ident _ _ _ (.inl rfl) (by decide) (by decide) (by decide), fun _ => rfl⟩ ⟨rfl, by decide⟩ (fun _ => .ok ()) rfl true
  exact ⟨h1, j, h2, h3⟩

/-- The written value of a leafref to a leaf of type `t` and value `v` in module `mod`, in a
leaf of module `own`, is not that of RFC 7951. -/
def WrittenWrong (own : Str) (t : YTy) (v : PyVal) (r : Except Err J) : Prop := ∀ j, r = .ok j → ¬ Rfc7951 own t v j

/-- C94 fails without `--use-xpathhelper`: the leaf is a string, whatever it refers to.  Any
leaf of type `uint8` with the value `n`: the text is written, not the number. -/
theorem C94_plain_refuted (own mod : Str) (n : Int) :
    (plainRefTy.cls noRx).set (.int n) = .ok (.str (intStr n)) ∧
    WrittenWrong own tU8 (.int n) (serLeaf true mod (plainRefTy.cls noRx) (.str (intStr n))) := by
  refine ⟨rfl, ?_⟩
  intro j hj h
  have : serLeaf true mod (plainRefTy.cls noRx) (.str (intStr n)) = .ok (.str (intStr n)) := rfl
  rw [this] at hj
  cases hj
  generalize hJ : J.str (intStr n) = J at h
  cases h with
  | small => cases hJ
  | large _ _ _ _ ht => simp at ht

/-- C94 fails with no path helper, and for leafrefs that do not require an instance: what was
assigned is written by what it is.  `"5"` for a `uint8` is written as a string, a `uint64` as
a number, `True` as `1`; the identity has no prefix. -/
theorem C94_given_refuted (objs : List Target) (h : isPointer objs = false) (setT : PyVal → Except Err Unit) (v : PyVal) :
    (refHold setT true none v = .ok (.value (.given v)) ∧ refHold setT false (some objs) v = .ok (.value (.given v))) ∧
    refSer true (.given (.str py!"5")) = .ok (.str py!"5") ∧ refSer true (.given (.int 5)) = .ok (.num 5) ∧
    refSer true (.given (.bool true)) = .ok (.num 1) ∧ refSer true (.given (.str py!"red")) = .ok (.str py!"red") :=
  ⟨⟨rfl, by simp [refHold, h]⟩, rfl, rfl, rfl, rfl⟩

example : ¬ Rfc7951 py!"m" tU8 (.int 5) (.str py!"5") ∧ ¬ Rfc7951 py!"m" tU64 (.int 5) (.num 5) ∧
    ¬ Rfc7951 py!"m" tBool (.bool true) (.num 1) := by
  refine ⟨?_, ?_, ?_⟩ <;> intro h
  · generalize hJ : J.str py!"5" = J at h
    cases h with
    | small => cases hJ
    | large _ _ _ _ ht => simp at ht
  · cases h with
    | small _ _ _ _ ht => simp at ht
  · cases h

/-- C94 fails for a leafref in another module than the leaf: the prefix of an identity is
chosen for the module of the leaf, here `n`; in a leaf of `m` the identity `red` without
prefix is one of `m` (there is none). -/
theorem C94_identity_refuted :
    refSer true (.leaf py!"n" (tIdent.cls noRx) (.str py!"red")) = .ok (.str py!"red") ∧
    WrittenWrong py!"m" tIdent (.str py!"red") (refSer true (.leaf py!"n" (tIdent.cls noRx) (.str py!"red"))) := by
  refine ⟨rfl, ?_⟩
  intro j hj h
  have : refSer true (.leaf py!"n" (tIdent.cls noRx) (.str py!"red")) = .ok (.str py!"red") := rfl
  rw [this] at hj
  cases hj
  generalize hJ : J.str py!"red" = J at h
  cases h with
  | ident _ _ _ m hm =>
    simp only [J.str.injEq] at hJ
    have := congrArg List.length hJ
    simp at this
  | identHere _ _ _ hm => simp [List.lookup] at hm

/-- The document that is written for the leafref is refused when it is read, with the same
leaves at the path. -/
def ReloadFails (ietf : Bool) (objs : List Target) (w : PyVal) (x : RefVal) (j : J) (e : Err) : Prop :=
  refHold noSet true (some objs) w = .ok (.value x) ∧ refSer ietf x = .ok j ∧
    ∀ repr, refHold noSet true (some objs) (jPy repr j) = .error e

/-- C94 fails on reading: the prefixed identity, the base64 text of octets are looked for as
they are; no leaf has this text. -/
theorem C94_reload_refuted :
    ReloadFails true [⟨true, .leaf py!"m" (tIdent.cls noRx) (.str py!"red")⟩] (.str py!"red")
      (.leaf py!"m" (tIdent.cls noRx) (.str py!"red")) (.str py!"n:red") .valueError ∧
    ReloadFails true [⟨true, .leaf py!"m" (tBin.cls noRx) (.obj (.bytes [104, 105]))⟩] (.str py!"hi")
      (.leaf py!"m" (tBin.cls noRx) (.obj (.bytes [104, 105]))) (.str py!"aGk=") .valueError :=
  ⟨⟨rfl, rfl, fun _ => rfl⟩, ⟨rfl, rfl, fun _ => rfl⟩⟩

/-- C94 fails for booleans in XML: `true` is written, and the leaf has the text `True`. -/
theorem C94_xml_reload_refuted :
    refHold noSet true (some [⟨true, .leaf py!"m" (tBool.cls noRx) (.bool true)⟩]) (.bool true) = .ok (.value (.leaf py!"m" (tBool.cls noRx) (.bool true))) ∧
    refXml (inM py!"r") (.leaf py!"m" (tBool.cls noRx) (.bool true)) = .ok (.elem py!"urn:m" py!"r" [] (some py!"true") []) ∧
    refHold noSet true (some [⟨true, .leaf py!"m" (tBool.cls noRx) (.bool true)⟩]) (.str py!"true") = .error .valueError :=
  ⟨rfl, rfl, rfl⟩

/-- C94 fails when the leaf is read before the leaf it refers to: any value is refused. -/
theorem C94_order_refuted (setT : PyVal → Except Err Unit) (v : PyVal) : refHold setT true (some []) v = .error .valueError := rfl

/-- C94 fails for a pointer whose leaf is gone, or no longer the only one: the document
cannot be written. -/
theorem C94_dangling_refuted (now : List Target) (h : now.length ≠ 1) : refGet now .pointer = .error .valueError := by
  match now, h with
  | [], _ => rfl
  | [_], h => exact absurd rfl h
  | _ :: _ :: _, _ => rfl

/-- C94 fails for a leafref that does not follow the leaf: what it holds stays, whatever
becomes of the leaves at the path (see C54). -/
theorem C94_stale_refuted (now : List Target) (x : RefVal) : refGet now (.value x) = .ok x := rfl

end Pyb
