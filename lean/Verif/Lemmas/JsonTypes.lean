import Verif.Spec.JsonTypes
import Verif.Lemmas.IetfList
import Verif.Lemmas.ExtTypes
import Verif.Props.Restricted
import Verif.Props.Scalar

/-! # The leaves of the types considered, written and read back -/

namespace Pyb
open Py Spec

/-- The names the code looks for are not names of typedefs. -/
theorem typedef_names {name : Str} (h : name ∉ yangBuiltins) :
    name ≠ py!"leafref" ∧ name ∉ [py!"int64", py!"uint64"] ∧ name ≠ py!"identityref" ∧
    name ∉ [py!"int8", py!"int16", py!"int32", py!"uint8", py!"uint16", py!"uint32"] ∧
    name ∉ [py!"string", py!"enumeration"] ∧ name ≠ py!"empty" ∧
    name ≠ py!"binary" ∧ name ≠ py!"decimal64" := by
  simp only [yangBuiltins, List.mem_cons, List.not_mem_nil, or_false, not_or] at h ⊢
  simp [h]

/-- A typedef's leaf is written according to the class of its value. -/
theorem serVal_typedef {ietf : Bool} {mod name : Str} {A : SerCls} {v : PyVal} (h : name ∉ yangBuiltins) :
    serVal ietf mod name A v = serMapped ietf name A v := by
  obtain ⟨h1, h2, h3, h4, h5, h6, h7, h8⟩ := typedef_names h
  simp only [serVal, if_neg h1, if_neg h2, h3, false_and, if_false, if_neg h4, if_neg h5, if_neg h6, if_neg h7, if_neg h8]

theorem ietfVal_other {yt : Str} {j : J} (h : yt ≠ py!"empty") (h' : yt ≠ py!"identityref") : ietfVal yt j = .ok j := by
  simp [ietfVal, h, h']

theorem ietfVal_typedef {name : Str} {j : J} (h : name ∉ yangBuiltins) : ietfVal name j = .ok j := by
  obtain ⟨_, _, h3, _, _, h6, _⟩ := typedef_names h
  exact ietfVal_other h6 h3

/-- Is a 64-bit integer written as a string? -/
def asText (name : Str) (t : IntTy) (rs : List Str) : Bool := t.bits = 64 ∧ (name = t.name ∨ rs = [])

/-- What is written for a leaf. -/
def leafJ (mod : Str) : YTy → PyVal → J
  | .int name t rs, .int n => if asText name t rs then .str (intStr n) else .num n
  | .ident name ids, v => if name = py!"identityref" then serIdentity mod ids v else .str v.toStr
  | .bool _, v => .bool v.truthy
  | .empty name, v => if name = py!"empty" then serEmpty true v else .bool v.truthy
  | .ext _ _, .obj o => extJ true o
  | _, v => .str v.toStr

theorem serMapped_int {ietf : Bool} {yt nm : Str} {n : Int} {t : IntTy} {rs : List Str} {A : SerCls}
    (hA : A = (YTy.int nm t rs).ser ∨ A = (YTy.int nm t rs).ser.bare) :
    serMapped ietf yt A (.int n) = .ok (if rs = [] ∧ t.bits = 64 ∧ ietf = true then .str (intStr n) else .num n) := by
  have hp : A.pyc = some py!"int" := by rcases hA with rfl | rfl <;> rfl
  have hi : A.intSize = if rs = [] then some t.bits else none := by rcases hA with rfl | rfl <;> rfl
  simp only [serMapped, hp, hi]
  rw [if_neg (by decide), if_pos (by decide)]
  by_cases hr : rs = []
  · simp only [hr, if_true, true_and, Option.some.injEq]
    by_cases hb : t.bits = 64
    · cases ietf <;> simp [hb, serLong, serInt, PyVal.toStr, PyVal.toInt, Except.map]
    · simp [hb, serInt, PyVal.toInt, Except.map]
  · simp [hr, serInt, PyVal.toInt, Except.map]

theorem serLeaf_value {rx : Str → Str → Bool} {mod : Str} {t : YTy} {v : PyVal} {d : Option PyVal} (h : Value t v) :
    serLeaf true mod (t.cls rx d) v = .ok (leafJ mod t v) := by
  simp only [serLeaf, YTy.cls]
  cases h with
  | int name t chain lo hi n ha hb hl hn =>
    simp only [YTy.name, leafJ]
    rcases ha with rfl | ha
    · cases t <;> simp [serVal, IntTy.name, asText, IntTy.bits, serLong, serInt, PyVal.toStr, PyVal.toInt, Except.map]
    · rw [serVal_typedef ha, serMapped_int (.inl rfl)]
      have hne : name ≠ t.name := by
        intro e; subst e; apply ha; cases t <;> decide
      by_cases hr : chain.map rangeText = []
      · simp [asText, hr]
      · simp [asText, hr, hne]
  | str name T s ha =>
    simp only [YTy.name, leafJ]
    have h' : name ∈ [py!"string", py!"enumeration"] ∨ name ∉ yangBuiltins := by
      rcases ha with (rfl | ha) | (rfl | ha)
      · exact .inl (by decide)
      · exact .inr ha
      · exact .inl (by decide)
      · exact .inr ha
    rcases h' with h' | h'
    · simp only [List.mem_cons, List.not_mem_nil, or_false] at h'
      rcases h' with rfl | rfl <;> simp [serVal]
    · rw [serVal_typedef h']
      cases T <;> simp [serMapped, YTy.ser, SerCls.pyc, serNative, PyVal.toStr]
  | ident name ids s ha hs hc hm =>
    simp only [YTy.name, leafJ]
    rcases ha with rfl | ha
    · simp [serVal, YTy.ser]
    · rw [serVal_typedef ha, if_neg (typedef_names ha).2.2.1]
      simp [serMapped, YTy.ser, SerCls.pyc, serNative, PyVal.toStr]
  | bool name b ha =>
    simp only [YTy.name, leafJ]
    rcases ha with rfl | ha
    · simp [serVal, serMapped, YTy.ser, SerCls.pyc]
    · rw [serVal_typedef ha]
      simp [serMapped, YTy.ser, SerCls.pyc, (typedef_names ha).2.2.2.2.2.1]
  | empty name ha =>
    simp only [YTy.name, leafJ]
    rcases ha with rfl | ha
    · simp [serVal]
    · rw [serVal_typedef ha]
      simp [serMapped, YTy.ser, SerCls.pyc, (typedef_names ha).2.2.2.2.2.1]
  | ext name x o ha hx => exact serVal_ext hx ha fun h => serVal_typedef h

/-! ## Reading -/

theorem builtinPart_bounds {t : IntTy} {lo hi : Int} (hb : builtinBounds t.name = some (lo, hi)) :
    (⟨.span (some lo) (some hi), 0, 0, 0, 0⟩ : WrittenPart) = builtinPart t := by
  cases t <;> simp [builtinBounds, IntTy.name] at hb <;> obtain ⟨rfl, rfl⟩ := hb <;> rfl

theorem int_tower {t : IntTy} {lo hi : Int} (hb : builtinBounds t.name = some (lo, hi)) (chain : List (List WrittenPart)) :
    (chain.map rangeText).foldr (fun a T => genRTy T [] none (some a)) t.rty =
      towerOf (chain ++ [[⟨.span (some lo) (some hi), 0, 0, 0, 0⟩]]) := by
  rw [builtinPart_bounds hb]
  induction chain with
  | nil => exact builtin_tower t
  | cons ws chain ih => rw [List.map_cons, List.foldr_cons, ih, genRTy_range]; rfl

theorem inType_append {chain : List (List WrittenPart)} {lo hi n : Int} (h : InType chain n ∧ lo ≤ n ∧ n ≤ hi) :
    InType (chain ++ [[⟨.span (some lo) (some hi), 0, 0, 0, 0⟩]]) n := by
  intro ws hws
  simp only [List.mem_append, List.mem_singleton] at hws
  rcases hws with hws | rfl
  · exact h.1 ws hws
  · exact ⟨_, List.mem_singleton.2 rfl, by simpa [RangePart.Contains] using h.2⟩

/-- An integer leaf stores an integer in its ranges, also if it is given as text. -/
theorem int_set {rx : Str → Str → Bool} {name : Str} {t : IntTy} {chain : List (List WrittenPart)} {lo hi n : Int} {d : Option PyVal}
    (hb : builtinBounds t.name = some (lo, hi)) (hl : LegalChain (chain ++ [[⟨.span (some lo) (some hi), 0, 0, 0, 0⟩]]))
    (hn : InType chain n ∧ lo ≤ n ∧ n ≤ hi) {v : PyVal} (hv : Denotes v n) :
    ((YTy.int name t (chain.map rangeText)).cls rx d).set v = .ok (.int n) := by
  have h := build_setLeaf rx (towerOf (chain ++ [[⟨.span (some lo) (some hi), 0, 0, 0, 0⟩]])) v
  rw [setLeaf_tower_ok rx _ hl v n hv.isNum (inType_append hn), toExcept_ok_iff, ← int_tower hb] at h
  exact h

theorem int_conv {rx : Str → Str → Bool} {name : Str} {t : IntTy} {chain : List (List WrittenPart)} {lo hi n : Int} {u : Bool}
    {tx : List PyVal → Str} (hb : builtinBounds t.name = some (lo, hi))
    (hl : LegalChain (chain ++ [[⟨.span (some lo) (some hi), 0, 0, 0, 0⟩]]))
    (hn : InType chain n ∧ lo ≤ n ∧ n ≤ hi) {v : PyVal} (hv : Denotes v n) :
    ((YTy.int name t (chain.map rangeText)).llCls rx u tx).conv v = some (.int n) := by
  have h := (towerFacts rx _ hl).callOk v n hv.isNum (inType_append hn)
  simp only [YTy.llCls, YTy.ty, elemConv, List.findSome?, int_tower hb]
  have e : elemCheck rx (.restr (towerOf (chain ++ [[⟨.span (some lo) (some hi), 0, 0, 0, 0⟩]]))) v = some (.int n) := by
    have : ∃ inner rs, towerOf (chain ++ [[⟨.span (some lo) (some hi), 0, 0, 0, 0⟩]]) = .restr inner rs := by
      cases chain <;> exact ⟨_, _, rfl⟩
    obtain ⟨inner, rs, e⟩ := this
    rw [e] at h ⊢
    simp only [elemCheck, LeafTy.call, h, Except.toOption]
  rw [e]

theorem cls_set {rx : Str → Str → Bool} {t : YTy} {d d' : Option PyVal} : (t.cls rx d).set = (t.cls rx d').set := rfl

theorem dropWhile_colon {m s : Str} (hm : ':' ∉ m) : ((m ++ ':' :: s).dropWhile (· ≠ ':')).tail = s := by
  induction m with
  | nil => simp
  | cons c m ih =>
    simp only [List.mem_cons, not_or] at hm
    rw [List.cons_append, List.dropWhile_cons_of_pos (by simpa using fun e => hm.1 e.symm)]
    exact ih hm.2

/-- The name of an identity is read back without its prefix. -/
theorem ietfVal_ident {mod : Str} {ids : List (Str × Str)} {s : Str} (hc : ':' ∉ s) (hm : ∀ q ∈ ids, ':' ∉ q.2) :
    ietfVal py!"identityref" (serIdentity mod ids (.str s)) = .ok (.str s) := by
  have h0 : ietfVal py!"identityref" (.str s) = .ok (.str s) := by simp [ietfVal, hc]
  simp only [serIdentity, PyVal.toStr]
  cases hl : ids.lookup s with
  | none => exact h0
  | some m =>
    by_cases h1 : m ≠ mod
    · by_cases h2 : startsWith s m = true
      · simp [h1, h2, h0]
      · have hmm : ':' ∉ m := by
          have : (s, m) ∈ ids := by
            clear h0 h1 h2 hm
            induction ids with
            | nil => simp at hl
            | cons q ids ih =>
              rw [List.lookup_cons] at hl
              split at hl
              · rename_i h; simp only [beq_iff_eq] at h; simp at hl; subst h; subst hl; simp
              · exact List.mem_cons_of_mem _ (ih hl)
          exact hm _ this
        simp only [if_pos h1, h2, Bool.not_false, if_true]
        simp only [ietfVal]
        rw [if_neg (by decide), if_true, if_pos (by simp)]
        have : m ++ py!":" ++ s = m ++ ':' :: s := by simp
        rw [this, dropWhile_colon hmm]
    · simp only [if_neg h1, h0]

theorem leafBack_value {rx : Str → Str → Bool} {repr : J → Str} {mod : Str} {t : YTy} {v : PyVal} {d : Option PyVal}
    (h : Stored rx t v) : LeafBack repr mod (t.cls rx d) v := by
  obtain ⟨hv, hs⟩ := h
  have hser := serLeaf_value (rx := rx) (mod := mod) (d := d) hv
  have hs' : (∀ n x, t ≠ .ext n x) → (t.cls rx d).set v = .ok v := hs
  cases hv with
  | int name t chain lo hi n ha hb hl hn =>
    have hy : ∀ j, ietfVal name j = .ok j := by
      intro j
      rcases ha with rfl | ha
      · cases t <;> exact ietfVal_other (by decide) (by decide)
      · exact ietfVal_typedef ha
    refine ⟨_, _, hser, ?_, ?_, hy _, ?_, ?_⟩
    · simp only [leafJ]; split <;> simp
    · intro ms; simp only [leafJ]; split <;> simp
    · simp only [leafJ]; split <;> simp
    · simp only [leafJ]
      split
      · exact int_set hb hl hn (C09_decimal_text_denotes n)
      · exact hs' (by simp)
  | str name T s ha =>
    have hy : ∀ j, ietfVal name j = .ok j := by
      intro j
      rcases ha with (rfl | ha) | (rfl | ha)
      · exact ietfVal_other (by decide) (by decide)
      · exact ietfVal_typedef ha
      · exact ietfVal_other (by decide) (by decide)
      · exact ietfVal_typedef ha
    exact ⟨_, _, hser, by simp [leafJ], by simp [leafJ], hy _, by simp [leafJ], hs' (by simp)⟩
  | ident name ids s ha hin hc hm =>
    have hj : ∃ x, leafJ mod (.ident name ids) (.str s) = .str x := by
      simp only [leafJ, serIdentity]
      repeat' split
      all_goals exact ⟨_, rfl⟩
    have hy : ietfVal name (leafJ mod (.ident name ids) (.str s)) = .ok (.str s) := by
      rcases ha with rfl | ha
      · simp only [leafJ, if_true]; exact ietfVal_ident hc hm
      · rw [ietfVal_typedef ha]; simp [leafJ, (typedef_names ha).2.2.1, PyVal.toStr]
    obtain ⟨x, hx⟩ := hj
    refine ⟨_, _, hser, by simp [hx], by simp [hx], hy, by simp, hs' (by simp)⟩
  | bool name b ha =>
    have hy : ∀ j, ietfVal name j = .ok j := by
      intro j
      rcases ha with rfl | ha
      · exact ietfVal_other (by decide) (by decide)
      · exact ietfVal_typedef ha
    exact ⟨_, _, hser, by simp [leafJ], by simp [leafJ], hy _, by simp [leafJ], hs' (by simp)⟩
  | empty name ha =>
    rcases ha with rfl | ha
    · exact ⟨.arr [.null], .bool true, hser, by simp, by simp, by simp [YTy.cls, YTy.name, ietfVal], by simp, hs' (by simp)⟩
    · refine ⟨.bool true, .bool true, ?_, by simp, by simp, ietfVal_typedef ha, by simp, hs' (by simp)⟩
      rw [hser]; simp [leafJ, (typedef_names ha).2.2.2.2.2.1, PyVal.truthy]
  | ext name x o ha hx =>
    obtain ⟨h1, h2⟩ := ext_names ha
    have hj : leafJ mod (.ext name x) (.obj o) = .str (extText o) := by
      simp only [leafJ]; cases o <;> rfl
    exact ⟨_, _, hser, by simp [hj], by simp [hj], ietfVal_other h1 h2, by simp [hj], by rw [hj]; exact ext_set (ext_call_text hx)⟩

/-! ## Unions -/

theorem ok_toBool {α : Type} {r : Except Err α} : r.toBool = true ↔ ∃ x, r = .ok x := by
  cases r <;> simp [Except.toBool]

theorem member_of {rx : Str → Str → Bool} {u : UTy} {pre : List YTy} {t : YTy} {v : PyVal} (hp : ∃ post, u.members = pre ++ t :: post)
    (ha : t.ty.call rx v = .ok v) (hf : ∀ s ∈ pre, ¬ Accepts rx s v) : u.member rx v = some t := by
  obtain ⟨post, hp⟩ := hp
  rw [UTy.member, hp, List.find?_append, List.find?_eq_none.2, Option.none_or, List.find?_cons_of_pos]
  · simp [ha]
  · intro s hs
    cases h : s.ty.call rx v with
    | ok w => exact absurd ⟨w, h⟩ (hf s hs)
    | error e => simp

/-- A leaf of a union is set by the first member that takes the value. -/
theorem union_set {rx : Str → Str → Bool} {u : UTy} {pre : List YTy} {t : YTy} {x w : PyVal} {d : Option PyVal}
    (hp : ∃ post, u.members = pre ++ t :: post) (ha : t.ty.call rx x = .ok w) (hf : ∀ s ∈ pre, ¬ Accepts rx s x) :
    (u.cls rx d).set x = .ok w := by
  obtain ⟨post, hp⟩ := hp
  have hfind : (u.members.map YTy.ty).find? (fun t => (t.call rx x).toBool) = some t.ty := by
    rw [hp, List.map_append, List.find?_append, List.find?_eq_none.2, Option.none_or, List.map_cons,
      List.find?_cons_of_pos (by exact ok_toBool.2 ⟨_, ha⟩)]
    intro s hs
    obtain ⟨s, hs', rfl⟩ := List.mem_map.1 hs
    rw [ok_toBool]
    exact hf s hs'
  have h := build_setUnion rx (u.members.map YTy.ty) x
  rw [setUnion, hfind] at h
  simp only [dyn_of_call rx _ _ _ ha] at h
  rw [toExcept_ok_iff] at h
  exact h

/-- What is written for the value of a member. -/
def unionJ (ietf : Bool) : YTy → PyVal → J
  | .int _ t rs, .int n => if rs = [] ∧ t.bits = 64 ∧ ietf = true then .str (intStr n) else .num n
  | .bool _, v => .bool v.truthy
  | .empty _, v => .bool v.truthy
  | _, v => .str v.toStr

theorem serVal_union {ietf : Bool} {mod name : Str} {A : SerCls} {v : PyVal} (h : TypeArg py!"union" name) :
    serVal ietf mod name A v = serMapped ietf name A v ∧ name ≠ py!"empty" ∧ name ≠ py!"identityref" := by
  rcases h with rfl | h
  · exact ⟨rfl, by decide, by decide⟩
  · obtain ⟨_, _, h3, _, _, h6, _⟩ := typedef_names h
    exact ⟨serVal_typedef h, h6, h3⟩

theorem serLeaf_union {rx : Str → Str → Bool} {ietf : Bool} {mod : Str} {u : UTy} {pre : List YTy} {t : YTy} {v : PyVal} {d : Option PyVal}
    (h : MemberValue rx u pre t v) : serLeaf ietf mod (u.cls rx d) v = .ok (unionJ ietf t v) := by
  have hm : u.member rx v = some t := member_of h.pos h.same h.first
  simp only [serLeaf, UTy.cls, hm, Option.map_some, Option.getD_some]
  obtain ⟨e, he, hi⟩ := serVal_union (ietf := ietf) (mod := mod) (A := t.ser) (v := v) h.name
  rw [e]
  cases h.value with
  | int name t chain lo hi n ha hb hl hn => rw [serMapped_int (.inl rfl)]; rfl
  | str name T s ha => cases T <;> simp [serMapped, YTy.ser, SerCls.pyc, serNative, PyVal.toStr, unionJ]
  | ident name ids s ha hs hc hm => simp [serMapped, YTy.ser, SerCls.pyc, serNative, PyVal.toStr, unionJ]
  | bool name b ha => simp [serMapped, YTy.ser, SerCls.pyc, he, unionJ]
  | empty name ha => simp [serMapped, YTy.ser, SerCls.pyc, he, unionJ]
  | ext name x => exact absurd rfl (h.plain name x)

/-- Integers take the texts of their values. -/
theorem int_call {rx : Str → Str → Bool} {name : Str} {t : IntTy} {chain : List (List WrittenPart)} {lo hi n : Int}
    (hb : builtinBounds t.name = some (lo, hi)) (hl : LegalChain (chain ++ [[⟨.span (some lo) (some hi), 0, 0, 0, 0⟩]]))
    (hn : InType chain n ∧ lo ≤ n ∧ n ≤ hi) {v : PyVal} (hv : Denotes v n) :
    (YTy.int name t (chain.map rangeText)).ty.call rx v = .ok (.int n) := by
  simp only [YTy.ty, LeafTy.call, int_tower hb]
  exact (towerFacts rx _ hl).callOk v n hv.isNum (inType_append hn)

theorem leafBack_union {rx : Str → Str → Bool} {repr : J → Str} {mod : Str} {u : UTy} {pre : List YTy} {t : YTy} {v : PyVal}
    {d : Option PyVal} (h : MemberValue rx u pre t v) (hl : LongInt t → ∀ s ∈ pre, ¬ Accepts rx s (.str v.toStr)) :
    LeafBack repr mod (u.cls rx d) v := by
  have hser := serLeaf_union (ietf := true) (mod := mod) (d := d) h
  have hs := union_set (d := d) h.pos h.same h.first
  obtain ⟨_, he, hi⟩ := serVal_union (ietf := true) (mod := mod) (A := t.ser) (v := v) h.name
  have hy : ∀ j, ietfVal (u.cls rx d).yangType j = .ok j := fun j => ietfVal_other he hi
  refine ⟨_, _, hser, ?_, ?_, hy _, ?_, ?_⟩
  · cases h.value <;> simp only [unionJ] <;> first | (split <;> simp) | simp
  · intro ms; cases h.value <;> simp only [unionJ] <;> first | (split <;> simp) | simp
  · cases h.value <;> simp only [unionJ] <;> first | (split <;> simp) | simp
  · have hpos := h.pos
    cases h.value with
    | int name t chain lo hi n ha hb hl' hn =>
      simp only [unionJ]
      split
      · rename_i h3
        refine union_set hpos (int_call hb hl' hn (C09_decimal_text_denotes n)) (hl ⟨?_, h3.1⟩)
        revert h3
        cases t <;> simp [IntTy.bits]
      · exact hs
    | str name T s ha => exact hs
    | ident name ids s ha hin hc hm => exact hs
    | bool name b ha => exact hs
    | empty name ha => exact hs
    | ext name x => exact absurd rfl (h.plain name x)

theorem leafBack_holds {rx : Str → Str → Bool} {repr : J → Str} {mod : Str} {L : LeafCls} {v : PyVal} (h : LeafHolds rx L v) :
    LeafBack repr mod L v := by
  rcases h with ⟨t, d, rfl, hs⟩ | ⟨u, d, pre, t, rfl, hm, hl⟩
  · exact leafBack_value hs
  · exact leafBack_union hm hl

/-! ## Leaf-lists -/

/-- What is written for an element of a leaf-list. -/
def elemJ : YTy → PyVal → J
  | .int _ t rs, .int n => if rs = [] ∧ t.bits = 64 then .str (intStr n) else .num n
  | .bool _, v => .num (if v.truthy then 1 else 0)
  | .ext _ _, .obj o => extJ true o
  | _, v => .str v.toStr

theorem serElem_value {rx : Str → Str → Bool} {mod : Str} {t : YTy} {v : PyVal} {u : Bool} {tx : List PyVal → Str}
    (h : StoredElem rx t v) : serElem true mod (t.llCls rx u tx) v = .ok (elemJ t v) := by
  obtain ⟨hv, hne, hc⟩ := h
  simp only [serElem, YTy.llCls]
  rw [serVal_typedef (by decide)]
  cases hv with
  | ext name x o ha hx =>
    cases hx with
    | dec fd k =>
      have e := serElem_ext (rx := rx) (ietf := true) (mod := mod) (fd := fd) (k := k) (u := u) (tx := tx) (name := name)
      simp only [serElem, YTy.llCls] at e
      rw [serVal_typedef (by decide)] at e
      exact e
    | bin => exact absurd rfl (hne.2 name)
    | bits => rw [ext_conv_bits] at hc; cases hc
  | int name t chain lo hi n ha hb hl hn =>
    simp only [elemJ]
    rw [serMapped_int (t := t) (rs := chain.map rangeText) (.inr rfl)]
    simp
  | str name T s ha => cases T <;> simp [serMapped, YTy.ser, SerCls.pyc, SerCls.bare, serNative, elemJ, PyVal.toStr]
  | ident name ids s ha hs hc hm => simp [serMapped, YTy.ser, SerCls.pyc, SerCls.bare, serNative, elemJ, PyVal.toStr]
  | bool name b ha => cases b <;> simp [serMapped, YTy.ser, SerCls.pyc, SerCls.bare, serNative, elemJ, PyVal.truthy]
  | empty name ha => exact absurd rfl (hne.1 name)

theorem elem_read {rx : Str → Str → Bool} {repr : J → Str} {t : YTy} {v : PyVal} {u : Bool} {tx : List PyVal → Str}
    (h : StoredElem rx t v) : (t.llCls rx u tx).conv (jPy repr (elemJ t v)) = some v := by
  obtain ⟨hv, hne, hc⟩ := h
  have hc' : (t.llCls rx u tx).conv v = some v := hc
  cases hv with
  | ext name x o ha hx =>
    cases hx with
    | dec fd k h1 h2 => exact ext_conv (ext_call_text (.dec fd k h1 h2)) (by simp)
    | bin => exact absurd rfl (hne.2 name)
    | bits => rw [ext_conv_bits] at hc; cases hc
  | int name t chain lo hi n ha hb hl hn =>
    simp only [elemJ]
    split
    · exact int_conv hb hl hn (C09_decimal_text_denotes n)
    · exact hc'
  | str name T s ha => exact hc'
  | ident name ids s ha hs hc hm => exact hc'
  | bool name b ha => cases b <;> rfl
  | empty name ha => exact absurd rfl (hne.1 name)

/-- Telling elements apart by what is read for them. -/
theorem elem_apart {rx : Str → Str → Bool} {repr : J → Str} {t : YTy} {v w : PyVal} (h : StoredElem rx t v) (h' : StoredElem rx t w)
    (hd : pyEq w v = false) : pyEq w (jPy repr (elemJ t v)) = false := by
  obtain ⟨hv, hne, hc⟩ := h
  cases hv with
  | ext name x o ha hx =>
    cases hx with
    | dec fd k h1 h2 =>
      have hw : ∃ o, w = .obj o := by
        generalize ht : YTy.ext name (.dec fd) = t' at h'
        obtain ⟨hw, _⟩ := h'
        cases hw <;> simp at ht
        exact ⟨_, rfl⟩
      obtain ⟨o, rfl⟩ := hw
      exact pyEq_obj_str _ _
    | bin => exact absurd rfl (hne.2 name)
    | bits => rw [ext_conv_bits] at hc; cases hc
  | int name t chain lo hi n ha hb hl hn =>
    have hw : ∃ m, w = .int m := by
      generalize ht : YTy.int name t (chain.map rangeText) = t' at h'
      obtain ⟨hw, _⟩ := h'
      cases hw <;> simp at ht
      exact ⟨_, rfl⟩
    obtain ⟨m, rfl⟩ := hw
    simp only [elemJ]
    split
    · simp [jPy, pyEq, PyVal.num?]
    · exact hd
  | str name T s ha => exact hd
  | ident name ids s ha hs hc hm => exact hd
  | bool name b ha => 
    have e : ∀ w, pyEq w (.bool b) = pyEq w (.int (if b then 1 else 0)) := by
      intro w
      unfold pyEq
      cases w.num? <;> rfl
    rw [e] at hd
    cases b <;> exact hd
  | empty name ha => exact absurd rfl (hne.1 name)

theorem mapM_total {α β : Type} {f : α → Except Err β} {g : α → β} {l : List α} (h : ∀ x ∈ l, f x = .ok (g x)) :
    l.mapM f = .ok (l.map g) := by
  induction l with
  | nil => rfl
  | cons a l ih =>
    rw [List.mapM_cons, h a (by simp), ih fun x hx => h x (List.mem_cons_of_mem _ hx)]
    rfl

theorem tlInit_read {rx : Str → Str → Bool} {repr : J → Str} {t : YTy} {u : Bool} {tx : List PyVal → Str} :
    ∀ (vs tmp : List PyVal), (∀ v ∈ tmp ++ vs, StoredElem rx t v) → (tmp ++ vs).Pairwise (fun a b => pyEq a b = false) →
    tlInitLoop (t.llCls rx u tx).conv u tmp ((vs.map (elemJ t)).map (jPy repr)) = .ok (tmp ++ vs)
  | [], tmp, _, _ => by simp [tlInitLoop]
  | v :: vs, tmp, hall, hp => by
    have hnot : pyIn (jPy repr (elemJ t v)) tmp = false := by
      simp only [pyIn, List.any_eq_false]
      intro w hw
      rw [elem_apart (hall v (by simp)) (hall w (by simp [hw]))]
      · simp
      · rw [List.pairwise_append] at hp
        exact hp.2.2 w hw v (by simp)
    simp only [List.map_cons, tlInitLoop, hnot, Bool.not_false, Bool.or_true, if_true, tlCheck]
    have : pyIn (jPy repr (elemJ t v)) [] = false := rfl
    simp only [this, Bool.and_false, Bool.false_eq_true, if_false, elem_read (hall v (by simp))]
    have := tlInit_read (repr := repr) (u := u) (tx := tx) vs (tmp ++ [v]) (by simpa using hall) (by simpa using hp)
    simpa using this

theorem leafListBack_value {rx : Str → Str → Bool} {repr : J → Str} {mod : Str} {t : YTy} {u : Bool} {tx : List PyVal → Str}
    {vs : List PyVal} (hvs : vs ≠ []) (h : ∀ v ∈ vs, StoredElem rx t v) (hp : vs.Pairwise fun a b => pyEq a b = false) :
    LeafListBack repr mod (t.llCls rx u tx) vs := by
  refine ⟨vs.map (elemJ t), mapM_total fun v hv => serElem_value (h v hv), ?_, ?_⟩
  · show ietfVal t.name _ = _
    by_cases hi : t.name = py!"identityref"
    · have ho : ∀ v ∈ vs, ∃ c s, ':' ∉ s ∧ elemJ t v = c ∧ c = .str s := by
        intro v hv
        obtain ⟨hv, hne, _⟩ := h v hv
        cases hv with
        | ext name x o ha => exact absurd hi (ext_names ha).2
        | int name t chain lo hi n ha hb hl hn =>
          simp only [YTy.name] at hi
          subst hi
          rcases ha with ha | ha
          · cases t <;> simp [IntTy.name] at ha
          · exact absurd (by decide) ha
        | str name T s ha =>
          simp only [YTy.name] at hi
          subst hi
          rcases ha with (ha | ha) | (ha | ha)
          · simp at ha
          · exact absurd (by decide) ha
          · simp at ha
          · exact absurd (by decide) ha
        | ident name ids s ha hs hc hm => exact ⟨_, s, hc, rfl, rfl⟩
        | bool name b ha =>
          simp only [YTy.name] at hi
          subst hi
          rcases ha with ha | ha
          · simp at ha
          · exact absurd (by decide) ha
        | empty name ha => exact absurd rfl (hne.1 name)
      have : (vs.map (elemJ t)).any isColon = false := by
        rw [List.any_eq_false]
        intro x hx
        obtain ⟨v, hv, rfl⟩ := List.mem_map.1 hx
        obtain ⟨c, s, hs, hc, rfl⟩ := ho v hv
        rw [hc]
        unfold isColon
        split
        · rename_i e; simp only [J.str.injEq] at e; subst e; simp at hs
        · simp
      simp only [ietfVal, hi]
      rw [if_neg (by decide), if_true, if_neg (by rw [this]; simp)]
    · have he : t.name ≠ py!"empty" := by
        obtain ⟨v, hv⟩ := List.exists_mem_of_ne_nil vs hvs
        obtain ⟨hv, hne, _⟩ := h v hv
        cases hv with
        | ext name x o ha => exact (ext_names ha).1
        | int name t chain lo hi n ha hb hl hn =>
          simp only [YTy.name]
          rintro rfl
          rcases ha with ha | ha
          · cases t <;> simp [IntTy.name] at ha
          · exact absurd (by decide) ha
        | str name T s ha =>
          simp only [YTy.name]
          rintro rfl
          rcases ha with (ha | ha) | (ha | ha)
          · simp at ha
          · exact absurd (by decide) ha
          · simp at ha
          · exact absurd (by decide) ha
        | ident name ids s ha hs hc hm =>
          simp only [YTy.name]
          rintro rfl
          rcases ha with ha | ha
          · simp at ha
          · exact absurd (by decide) ha
        | bool name b ha =>
          simp only [YTy.name]
          rintro rfl
          rcases ha with ha | ha
          · simp at ha
          · exact absurd (by decide) ha
        | empty name ha => exact absurd rfl (hne.1 name)
      exact ietfVal_other he hi
  · have := tlInit_read (repr := repr) (u := u) (tx := tx) vs [] (by simpa using h) (by simpa using hp)
    exact this

/-! ### Leaf-lists of unions -/

theorem conv_one {rx : Str → Str → Bool} {t : YTy} {v : PyVal} : (t.llCls rx).conv v = elemCheck rx t.ty v := by
  simp only [YTy.llCls, elemConv, List.findSome?_cons, List.findSome?_nil]
  cases elemCheck rx t.ty v <;> rfl

theorem union_conv {rx : Str → Str → Bool} {u : UTy} {pre : List YTy} {t : YTy} {x w : PyVal} {b : Bool} {tx : List PyVal → Str}
    (hp : ∃ post, u.members = pre ++ t :: post) (ha : (t.llCls rx).conv x = some w) (hf : ∀ s ∈ pre, ¬ ElemTakes rx s x) :
    (u.llCls rx b tx).conv x = some w := by
  obtain ⟨post, hp⟩ := hp
  rw [conv_one] at ha
  show elemConv rx (u.members.map YTy.ty) x = some w
  rw [elemConv, hp, List.map_append, List.findSome?_append, List.findSome?_eq_none_iff.2, Option.none_or, List.map_cons, List.findSome?_cons, ha]
  intro s hs
  obtain ⟨s, hs', rfl⟩ := List.mem_map.1 hs
  cases h : elemCheck rx s.ty x with
  | none => rfl
  | some y => exact absurd ⟨y, by rw [conv_one]; exact h⟩ (hf s hs')

theorem elemMember_of {rx : Str → Str → Bool} {u : UTy} {pre : List YTy} {t : YTy} {v : PyVal} (h : ElemMember rx u pre t v) :
    u.elemMember rx v = some t := by
  obtain ⟨post, hp⟩ := h.pos
  have ha := h.elem.2.2
  rw [conv_one] at ha
  rw [UTy.elemMember, hp, List.find?_append, List.find?_eq_none.2, Option.none_or, List.find?_cons_of_pos]
  · simp [ha]
  · intro s hs
    cases hc : elemCheck rx s.ty v with
    | some w => exact absurd ⟨w, by rw [conv_one]; exact hc⟩ (h.first s hs)
    | none => simp

theorem elem_noObj {rx : Str → Str → Bool} {u : UTy} {pre : List YTy} {t : YTy} {v : PyVal} (h : ElemMember rx u pre t v) (o : PyObj) : v ≠ .obj o := by
  rintro rfl
  have hp := h.plain
  have hv := h.elem.1
  cases hv with
  | ext name x => exact hp name x rfl

theorem serElem_union {rx : Str → Str → Bool} {ietf : Bool} {mod : Str} {u : UTy} {pre : List YTy} {t : YTy} {v : PyVal} {b : Bool} {tx : List PyVal → Str}
    (h : ElemMember rx u pre t v) : serElem ietf mod (u.llCls rx b tx) v = serElem ietf mod (t.llCls rx b tx) v := by
  simp only [serElem, UTy.llCls, YTy.llCls, elemMember_of h, Option.map_some, Option.getD_some]

theorem elem_read_union {rx : Str → Str → Bool} {repr : J → Str} {u : UTy} {pre : List YTy} {t : YTy} {v : PyVal} {b : Bool} {tx : List PyVal → Str}
    (h : ElemMember rx u pre t v) : (u.llCls rx b tx).conv (jPy repr (elemJ t v)) = some v := by
  refine union_conv h.pos (elem_read h.elem) ?_
  have hf := h.first
  have hb := h.bool
  have hl := h.long
  have hpl := h.plain
  obtain ⟨hv, hne, hc⟩ := h.elem
  cases hv with
  | ext name x o ha hx => exact absurd rfl (hpl name x)
  | int name t chain lo hi n ha hb' hl' hn =>
    simp only [elemJ]
    split
    · rename_i h3
      refine hl ⟨?_, h3.1⟩
      revert h3
      cases t <;> simp [IntTy.bits]
    · exact hf
  | str name T s ha => exact hf
  | ident name ids s ha hs hc hm => exact hf
  | bool name b ha => cases b <;> exact hb _ rfl
  | empty name ha => exact absurd rfl (hne.1 name)

theorem split_order {α : Type} {pre pre' post post' : List α} {t t' : α} (h : pre ++ t :: post = pre' ++ t' :: post') :
    t' ∈ pre ∨ t ∈ pre' ∨ t = t' := by
  rcases List.append_eq_append_iff.1 h with ⟨q, h1, h2⟩ | ⟨q, h1, h2⟩
  · cases q with
    | nil => simp only [List.nil_append, List.cons.injEq] at h2; exact .inr (.inr h2.1)
    | cons a q =>
      simp only [List.cons_append, List.cons.injEq] at h2
      exact .inr (.inl (by rw [h1, h2.1]; simp))
  · cases q with
    | nil => simp only [List.nil_append, List.cons.injEq] at h2; exact .inr (.inr h2.1.symm)
    | cons a q =>
      simp only [List.cons_append, List.cons.injEq] at h2
      exact .inl (by rw [h1, h2.1]; simp)

theorem str_not_int {name : Str} {t : IntTy} {chain : List Str} {s : Str} : ¬ Value (.int name t chain) (.str s) := by
  generalize hx : YTy.int name t chain = x
  generalize hy : PyVal.str s = y
  intro h
  cases h <;> simp at hx hy

/-- Telling elements apart by what is read for them. -/
theorem elem_apart_union {rx : Str → Str → Bool} {repr : J → Str} {u : UTy} {pre pre' : List YTy} {t t' : YTy} {v w : PyVal}
    (h : ElemMember rx u pre t v) (h' : ElemMember rx u pre' t' w) (hd : pyEq w v = false) : pyEq w (jPy repr (elemJ t v)) = false := by
  have hl := h.long
  have hpl := h.plain
  have hpos := h.pos
  obtain ⟨hv, hne, hc⟩ := h.elem
  cases hv with
  | ext name x o ha hx => exact absurd rfl (hpl name x)
  | int name t chain lo hi n ha hb' hl' hn =>
    simp only [elemJ]
    split
    · rename_i h3
      have hlong : LongInt (.int name t (chain.map rangeText)) := by
        refine ⟨?_, h3.1⟩
        revert h3
        cases t <;> simp [IntTy.bits]
      by_cases hw : w = .str (intStr n)
      · exfalso
        subst hw
        obtain ⟨post, hpos⟩ := hpos
        obtain ⟨post', hpos'⟩ := h'.pos
        rcases split_order (hpos.symm.trans hpos') with hm | hm | hm
        · exact hl hlong t' hm ⟨_, h'.elem.2.2⟩
        · exact h'.first _ hm ⟨_, int_conv hb' hl' hn (C09_decimal_text_denotes n)⟩
        · exact str_not_int (t := t) (hm ▸ h'.elem.1)
      · have hpl' := h'.plain
        have hv' := h'.elem.1
        cases hv' with
        | ext name x => exact absurd rfl (hpl' name x)
        | int => simp [jPy, pyEq, PyVal.num?]
        | bool => simp [jPy, pyEq, PyVal.num?]
        | empty => simp [jPy, pyEq, PyVal.num?]
        | str name T s => simp [jPy, pyEq, PyVal.num?, PyVal.norm]; exact fun e => hw (by rw [e])
        | ident name ids s => simp [jPy, pyEq, PyVal.num?, PyVal.norm]; exact fun e => hw (by rw [e])
    · exact hd
  | str name T s ha => exact hd
  | ident name ids s ha hs hc hm => exact hd
  | bool name b ha =>
    have e : ∀ w, pyEq w (.bool b) = pyEq w (.int (if b then 1 else 0)) := by
      intro w
      unfold pyEq
      cases w.num? <;> rfl
    rw [e] at hd
    cases b <;> exact hd
  | empty name ha => exact absurd rfl (hne.1 name)

theorem tlInit_written {conv : PyVal → Option PyVal} {uniq : Bool} {g : PyVal → PyVal} :
    ∀ (vs tmp : List PyVal), (∀ v ∈ vs, conv (g v) = some v) → (tmp ++ vs).Pairwise (fun a b => pyEq a (g b) = false) →
    tlInitLoop conv uniq tmp (vs.map g) = .ok (tmp ++ vs)
  | [], tmp, _, _ => by simp [tlInitLoop]
  | v :: vs, tmp, hall, hp => by
    have hnot : pyIn (g v) tmp = false := by
      simp only [pyIn, List.any_eq_false]
      intro w hw
      rw [List.pairwise_append] at hp
      rw [hp.2.2 w hw v (by simp)]
      simp
    simp only [List.map_cons, tlInitLoop, hnot, Bool.not_false, Bool.or_true, if_true, tlCheck]
    have : pyIn (g v) [] = false := rfl
    simp only [this, Bool.and_false, Bool.false_eq_true, if_false, hall v (by simp)]
    have := tlInit_written (conv := conv) (uniq := uniq) (g := g) vs (tmp ++ [v]) (fun v hv => hall v (List.mem_cons_of_mem _ hv)) (by simpa using hp)
    simpa using this

theorem leafListBack_union {rx : Str → Str → Bool} {repr : J → Str} {mod : Str} {u : UTy} {b : Bool} {tx : List PyVal → Str}
    {vs : List PyVal} (hv : vs ≠ []) (h : ∀ v ∈ vs, ∃ pre t, ElemMember rx u pre t v) (hp : vs.Pairwise fun a b => pyEq a b = false) :
    LeafListBack repr mod (u.llCls rx b tx) vs := by
  have hG : ∀ v, (∃ pre t, ElemMember rx u pre t v) → ∀ pre t, ElemMember rx u pre t v → ((u.elemMember rx v).map fun t => elemJ t v).getD .null = elemJ t v := by
    intro v _ pre t hm
    rw [elemMember_of hm]
    rfl
  refine ⟨vs.map fun v => ((u.elemMember rx v).map fun t => elemJ t v).getD .null, mapM_total ?_, ?_, ?_⟩
  · intro v hv
    obtain ⟨pre, t, hm⟩ := h v hv
    rw [serElem_union hm, serElem_value hm.elem, hG v ⟨pre, t, hm⟩ pre t hm]
  · cases vs with
    | nil => exact absurd rfl hv
    | cons v vs =>
      obtain ⟨pre, t, hm⟩ := h v (by simp)
      obtain ⟨_, he, hi⟩ := serVal_union (ietf := true) (mod := mod) (A := t.ser) (v := v) hm.name
      exact ietfVal_other he hi
  · rw [List.map_map]
    refine tlInit_written (g := fun v => jPy repr (((u.elemMember rx v).map fun t => elemJ t v).getD .null)) vs [] ?_ ?_
    · intro v hv
      obtain ⟨pre, t, hm⟩ := h v hv
      rw [hG v ⟨pre, t, hm⟩ pre t hm]
      exact elem_read_union hm
    · rw [List.nil_append]
      refine hp.imp_of_mem ?_
      intro a c ha hc hac
      obtain ⟨pre, t, hm⟩ := h c hc
      obtain ⟨pre', t', hm'⟩ := h a ha
      rw [hG c ⟨pre, t, hm⟩ pre t hm]
      exact elem_apart_union hm hm' hac

/-! ## Keys -/

theorem intStr_inj {a b : Int} (h : intStr a = intStr b) : a = b := by
  have h1 := intOfStr_intStr a
  rw [h, intOfStr_intStr] at h1
  simpa using h1.symm

/-- A value that can be in a key leaf of the module `mod`. -/
def KeyVal (rx : Str → Str → Bool) (mod : Str) (t : YTy) (v : PyVal) : Prop :=
  ((∀ n, t ≠ .empty n) ∧ ∀ n x, t ≠ .ext n x) ∧ Stored rx t v ∧ ∀ ids, t = .ident py!"identityref" ids → ids.lookup v.toStr = some mod

theorem key_ident {rx : Str → Str → Bool} {mod name : Str} {ids : List (Str × Str)} {s : Str}
    (h : KeyVal rx mod (.ident name ids) (.str s)) : leafJ mod (.ident name ids) (.str s) = .str s := by
  simp only [leafJ]
  split
  · rename_i e
    have := h.2.2 ids (by rw [e])
    simp only [PyVal.toStr] at this
    simp [serIdentity, PyVal.toStr, this]
  · rfl

theorem key_read {rx : Str → Str → Bool} {repr : J → Str} {mod : Str} {t : YTy} {v : PyVal} (h : KeyVal rx mod t v) :
    (t.cls rx).set (jPy repr (leafJ mod t v)) = .ok v ∧ (jPy repr (leafJ mod t v)).toStr = v.toStr ∧
    jPy repr (leafJ mod t v) ≠ .none ∧ hashable (jPy repr (leafJ mod t v)) = true ∧
    (jPy repr (leafJ mod t v) = .str [] → v = .str []) := by
  have h0 := h
  obtain ⟨hne, ⟨hv, hs⟩, hid⟩ := h
  replace hs := hs hne.2
  cases hv with
  | int name t chain lo hi n ha hb hl hn =>
    simp only [leafJ]
    split
    · refine ⟨int_set hb hl hn (C09_decimal_text_denotes n), rfl, by simp [jPy], rfl, ?_⟩
      intro e
      simp only [jPy, PyVal.str.injEq] at e
      have := intOfStr_intStr n
      rw [e] at this
      have hnil : intOfStr [] = .error .valueError := rfl
      rw [hnil] at this
      simp at this
    · exact ⟨hs, rfl, by simp [jPy], rfl, by simp [jPy]⟩
  | str name T s ha => exact ⟨hs, rfl, by simp [leafJ, jPy], rfl, by simp [leafJ, jPy, PyVal.toStr]⟩
  | ident name ids s ha hin hc hm =>
    rw [key_ident h0]
    exact ⟨hs, rfl, by simp [jPy], rfl, by simp [jPy]⟩
  | bool name b ha => exact ⟨hs, rfl, by simp [leafJ, jPy], rfl, by simp [leafJ, jPy]⟩
  | empty name ha => exact absurd rfl (hne.1 name)
  | ext name x => exact absurd rfl (hne.2 name x)

theorem key_apart {rx : Str → Str → Bool} {repr : J → Str} {mod : Str} {t : YTy} {v w : PyVal} (h : KeyVal rx mod t v)
    (h' : KeyVal rx mod t w) (hd : pyEq v w = false) :
    pyEq (jPy repr (leafJ mod t v)) (jPy repr (leafJ mod t w)) = false := by
  have h0 := h
  have h0' := h'
  obtain ⟨hne, ⟨hv, hs⟩, hid⟩ := h
  replace hs := hs hne.2
  cases hv with
  | int name t chain lo hi n ha hb hl hn =>
    have hw : ∃ m, w = .int m := by
      generalize ht : YTy.int name t (chain.map rangeText) = t' at h'
      obtain ⟨_, ⟨hw, _⟩, _⟩ := h'
      cases hw <;> simp at ht
      exact ⟨_, rfl⟩
    obtain ⟨m, rfl⟩ := hw
    simp only [leafJ]
    split
    · simp only [jPy, pyEq, PyVal.num?, PyVal.norm, PyVal.str.injEq, decide_eq_false_iff_not] at hd ⊢
      exact fun e => hd (intStr_inj e)
    · exact hd
  | str name T s ha =>
    have hw : ∃ m, w = .str m := by
      generalize ht : YTy.str name T = t' at h'
      obtain ⟨_, ⟨hw, _⟩, _⟩ := h'
      cases hw <;> simp at ht
      exact ⟨_, rfl⟩
    obtain ⟨m, rfl⟩ := hw
    exact hd
  | ident name ids s ha hin hc hm =>
    have hw : ∃ m, w = .str m := by
      generalize ht : YTy.ident name ids = t' at h'
      obtain ⟨_, ⟨hw, _⟩, _⟩ := h'
      cases hw <;> simp at ht
      exact ⟨_, rfl⟩
    obtain ⟨m, rfl⟩ := hw
    rw [key_ident h0, key_ident h0']
    exact hd
  | bool name b ha =>
    have hw : ∃ m, w = .bool m := by
      generalize ht : YTy.bool name = t' at h'
      obtain ⟨_, ⟨hw, _⟩, _⟩ := h'
      cases hw <;> simp at ht
      exact ⟨_, rfl⟩
    obtain ⟨m, rfl⟩ := hw
    exact hd
  | empty name ha => exact absurd rfl (hne.1 name)
  | ext name x => exact absurd rfl (hne.2 name x)

theorem keyRaw_leaf {rx : Str → Str → Bool} {repr : J → Str} {kids : List (Meta × Schema)} {ns : List Inst} {i : Nat} {m : Meta} {t : YTy}
    {d : Option PyVal} {v : PyVal} (hk : kids[i]? = some (m, .leaf (t.cls rx d))) (hn : ns[i]? = some (.leaf v true))
    (h : Stored rx t v) : keyRaw repr kids ns i = jPy repr (leafJ m.module_ t v) := by
  simp only [keyRaw, hk, hn, serLeaf_value h.1]

theorem goodKeys_of {rx : Str → Str → Bool} {repr : J → Str} {ns : Str} {info : ListInfo} {kids : List (Meta × Schema)}
    {es : List (PyVal × Inst)} (h : KeysApart rx ns info kids es) : GoodKeys repr ns info kids es := by
  obtain ⟨hnd, hleaf, hone, hmany⟩ := h
  have hval : ∀ q ∈ es, ∀ i ∈ info.keys, (keyRaw repr kids q.2.kids i).toStr = (valAt q.2.kids i).toStr := by
    intro q hq i hi
    obtain ⟨m, t, d, hk, hm, hne, hv⟩ := hleaf i hi
    obtain ⟨v, hn, hs, hid⟩ := hv q hq
    rw [keyRaw_leaf hk hn hs, (key_read ⟨hne, hs, hid⟩).2.1]
    simp [valAt, hn]
  have htexts : ∀ q ∈ es, (info.keys.map (keyRaw repr kids q.2.kids)).map PyVal.toStr =
      (info.keys.map (valAt q.2.kids)).map PyVal.toStr := by
    intro q hq
    rw [List.map_map, List.map_map]
    exact List.map_congr_left fun i hi => hval q hq i hi
  refine ⟨hnd, ?_, ?_, ?_⟩
  · intro q hq i hi
    obtain ⟨m, t, d, hk, hm, hne, hv⟩ := hleaf i hi
    obtain ⟨v, hn, hs, hid⟩ := hv q hq
    refine ⟨m, _, v, hk, hn, hm, ?_⟩
    rw [keyRaw_leaf hk hn hs]
    exact (key_read ⟨hne, hs, hid⟩).1
  · intro i hi
    obtain ⟨h1, h2⟩ := hone i hi
    obtain ⟨m, t, d, hk, hm, hne, hv⟩ := hleaf i (by simp [hi])
    refine ⟨?_, ?_⟩
    · intro q hq
      obtain ⟨v, hn, hs, hid⟩ := hv q hq
      have hr := key_read (repr := repr) ⟨hne, hs, hid⟩
      rw [keyRaw_leaf hk hn hs]
      refine ⟨hr.2.2.1, fun e => ?_, hr.2.2.2.1⟩
      have := h1 q hq
      simp only [valAt, hn] at this
      exact this (hr.2.2.2.2 e)
    · refine h2.imp_of_mem ?_
      intro a b ha hb hab
      obtain ⟨v, hn, hs, hid⟩ := hv a ha
      obtain ⟨w, hn', hs', hid'⟩ := hv b hb
      rw [keyRaw_leaf hk hn hs, keyRaw_leaf hk hn' hs']
      simp only [valAt, hn, hn'] at hab
      exact key_apart ⟨hne, hs, hid⟩ ⟨hne, hs', hid'⟩ hab
  · intro h2
    obtain ⟨h3, h4⟩ := hmany h2
    refine ⟨?_, ?_⟩
    · intro q hq
      rw [htexts q hq]
      exact h3 q hq
    · refine h4.imp_of_mem ?_
      intro a b ha hb hab
      simp only [keyText, htexts a ha, htexts b hb]
      exact hab

/-! ## Trees -/

theorem ietfReady_of {rx : Str → Str → Bool} {repr : J → Str} {m : Meta} {S : Schema} {n : Inst} (h : JsonReady rx m S n) :
    IetfReady repr m S n := by
  cases S <;> cases n <;> simp only [JsonReady] at h <;> simp only [IetfReady]
  · exact fun hc => leafBack_holds (h hc)
  · intro hv
    obtain ⟨hc, ⟨t, u, tx, rfl, hall⟩ | ⟨u, b, tx, rfl, hall⟩, hp⟩ := h hv
    · exact ⟨hc, leafListBack_value hv hall hp⟩
    · exact ⟨hc, leafListBack_union hv hall hp⟩
  · exact h
  · exact ⟨h.1, h.2.1, goodKeys_of h.2.2⟩

theorem every_imp {F G : Meta → Schema → Inst → Prop} (h : ∀ m S n, F m S n → G m S n) :
    ∀ (S : Schema) (m : Meta) (n : Inst), Every F m S n → Every G m S n := by
  intro S
  have kidsImp : ∀ (kids : List (Meta × Schema)), (∀ k ∈ kids, ∀ m n, Every F m k.2 n → Every G m k.2 n) → ∀ ns,
      EveryKids F kids ns → EveryKids G kids ns := by
    intro kids ih ns hk
    rw [everyKids_iff] at hk ⊢
    exact ⟨hk.1, fun i k n hki hni => ih k (List.mem_of_getElem? hki) k.1 n (hk.2 i k n hki hni)⟩
  induction S using Schema.ind with
  | hleaf L => intro m n hn; cases n <;> simp only [Every] at hn ⊢ <;> exact h _ _ _ hn
  | hll L => intro m n hn; cases n <;> simp only [Every] at hn ⊢ <;> exact h _ _ _ hn
  | hcont pres kids ih =>
    intro m n hn
    cases n <;> simp only [Every] at hn ⊢ <;> first | exact h _ _ _ hn | exact ⟨h _ _ _ hn.1, kidsImp kids ih _ hn.2⟩
  | hlist info kids ih =>
    intro m n hn
    cases n <;> simp only [Every] at hn ⊢ <;>
      first | exact h _ _ _ hn | exact ⟨h _ _ _ hn.1, fun q hq => kidsImp kids ih _ (hn.2 q hq)⟩

theorem everyKids_imp {F G : Meta → Schema → Inst → Prop} (h : ∀ m S n, F m S n → G m S n) {kids : List (Meta × Schema)}
    {ns : List Inst} (hk : EveryKids F kids ns) : EveryKids G kids ns := by
  rw [everyKids_iff] at hk ⊢
  exact ⟨hk.1, fun i k n hki hni => every_imp h k.2 k.1 n (hk.2 i k n hki hni)⟩

end Pyb
