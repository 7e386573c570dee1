import Verif.Lemmas.NativeList
import Verif.Lemmas.Reach

/-! # Leaves written in native JSON; reachable trees -/

namespace Pyb
open Py Spec

/-- What is written for a leaf. -/
def nLeafJ : YTy → PyVal → J
  | .int _ _ _, .int n => .num n
  | .bool _, v => .bool v.truthy
  | .empty _, v => .bool v.truthy
  | .ext _ _, .obj o => extJ false o
  | _, v => .str v.toStr

theorem nSerLeaf_value {rx : Str → Str → Bool} {mod : Str} {t : YTy} {v : PyVal} {d : Option PyVal} (h : Value t v) :
    serLeaf false mod (t.cls rx d) v = .ok (nLeafJ t v) := by
  simp only [serLeaf, YTy.cls]
  cases h with
  | int name t chain lo hi n ha hb hl hn =>
    simp only [YTy.name, nLeafJ]
    rcases ha with rfl | ha
    · cases t <;> simp [serVal, IntTy.name, serLong, serInt, PyVal.toInt, Except.map]
    · rw [serVal_typedef ha, serMapped_int (.inl rfl)]
      simp
  | str name T s ha =>
    simp only [YTy.name, nLeafJ]
    have h' : name ∈ [py!"string", py!"enumeration"] ∨ name ∉ yangBuiltins := by
      rcases ha with (rfl | ha) | (rfl | ha)
      · exact .inl (by decide)
      · exact .inr ha
      · exact .inl (by decide)
      · exact .inr ha
    rcases h' with h' | h'
    · simp only [List.mem_cons, List.not_mem_nil, or_false] at h'
      rcases h' with rfl | rfl <;> simp [serVal]
    · rw [serVal_typedef h']
      cases T <;> simp [serMapped, YTy.ser, SerCls.pyc, serNative, PyVal.toStr]
  | ident name ids s ha hs hc hm =>
    simp only [YTy.name, nLeafJ]
    rcases ha with rfl | ha
    · simp [serVal, serMapped, YTy.ser, SerCls.pyc, serNative, PyVal.toStr]
    · rw [serVal_typedef ha]
      simp [serMapped, YTy.ser, SerCls.pyc, serNative, PyVal.toStr]
  | bool name b ha =>
    simp only [YTy.name, nLeafJ]
    rcases ha with rfl | ha
    · simp [serVal, serMapped, YTy.ser, SerCls.pyc]
    · rw [serVal_typedef ha]
      simp [serMapped, YTy.ser, SerCls.pyc, (typedef_names ha).2.2.2.2.2.1]
  | empty name ha =>
    simp only [YTy.name, nLeafJ]
    rcases ha with rfl | ha
    · simp [serVal, serEmpty]
    · rw [serVal_typedef ha]
      simp [serMapped, YTy.ser, SerCls.pyc, (typedef_names ha).2.2.2.2.2.1]
  | ext name x o ha hx => exact serVal_ext hx ha fun h => serVal_typedef h

theorem nLeafBack_value {rx : Str → Str → Bool} {repr : J → Str} {t : YTy} {v : PyVal} {d : Option PyVal}
    (h : Stored rx t v) (hf : FitsFloat v) : NativeLeafBack repr (t.cls rx d) v := by
  obtain ⟨hv, hs⟩ := h
  have hser := nSerLeaf_value (rx := rx) (mod := []) (d := d) hv
  have hs' : (∀ n x, t ≠ .ext n x) → (t.cls rx d).set v = .ok v := hs
  refine ⟨_, hser, ?_⟩
  cases hv with
  | ext name x o ha hx =>
    refine ext_set ?_
    have ht := ext_call_text hx
    cases hx with
    | dec fd k h1 h2 =>
      have := quantize_float fd k (hf _ rfl)
      simp only [nLeafJ, extJ, Bool.false_eq_true, if_false, jPy, ExtTy.call, toDecimal, bind, Except.bind, this]
    | bin => exact ht
    | bits => exact ht
  | int => exact hs' (by simp)
  | str => exact hs' (by simp)
  | ident => exact hs' (by simp)
  | bool => exact hs' (by simp)
  | empty => exact hs' (by simp)

theorem nLeafBack_holds {rx : Str → Str → Bool} {repr : J → Str} {L : LeafCls} {v : PyVal} (h : NativeHolds rx L v) :
    NativeLeafBack repr L v := by
  rcases h with ⟨t, d, rfl, hs⟩ | ⟨u, d, pre, t, rfl, h⟩
  · exact nLeafBack_value hs.1 hs.2
  · refine ⟨_, serLeaf_union h, ?_⟩
    have hs := union_set (d := d) h.pos h.same h.first
    cases h.value with
    | ext name x => exact absurd rfl (h.plain name x)
    | _ => simp only [unionJ, Bool.false_eq_true, and_false, if_false]; exact hs

/-- What is written for an element of a leaf-list. -/
def nElemJ : YTy → PyVal → J
  | .int _ _ _, .int n => .num n
  | .bool _, v => .num (if v.truthy then 1 else 0)
  | .ext _ _, .obj o => extJ false o
  | _, v => .str v.toStr

theorem nSerElem_stored {rx : Str → Str → Bool} {t : YTy} {v : PyVal} {u : Bool} {tx : List PyVal → Str}
    (h : StoredElem rx t v) (ho : ∀ o, v ≠ .obj o) : serElem false [] (t.llCls rx u tx) v = .ok (nElemJ t v) := by
  obtain ⟨hv, hne, hc⟩ := h
  simp only [serElem, YTy.llCls]
  rw [serVal_typedef (by decide)]
  cases hv with
  | int name t chain lo hi n ha hb hl hn =>
    simp only [nElemJ]
    rw [serMapped_int (t := t) (rs := chain.map rangeText) (.inr rfl)]
    simp
  | str name T s ha => cases T <;> simp [serMapped, YTy.ser, SerCls.pyc, SerCls.bare, serNative, nElemJ, PyVal.toStr]
  | ident name ids s ha hs hc hm => simp [serMapped, YTy.ser, SerCls.pyc, SerCls.bare, serNative, nElemJ, PyVal.toStr]
  | bool name b ha => cases b <;> simp [serMapped, YTy.ser, SerCls.pyc, SerCls.bare, serNative, nElemJ, PyVal.truthy]
  | empty name ha => exact absurd rfl (hne.1 name)
  | ext name x o => exact absurd rfl (ho o)

theorem nElemBack_value {rx : Str → Str → Bool} {repr : J → Str} {t : YTy} {v : PyVal} {u : Bool} {tx : List PyVal → Str}
    (h : StoredElem rx t v) (ho : ∀ o, v ≠ .obj o) : NativeElemBack repr (t.llCls rx u tx) v := by
  obtain ⟨hv, hne, hc⟩ := h
  have hc' : (t.llCls rx u tx).conv v = some v := hc
  refine ⟨nElemJ t v, nSerElem_stored ⟨hv, hne, hc⟩ ho, ?_⟩
  · cases hv with
    | int name t chain lo hi n ha hb hl hn => exact ⟨hc', pyEq_refl _⟩
    | str name T s ha => exact ⟨hc', pyEq_refl _⟩
    | ident name ids s ha hs hc hm => exact ⟨hc', pyEq_refl _⟩
    | bool name b ha => cases b <;> exact ⟨rfl, rfl⟩
    | empty name ha => exact absurd rfl (hne.1 name)
    | ext name x o => exact absurd rfl (ho o)

theorem nElemBack_union {rx : Str → Str → Bool} {repr : J → Str} {u : UTy} {pre : List YTy} {t : YTy} {v : PyVal} {b : Bool} {tx : List PyVal → Str}
    (h : ElemMember rx u pre t v) : NativeElemBack repr (u.llCls rx b tx) v := by
  obtain ⟨j, h1, h2, h3⟩ := nElemBack_value (repr := repr) (u := b) (tx := tx) h.elem (elem_noObj h)
  refine ⟨j, by rw [serElem_union h]; exact h1, union_conv h.pos h2 ?_, h3⟩
  have hf := h.first
  have hb := h.bool
  have hpl := h.plain
  have ho := elem_noObj h
  have hj : j = nElemJ t v := by
    have := nSerElem_stored (rx := rx) (u := b) (tx := tx) h.elem ho
    rw [this] at h1
    exact (Except.ok.inj h1).symm
  subst hj
  obtain ⟨hv, hne, hc⟩ := h.elem
  cases hv with
  | int name t chain lo hi n ha hb hl hn => exact hf
  | str name T s ha => exact hf
  | ident name ids s ha hs hc hm => exact hf
  | bool name b ha => cases b <;> exact hb _ rfl
  | empty name ha => exact absurd rfl (hne.1 name)
  | ext name x o => exact absurd rfl (ho o)

/-- Values ready and a reachable tree: everything ready. -/
theorem nativeReady_of {rx : Str → Str → Bool} {repr : J → Str} : ∀ (S : Schema) (m : Meta) (n : Inst), Sound S n →
    Every (NativeValues rx) m S n → Every (NativeReady repr) m S n := by
  intro S
  induction S using Schema.ind with
  | hleaf L =>
    intro m n hs h
    cases hs.pres
    intro hc
    exact nLeafBack_holds (h hc)
  | hll L =>
    intro m n hs h
    cases hs.vals with
    | leafList _ vs ch hv =>
      by_cases hne : vs = []
      · subst hne; exact ⟨by simp, by simp⟩
      · obtain ⟨⟨⟨t, u, tx, rfl, h1⟩ | ⟨u, b, tx, rfl, h1⟩, ho⟩, h2⟩ := h hne
        · exact ⟨fun v hv => nElemBack_value (h1 v hv) (ho v hv), h2⟩
        · refine ⟨fun v hv => ?_, h2⟩
          obtain ⟨pre, t, hm⟩ := h1 v hv
          exact nElemBack_union hm
  | hcont pres kids ih =>
    intro m n hs h
    obtain ⟨ch, pr, ns, rfl, hl⟩ := sound_cont hs
    simp only [Every] at h ⊢
    refine ⟨⟨hs.oneCase, h.1, ?_⟩, ?_⟩
    · rintro rfl rfl
      exact hs.absent
    · rw [everyKids_iff] at h ⊢
      exact ⟨h.2.1, fun i k c hk hc => ih k (List.mem_of_getElem? hk) _ _ (hs.kid hk hc) (h.2.2 i k c hk hc)⟩
  | hlist info kids ih =>
    intro m n hs h
    have hl : ∃ ch es, n = .list ch es := by
      cases hs.pres with
      | list _ _ ch es _ => exact ⟨ch, es, rfl⟩
    obtain ⟨ch, es, rfl⟩ := hl
    simp only [Every] at h ⊢
    obtain ⟨⟨h1, h2, h3, h4, h5⟩, h6⟩ := h
    refine ⟨⟨h1, ?_, h2, h3, ?_, h5⟩, ?_⟩
    · intro q hq
      have hq' := hs.entry hq
      obtain ⟨_, _, ns, e, _⟩ := sound_cont hq'
      rw [e] at hq' ⊢
      exact hq'.oneCase
    · intro q hq
      obtain ⟨s, k1, k2, k3, k4⟩ := h4 q hq
      refine ⟨s, k1, k2, k3, fun p i hi => ?_⟩
      obtain ⟨m', t, d, v, r, a1, a2, a3, a4⟩ := k4 p i hi
      exact ⟨m', _, v, r, v, a1, a2, a3, a4⟩
    · intro q hq
      have hq' := hs.entry hq
      obtain ⟨_, _, ns, e, _⟩ := sound_cont hq'
      have h2 := h6 q hq
      rw [e] at hq' h2 ⊢
      rw [everyKids_iff] at h2 ⊢
      exact ⟨h2.1, fun i k c hk hc => ih k (List.mem_of_getElem? hk) _ _ (hq'.kid hk hc) (h2.2 i k c hk hc)⟩

end Pyb
