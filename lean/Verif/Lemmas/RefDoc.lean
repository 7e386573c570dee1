import Verif.Spec.RefDoc
import Verif.Spec.LeafRef
import Verif.Lemmas.JsonTypes
import Verif.Lemmas.NativeTypes
import Verif.Lemmas.XmlTypes

/-! # Lemmas about leafrefs in documents -/

namespace Pyb
open Py Spec

theorem leads_text {rx : Str → Str → Bool} {mod : Str} {t : YTy} {v : PyVal} {x : RefVal} (h : Leads rx mod t v x) : x.text = v.toStr := by
  induction h with
  | leaf d => rfl
  | ref x _ ih => exact ih

theorem leads_ser {rx : Str → Str → Bool} {mod : Str} {t : YTy} {v : PyVal} {x : RefVal} (h : Leads rx mod t v x) (ietf : Bool) :
    refSer ietf x = serLeaf ietf mod (t.cls rx) v := by
  induction h with
  | leaf d => rfl
  | ref x _ ih => exact ih

theorem leads_xml {rx : Str → Str → Bool} {mod : Str} {t : YTy} {v : PyVal} {x : RefVal} (h : Leads rx mod t v x) :
    refXmlVal x = xmlVal mod (t.cls rx) v := by
  induction h with
  | leaf d => rfl
  | ref x _ ih => exact ih

theorem leads_notList {rx : Str → Str → Bool} {mod : Str} {t : YTy} {v : PyVal} {x : RefVal} (h : Leads rx mod t v x) : x.isList = false := by
  cases h <;> rfl

theorem refPick_leaves {rx : Str → Str → Bool} {mod : Str} {t : YTy} {objs : List Target} (h : LeavesOf rx mod t objs) (s : Str) :
    refPick objs s = ((objs.map Target.val).reverse).find? fun x => x.text = s := by
  rw [refPick]
  intro k m L vs e
  subst e
  obtain ⟨v, hv, _⟩ := h _ List.mem_cons_self
  have := leads_notList hv
  simp [RefVal.isList] at this

theorem refPick_some {rx : Str → Str → Bool} {mod : Str} {t : YTy} {objs : List Target} (h : LeavesOf rx mod t objs) {s : Str} {x : RefVal}
    (hp : refPick objs s = some x) : ∃ o ∈ objs, o.val = x ∧ x.text = s := by
  rw [refPick_leaves h] at hp
  have h1 := List.mem_of_find?_eq_some hp
  have h2 := List.find?_some hp
  rw [List.mem_reverse, List.mem_map] at h1
  obtain ⟨o, ho, rfl⟩ := h1
  exact ⟨o, ho, rfl, by simpa using h2⟩

/-- A value held was found. -/
theorem refHold_value {setT : PyVal → Except Err Unit} {objs : List Target} {w : PyVal} {x : RefVal}
    (h : refHold setT true (some objs) w = .ok (.value x)) : isPointer objs = false ∧ refPick objs w.toStr = some x := by
  simp only [refHold, if_true] at h
  cases hp : isPointer objs with
  | true =>
    simp only [hp, if_true] at h
    cases hs : setT w <;> simp [hs, Except.map] at h
  | false =>
    simp only [hp, Bool.false_eq_true, if_false] at h
    cases hq : refPick objs w.toStr with
    | none => simp [hq] at h
    | some y =>
      simp only [hq, Except.ok.injEq, RefHeld.value.injEq] at h
      exact ⟨rfl, by rw [h]⟩

/-- Two values with the same text are the same to a leafref that was found. -/
theorem refHold_text {setT : PyVal → Except Err Unit} {objs : List Target} {w w' : PyVal} {x : RefVal}
    (h : refHold setT true (some objs) w = .ok (.value x)) (hw : w'.toStr = w.toStr) :
    refHold setT true (some objs) w' = .ok (.value x) := by
  obtain ⟨h1, h2⟩ := refHold_value h
  simp [refHold, h1, hw, h2]

/-- What is written has the text of the value. -/
theorem json_text {rx : Str → Str → Bool} {mod : Str} {t : YTy} {v : PyVal} {ietf : Bool} {repr : J → Str} {j : J} (h : Value t v)
    (hs : SameText ietf t) (hj : serLeaf ietf mod (t.cls rx) v = .ok j) : (jPy repr j).toStr = v.toStr := by
  cases ietf with
  | true =>
    rw [serLeaf_value h] at hj
    cases hj
    cases h with
    | int name t chain lo hi n ha hb hl hn =>
      simp only [leafJ]
      split <;> rfl
    | str name T s ha => rfl
    | ident name ids s ha hs' hc hm => exact hs.elim
    | bool name b ha => cases b <;> rfl
    | empty name ha => exact hs.elim
    | ext name x o ha hx =>
      cases hx with
      | dec => rfl
      | bin => exact hs.elim
      | bits => rfl
  | false =>
    rw [nSerLeaf_value h] at hj
    cases hj
    cases h with
    | int name t chain lo hi n ha hb hl hn => rfl
    | str name T s ha => rfl
    | ident name ids s ha hs' hc hm => exact hs.elim
    | bool name b ha => cases b <;> rfl
    | empty name ha => exact hs.elim
    | ext name x o ha hx =>
      cases hx with
      | dec => simp [SameText] at hs
      | bin => exact hs.elim
      | bits => rfl

end Pyb
