import Verif.Lemmas.XmlList
import Verif.Lemmas.JsonTypes
import Verif.Lemmas.Reach
import Verif.Spec.XmlTypes

/-! # XML: the leaves of the types considered, written and read back -/

namespace Pyb
open Py Spec

theorem digit_xml {c : Char} (h : isDigit c = true) : xmlChar c = true := by
  simp only [isDigit, Bool.and_eq_true, decide_eq_true_eq] at h
  simp only [xmlChar, Bool.or_eq_true, Bool.and_eq_true, decide_eq_true_eq]
  exact .inl (.inl (.inl (by omega)))

theorem intStr_xml (n : Int) : (intStr n).all xmlChar = true ∧ intStr n ≠ [] := by
  cases n with
  | ofNat n =>
    refine ⟨?_, natStr_ne_nil n⟩
    rw [intStr, List.all_eq_true]
    exact fun c hc => digit_xml (natStr_digits n c hc)
  | negSucc n =>
    refine ⟨?_, by simp [intStr]⟩
    rw [intStr, List.all_eq_true]
    intro c hc
    rcases List.mem_cons.1 hc with rfl | hc
    · decide
    · exact digit_xml (natStr_digits _ c hc)

theorem xmlText_int (n : Int) : xmlText (intStr n) = .ok (some (intStr n)) := by
  simp only [xmlText, intStr_xml n, if_true, if_false]

/-- The text of an element, `none` if it is empty. -/
def someText (s : Str) : Option Str := if s = [] then none else some s

theorem xmlText_ok {s : Str} (h : s.all xmlChar = true) : xmlText s = .ok (someText s) := by
  simp only [xmlText, h, if_true, someText]

theorem someText_ne {s : Str} (h : s ≠ []) : someText s = some s := by
  unfold someText; rw [if_neg h]

theorem pyval_str {infer : Str → PyVal} {s : Str} (h : infer s = .str s) : pyval infer (someText s) = .str s := by
  by_cases e : s = []
  · subst e; rfl
  · rw [someText_ne e]; exact h

theorem pyval_int {infer : Str → PyVal} (hi : Objectify infer) (n : Int) : pyval infer (someText (intStr n)) = .int n := by
  rw [someText_ne (intStr_xml n).2]; exact hi.int n

theorem assoc_of_mem {ids : List (Str × Str)} {s : Str} (hs : s ∈ ids.map Prod.fst) : ∃ m, ids.lookup s = some m := by
  induction ids with
  | nil => simp at hs
  | cons q ids ih =>
    obtain ⟨a, b⟩ := q
    by_cases e : s = a
    · exact ⟨b, by simp [e]⟩
    · have : (s == a) = false := by simpa using e
      simp only [List.lookup_cons, this]
      exact ih (by simpa [e] using hs)

theorem assoc_mem {ids : List (Str × Str)} {s m : Str} (h : ids.lookup s = some m) : (s, m) ∈ ids := by
  induction ids with
  | nil => simp at h
  | cons q ids ih =>
    rw [List.lookup_cons] at h
    split at h
    · rename_i e; simp only [beq_iff_eq] at e; simp at h; subst e; subst h; simp
    · exact List.mem_cons_of_mem _ (ih h)

/-- The text for an identity: its name, with or without a prefix. -/
theorem serIdentity_text {mod : Str} {ids : List (Str × Str)} {s : Str} :
    serIdentity mod ids (.str s) = .str s ∨
    ∃ q ∈ ids, serIdentity mod ids (.str s) = .str (q.2 ++ ':' :: s) := by
  simp only [serIdentity, PyVal.toStr]
  cases hl : ids.lookup s with
  | none => exact .inl rfl
  | some m =>
    by_cases h1 : m ≠ mod
    · by_cases h2 : startsWith s m = true
      · simp [h1, h2]
      · refine .inr ⟨(s, m), assoc_mem hl, ?_⟩
        simp [h1, h2]
    · simp [h1]

theorem b64Char_xml (n : Nat) : xmlChar (b64Char n) = true := by
  have h : ∀ i : Fin 64, xmlChar (b64Char i.val) = true := by decide
  by_cases hn : n < 64
  · exact h ⟨n, hn⟩
  · have : b64Char n = 'A' := by
      have hl : b64Alphabet.length = 64 := by decide
      simp only [b64Char, List.getD_eq_getElem?_getD]
      rw [List.getElem?_eq_none (by omega)]
      rfl
    rw [this]; decide

theorem b64_xml : ∀ b : List Nat, (b64encode b).all xmlChar = true
  | [] => rfl
  | [a] => by simp only [b64encode, List.all_cons, List.all_nil, b64Char_xml]; decide
  | [a, b] => by simp only [b64encode, List.all_cons, List.all_nil, b64Char_xml]; decide
  | a :: b :: c :: rest => by simp only [b64encode, List.all_cons, b64Char_xml, b64_xml rest, Bool.and_self]

theorem signedStr_xml (n : Int) : (signedStr n).all xmlChar = true := by
  have e : xmlChar '+' = true := by decide
  simp only [signedStr]
  split
  · exact (intStr_xml n).1
  · rw [List.all_cons, (intStr_xml n).1, e]; rfl

theorem decStr_xml (x : Dec) : (decStr x).all xmlChar = true ∧ decStr x ≠ [] := by
  obtain ⟨ip, fp, pt, ex, n, h1, h2, h3, h4, h5, h6, _⟩ := decStr_parts x
  rw [h6]
  have hi : ip.all xmlChar = true := List.all_eq_true.2 fun c hc => digit_xml (h1 c hc)
  have hf : fp.all xmlChar = true := List.all_eq_true.2 fun c hc => digit_xml (h2 c hc)
  have he : ex.all xmlChar = true := by
    rcases h5 with ⟨rfl, _⟩ | rfl
    · rfl
    · rw [List.all_cons, signedStr_xml]; decide
  have e1 : xmlChar '-' = true := by decide
  have e2 : xmlChar '.' = true := by decide
  refine ⟨?_, by simp [h3]⟩
  simp only [List.all_append, hi, he, Bool.true_and, Bool.and_true]
  cases pt <;> split <;> simp [List.all_cons, hf, e1, e2]

theorem join_xml : ∀ ns : List Str, (∀ b ∈ ns, b.all xmlChar = true) → (join [' '] ns).all xmlChar = true
  | [], _ => rfl
  | [a], h => by simpa [join] using h a (by simp)
  | a :: b :: ns, h => by
    have h1 := h a (by simp)
    have h2 := join_xml (b :: ns) fun x hx => h x (List.mem_cons_of_mem _ hx)
    have e : xmlChar ' ' = true := by decide
    simp only [join, List.all_append, h1, h2, List.all_cons, List.all_nil, e, Bool.and_self]

/-- XML can hold the texts of such values. -/
theorem ext_xml {n : Str} {x : ExtTy} {o : PyObj} (h : ExtValue x o) (hx : InXml (.ext n x) (.obj o)) : (extText o).all xmlChar = true := by
  cases h with
  | dec fd k => exact (decStr_xml _).1
  | bin b => exact b64_xml b
  | bits a ns => exact join_xml ns (hx.2.2 ns rfl)

theorem ext_textOf (o : PyObj) : xmlTextOf (.obj o) = extText o := by cases o <;> rfl

/-- The text of the element for a leaf. -/
def xleafText (mod : Str) : YTy → PyVal → Option Str
  | .int _ _ _, v => some v.toStr
  | .ident name ids, v =>
    match leafJ mod (.ident name ids) v with
    | .str s => someText s
    | _ => none
  | .bool _, v => some (if v.truthy then py!"true" else py!"false")
  | .empty name, _ => if name = py!"empty" then none else some py!"true"
  | .str _ _, v => someText v.toStr
  | .ext _ _, v => someText (xmlTextOf v)

theorem xleafText_value {rx : Str → Str → Bool} {mod : Str} {t : YTy} {v : PyVal} {d : Option PyVal}
    (h : Value t v) (hx : InXml t v) :
    ∃ j, xmlVal mod (t.cls rx d) v = .ok j ∧ scalarText j = .ok (xleafText mod t v) := by
  have hser := serLeaf_value (rx := rx) (mod := mod) (d := d) h
  have other : t.name ≠ py!"empty" → xmlVal mod (t.cls rx d) v = .ok (leafJ mod t v) := by
    intro hn
    have hn' : (t.cls rx d).yangType ≠ py!"empty" := hn
    simp only [xmlVal, if_neg hn', hser]
  cases h with
  | int name t chain lo hi n ha hb hl hn =>
    refine ⟨_, other ?_, ?_⟩
    · simp only [YTy.name]
      rintro rfl
      rcases ha with ha | ha
      · cases t <;> simp [IntTy.name] at ha
      · exact absurd (by decide) ha
    · simp only [leafJ, xleafText]
      split <;> exact xmlText_int n
  | str name T s ha =>
    refine ⟨_, other ?_, ?_⟩
    · simp only [YTy.name]
      rintro rfl
      rcases ha with (ha | ha) | (ha | ha)
      · simp at ha
      · exact absurd (by decide) ha
      · simp at ha
      · exact absurd (by decide) ha
    · exact xmlText_ok (hx.1 s rfl)
  | ident name ids s ha hs hc hm =>
    have hs := hx.1 s rfl
    refine ⟨_, other ?_, ?_⟩
    · simp only [YTy.name]
      rintro rfl
      rcases ha with ha | ha
      · simp at ha
      · exact absurd (by decide) ha
    · have : leafJ mod (.ident name ids) (.str s) = .str s ∨
          ∃ q ∈ ids, leafJ mod (.ident name ids) (.str s) = .str (q.2 ++ ':' :: s) := by
        simp only [leafJ]
        split
        · exact serIdentity_text
        · exact .inl rfl
      rcases this with e | ⟨q, hq, e⟩
      · simp only [xleafText, e]
        exact xmlText_ok hs
      · simp only [xleafText, e]
        refine xmlText_ok ?_
        have h2 := hx.2.1 name ids rfl q hq
        have h3 : xmlChar ':' = true := by decide
        rw [List.all_append, List.all_cons, h2, h3, hs]
        rfl
  | bool name b ha =>
    refine ⟨_, other ?_, ?_⟩
    · simp only [YTy.name]
      rintro rfl
      rcases ha with ha | ha
      · simp at ha
      · exact absurd (by decide) ha
    · cases b <;> rfl
  | empty name ha =>
    by_cases e : name = py!"empty"
    · subst e
      exact ⟨.null, by simp [xmlVal, YTy.cls, YTy.name], by simp [scalarText, xleafText]⟩
    · refine ⟨_, other e, ?_⟩
      simp only [leafJ, xleafText, if_neg e, PyVal.truthy]
      rfl
  | ext name x o ha hv =>
    refine ⟨_, other (ext_names ha).1, ?_⟩
    have hj : leafJ mod (.ext name x) (.obj o) = .str (extText o) := by
      simp only [leafJ]; cases o <;> rfl
    simp only [hj, xleafText, ext_textOf]
    exact xmlText_ok (ext_xml hv hx)

/-- The element for a leaf. -/
theorem xmlLeaf_value {rx : Str → Str → Bool} (nsOf : Str → Str) {m : Meta} {t : YTy} {v : PyVal} {d : Option PyVal}
    (h : Value t v) (hx : InXml t v) :
    ∃ ds, xmlLeaf nsOf m (t.cls rx d) v true = .ok (.elem m.ns m.name ds (xleafText m.module_ t v) []) := by
  obtain ⟨j, h1, h2⟩ := xleafText_value (rx := rx) (mod := m.module_) (d := d) h hx
  have hd : ∃ ds, xmlDecls nsOf (t.cls rx d) v true = .ok ds := by
    simp only [xmlDecls]
    split
    · rename_i hi
      have hi : t.name = py!"identityref" := hi.1
      cases h with
      | ext name x o ha => exact absurd hi (ext_names ha).2
      | ident name ids s ha hs hc hm =>
        have : ∃ m, ids.lookup s = some m := assoc_of_mem hs
        obtain ⟨m, hm⟩ := this
        simp only [YTy.cls, YTy.ser, PyVal.toStr, hm]
        exact ⟨_, rfl⟩
      | int name t chain lo hi n ha hb hl hn =>
        simp only [YTy.name] at hi
        subst hi
        rcases ha with ha | ha
        · cases t <;> simp [IntTy.name] at ha
        · exact absurd (by decide) ha
      | str name T s ha =>
        simp only [YTy.name] at hi
        subst hi
        rcases ha with (ha | ha) | (ha | ha)
        · simp at ha
        · exact absurd (by decide) ha
        · simp at ha
        · exact absurd (by decide) ha
      | bool name b ha =>
        simp only [YTy.name] at hi
        subst hi
        rcases ha with ha | ha
        · simp at ha
        · exact absurd (by decide) ha
      | empty name ha =>
        simp only [YTy.name] at hi
        subst hi
        rcases ha with ha | ha
        · simp at ha
        · exact absurd (by decide) ha
    · exact ⟨[], rfl⟩
  obtain ⟨ds, hd⟩ := hd
  exact ⟨ds, by simp only [xmlLeaf, hd, h1, h2, bind, Except.bind, pure, Except.pure]⟩

theorem leafSet_ok {L : LeafCls} {own : Option Choice} {c : Inst} {v w : PyVal} (h : L.set v = .ok w) :
    leafSet L own c v = ⟨.leaf w true, [own, none], none⟩ := by simp [leafSet, h]

/-- Setting a leaf from a text that is not empty. -/
theorem xmlSet_text {L : LeafCls} {own : Option Choice} {c : Inst} {s : Str} {w : PyVal} (h1 : L.yangType ≠ py!"empty")
    (h2 : L.yangType ≠ py!"identityref") (h : L.set (.str s) = .ok w) :
    xmlSet L own false c (some s) = ⟨.leaf w true, [own, none], none⟩ := by
  simp only [xmlSet, Bool.false_eq_true, if_false, h1, h2, leafSet_ok h]

theorem name_not {b name : Str} (ha : TypeArg b name) (x : Str) (hx : x ∈ yangBuiltins) (hb : b ≠ x) : name ≠ x := by
  rintro rfl
  rcases ha with ha | ha
  · exact hb ha.symm
  · exact ha hx

theorem xleafBack_value {rx : Str → Str → Bool} {nsOf : Str → Str} {m : Meta} {t : YTy} {v : PyVal} {d : Option PyVal}
    (h : Stored rx t v) (hx : InXml t v) (hne : xmlTextOf v ≠ []) : XLeafBack nsOf m (t.cls rx d) v := by
  obtain ⟨hv, hs⟩ := h
  obtain ⟨ds, hw⟩ := xmlLeaf_value (rx := rx) nsOf (m := m) (d := d) hv hx
  refine ⟨ds, _, hw, ?_⟩
  intro own c
  have hs' : (∀ n x, t ≠ .ext n x) → (t.cls rx d).set v = .ok v := hs
  cases hv with
  | int name t chain lo hi n ha hb hl hn =>
    have hi : t.name ≠ py!"empty" ∧ t.name ≠ py!"identityref" := by cases t <;> decide
    exact xmlSet_text (name_not ha _ (by decide) hi.1) (name_not ha _ (by decide) hi.2) (int_set hb hl hn (C09_decimal_text_denotes n))
  | str name T s ha =>
    have hs1 : s ≠ [] := fun e => hne (by rw [e]; rfl)
    simp only [xleafText, PyVal.toStr, someText_ne hs1]
    rcases ha with ha | ha <;>
      exact xmlSet_text (name_not ha _ (by decide) (by decide)) (name_not ha _ (by decide) (by decide)) (hs' (by simp))
  | ident name ids s ha hin hc hm =>
    have hs1 : s ≠ [] := fun e => hne (by rw [e]; rfl)
    rcases ha with rfl | ha
    · simp only [xleafText, leafJ, if_true]
      have hread : ∀ x : Str, x ≠ [] → (if ':' ∈ x then (x.dropWhile (· ≠ ':')).tail else x) = s →
          xmlSet (YTy.cls rx (.ident py!"identityref" ids) d) own false c (someText x) = ⟨.leaf (.str s) true, [own, none], none⟩ := by
        intro x hx1 hx2
        have h1 : (YTy.cls rx (.ident py!"identityref" ids) d).yangType = py!"identityref" := rfl
        simp only [xmlSet, Bool.false_eq_true, if_false, h1, someText_ne hx1, if_true]
        rw [if_neg (by decide)]
        rw [hx2]
        exact leafSet_ok (hs' (by simp))
      rcases serIdentity_text (mod := m.module_) (ids := ids) (s := s) with e | ⟨q, hq, e⟩
      · rw [e]
        exact hread s hs1 (by rw [if_neg hc])
      · rw [e]
        refine hread _ (by simp) ?_
        rw [if_pos (by simp), dropWhile_colon (hm q hq)]
    · obtain ⟨_, _, h3, _, _, h6, _⟩ := typedef_names ha
      simp only [xleafText, leafJ, if_neg h3, PyVal.toStr, someText_ne hs1]
      exact xmlSet_text h6 h3 (hs' (by simp))
  | bool name b ha =>
    have : ((YTy.bool name).cls rx d).set (.str (if b then py!"true" else py!"false")) = .ok (.bool b) := by cases b <;> rfl
    exact xmlSet_text (name_not ha _ (by decide) (by decide)) (name_not ha _ (by decide) (by decide)) this
  | empty name ha =>
    by_cases e : name = py!"empty"
    · subst e
      simp only [xleafText, if_true, xmlSet, Bool.false_eq_true, if_false, YTy.cls, YTy.name]
      exact leafSet_ok (hs' (by simp))
    · have : ((YTy.empty name).cls rx d).set (.str py!"true") = .ok (.bool true) := rfl
      simp only [xleafText, if_neg e]
      exact xmlSet_text e (name_not ha _ (by decide) (by decide)) this
  | ext name x o ha hx' =>
    obtain ⟨h1, h2⟩ := ext_names ha
    simp only [xleafText, someText_ne hne]
    rw [ext_textOf]
    exact xmlSet_text h1 h2 (ext_set (ext_call_text hx'))

/-- A leaf of a union. -/
theorem xunion {rx : Str → Str → Bool} {nsOf : Str → Str} {m : Meta} {u : UTy} {pre : List YTy} {t : YTy} {v : PyVal}
    {d : Option PyVal} (h : MemberValue rx u pre t v) (hx : InXml t v) (hf : ∀ s ∈ pre, ¬ Accepts rx s (.str (xmlTextOf v)))
    (hne : xmlTextOf v ≠ []) :
    xmlLeaf nsOf m (u.cls rx d) v true = .ok (.elem m.ns m.name [] (some (xmlTextOf v)) []) ∧
      ∀ own c, xmlSet (u.cls rx d) own false c (some (xmlTextOf v)) = ⟨.leaf v true, [own, none], none⟩ := by
  have hser := serLeaf_union (ietf := true) (mod := m.module_) (d := d) h
  obtain ⟨_, he, hi⟩ := serVal_union (ietf := true) (mod := m.module_) (A := t.ser) (v := v) h.name
  have he' : (u.cls rx d).yangType ≠ py!"empty" := he
  have hi' : (u.cls rx d).yangType ≠ py!"identityref" := hi
  have hd : xmlDecls nsOf (u.cls rx d) v true = .ok [] := by simp only [xmlDecls, hi', false_and, if_false]
  have hcall : t.ty.call rx (.str (xmlTextOf v)) = .ok v := by
    have hs := h.same
    cases h.value with
    | int name t chain lo hi n ha hb hl hn => exact int_call hb hl hn (C09_decimal_text_denotes n)
    | str name T s ha => exact hs
    | ident name ids s ha hin hc hm => exact hs
    | bool name b ha => cases b <;> rfl
    | empty name ha => rfl
    | ext name x => exact absurd rfl (h.plain name x)
  have ht : scalarText (unionJ true t v) = .ok (some (xmlTextOf v)) := by
    cases h.value with
    | int name t chain lo hi n ha hb hl hn =>
      have e : xmlText (intStr n) = .ok (some (intStr n)) := by rw [xmlText_int n]
      simp only [unionJ]
      split <;> exact e
    | str name T s ha =>
      have hs1 : s ≠ [] := fun e => hne (by rw [e]; rfl)
      simp [unionJ, scalarText, xmlText, PyVal.toStr, xmlTextOf, hx.1 s rfl, hs1]
    | ident name ids s ha hin hc hm =>
      have hs1 : s ≠ [] := fun e => hne (by rw [e]; rfl)
      simp [unionJ, scalarText, xmlText, PyVal.toStr, xmlTextOf, hx.1 s rfl, hs1]
    | bool name b ha => cases b <;> rfl
    | empty name ha => rfl
    | ext name x => exact absurd rfl (h.plain name x)
  refine ⟨?_, ?_⟩
  · simp only [xmlLeaf, hd, xmlVal, he', if_false, hser, ht, bind, Except.bind, pure, Except.pure]
  · intro own c
    exact xmlSet_text he' hi' (union_set h.pos hcall hf)

theorem xleafBack_holds {rx : Str → Str → Bool} {nsOf : Str → Str} {m : Meta} {L : LeafCls} {v : PyVal} (h : XmlHolds rx L v)
    (hne : xmlTextOf v ≠ []) : XLeafBack nsOf m L v := by
  rcases h with ⟨t, d, rfl, hs, hx⟩ | ⟨u, d, pre, t, rfl, h, hx, hf⟩
  · exact xleafBack_value hs hx hne
  · exact ⟨_, _, xunion h hx hf hne⟩

/-! ## Leaf-lists -/

theorem xmlAppend_ok {infer : Str → PyVal} {L : LLCls} {own : Option Choice} {p : List PyVal} {ch : Bool} {t : Option Str} {w : PyVal}
    (h1 : L.conv (pyval infer t) = some w) (h2 : pyIn (pyval infer t) p = false) :
    xmlAppend infer L own p ch t = ⟨.leafList (p ++ [w]) true, [own], none⟩ := by
  simp [xmlAppend, llApply, llStep, llMarks, tlAppend, tlCheck, h1, h2]

/-- The second attempt. -/
theorem xmlAppend_again {infer : Str → PyVal} {L : LLCls} {own : Option Choice} {p : List PyVal} {ch : Bool} {t : Option Str} {w : PyVal}
    (hp : L.plainStr = true) (h1 : L.conv (pyval infer t) = none) (h0 : pyIn (pyval infer t) p = false)
    (h2 : L.conv (.str (pyval infer t).toStr) = some w) (h3 : pyIn (.str (pyval infer t).toStr) p = false) :
    xmlAppend infer L own p ch t = ⟨.leafList (p ++ [w]) true, [own, own], none⟩ := by
  simp [xmlAppend, llApply, llStep, llMarks, tlAppend, tlCheck, h1, h2, h0, h3, hp]

/-- The text of an element of a leaf-list. -/
def elText : YTy → PyVal → Option Str
  | .bool _, v => some (if v.truthy then py!"1" else py!"0")
  | _, v => someText v.toStr

theorem elText_value {rx : Str → Str → Bool} {mod : Str} {t : YTy} {v : PyVal} {u : Bool} {tx : List PyVal → Str}
    (h : StoredElem rx t v) (hx : InXml t v) (ho : ∀ o, v ≠ .obj o) :
    ∃ j, serElem true mod (t.llCls rx u tx) v = .ok j ∧ elemText j = .ok (elText t v) := by
  refine ⟨_, serElem_value h, ?_⟩
  obtain ⟨hv, hne, _⟩ := h
  cases hv with
  | int name t chain lo hi n ha hb hl hn =>
    simp only [elemJ, elText, PyVal.toStr, someText_ne (intStr_xml n).2]
    split <;> exact xmlText_int n
  | str name T s ha => exact xmlText_ok (hx.1 s rfl)
  | ident name ids s ha hs hc hm => exact xmlText_ok (hx.1 s rfl)
  | bool name b ha => cases b <;> rfl
  | empty name ha => exact absurd rfl (hne.1 name)
  | ext name x o => exact absurd rfl (ho o)

theorem intStr_small : intStr 1 = py!"1" ∧ intStr 0 = py!"0" := ⟨rfl, rfl⟩

theorem xelem_step {rx : Str → Str → Bool} {infer : Str → PyVal} (hi : Objectify infer) {t : YTy} {v : PyVal} {u : Bool}
    {tx : List PyVal → Str} {p : List PyVal} (h : StoredElem rx t v) (hx : InXml t v) (ht : Untyped infer t v)
    (hp : ∀ w ∈ p, StoredElem rx t w ∧ pyEq w v = false) (own : Option Choice) (ch : Bool) :
    ∃ sg, xmlAppend infer (t.llCls rx u tx) own p ch (elText t v) = ⟨.leafList (p ++ [v]) true, own :: sg, none⟩ ∧ ∀ x ∈ sg, x = own := by
  have hc' : (t.llCls rx u tx).conv v = some v := h.2.2
  have hin : ∀ x, (∀ w ∈ p, pyEq w x = false) → pyIn x p = false := by
    intro x hw
    simp only [pyIn, List.any_eq_false]
    intro w hw'
    rw [hw w hw']
    simp
  have hself : pyIn v p = false := hin v fun w hw => (hp w hw).2
  have fin : ∀ x, pyval infer (elText t v) = x → (t.llCls rx u tx).conv x = some v → (∀ w ∈ p, pyEq w x = false) →
      ∃ sg, xmlAppend infer (t.llCls rx u tx) own p ch (elText t v) = ⟨.leafList (p ++ [v]) true, own :: sg, none⟩ ∧ ∀ x ∈ sg, x = own := by
    intro x e h1 h2
    exact ⟨[], xmlAppend_ok (by rw [e]; exact h1) (by rw [e]; exact hin x h2), by simp⟩
  obtain ⟨hv, hne, _⟩ := h
  cases hv with
  | int name t chain lo hi' n ha hb hl hn =>
    exact fin (.int n) (pyval_int hi n) hc' fun w hw => (hp w hw).2
  | str name T s ha =>
    rcases ht.1 s rfl with rfl | h1 | ⟨h1, n, rfl⟩
    · exact fin (.str []) rfl hc' fun w hw => (hp w hw).2
    · exact fin (.str s) (pyval_str h1) hc' fun w hw => (hp w hw).2
    · have hT : T = .base .str := by
        cases T with
        | base b => cases b <;> simp [YTy.isStr] at h1; rfl
        | restr _ _ => simp [YTy.isStr] at h1
      subst hT
      have hpv : pyval infer (elText (.str name (.base .str)) (.str (intStr n))) = .int n := pyval_int hi n
      refine ⟨[own], xmlAppend_again rfl (by rw [hpv]; rfl) ?_ (by rw [hpv]; exact hc') (by rw [hpv]; exact hself), by simp⟩
      rw [hpv]
      refine hin _ fun w hw => ?_
      have hw' : ∃ x, w = .str x := by
        generalize ht' : YTy.str name (RTy.base .str) = t' at hp
        obtain ⟨⟨hw1, _⟩, _⟩ := hp w hw
        cases hw1 <;> simp at ht'
        exact ⟨_, rfl⟩
      obtain ⟨x, rfl⟩ := hw'
      simp [pyEq, PyVal.num?]
  | ident name ids s ha hs hc hm =>
    rcases ht.1 s rfl with rfl | h1 | ⟨h1, n, rfl⟩
    · exact fin (.str []) rfl hc' fun w hw => (hp w hw).2
    · exact fin (.str s) (pyval_str h1) hc' fun w hw => (hp w hw).2
    · simp [YTy.isStr] at h1
  | bool name b ha =>
    refine fin (.int (if b then 1 else 0)) ?_ (by cases b <;> rfl) ?_
    · cases b
      · exact hi.int 0
      · exact hi.int 1
    · intro w hw
      obtain ⟨h1, h2⟩ := hp w hw
      have := elem_apart (repr := fun _ => []) ⟨.bool name b ha, hne, hc'⟩ h1 h2
      cases b <;> exact this
  | empty name ha => exact absurd rfl (hne.1 name)
  | ext name x o => exact absurd rfl (ht.2 o)

theorem xleafListBack_value {rx : Str → Str → Bool} {infer : Str → PyVal} (hi : Objectify infer) {m : Meta} {t : YTy} {u : Bool}
    {tx : List PyVal → Str} {vs : List PyVal} (h : ∀ v ∈ vs, StoredElem rx t v ∧ InXml t v ∧ Untyped infer t v)
    (hp : vs.Pairwise fun a b => pyEq a b = false) : XLeafListBack infer m (t.llCls rx u tx) vs := by
  intro p v s e
  subst e
  obtain ⟨h1, h2, h3⟩ := h v (by simp)
  obtain ⟨j, e1, e2⟩ := elText_value (mod := m.module_) (u := u) (tx := tx) h1 h2 h3.2
  refine ⟨j, _, e1, e2, fun own ch => xelem_step hi h1 h2 h3 ?_ own ch⟩
  intro w hw
  rw [List.pairwise_append] at hp
  exact ⟨(h w (by simp [hw])).1, hp.2.2 w hw v (by simp)⟩

theorem xelem_union {rx : Str → Str → Bool} {infer : Str → PyVal} (hi : Objectify infer) {u : UTy} {pre : List YTy} {t : YTy} {v : PyVal} {b : Bool}
    {tx : List PyVal → Str} {p : List PyVal} (h : ElemMember rx u pre t v) (ht : UntypedIn rx infer u t v)
    (hp : ∀ w ∈ p, (∃ pre' t', ElemMember rx u pre' t' w) ∧ pyEq w v = false) (own : Option Choice) (ch : Bool) :
    ∃ sg, xmlAppend infer (u.llCls rx b tx) own p ch (elText t v) = ⟨.leafList (p ++ [v]) true, own :: sg, none⟩ ∧ ∀ x ∈ sg, x = own := by
  have hin : ∀ x, (∀ w ∈ p, pyEq w x = false) → pyIn x p = false := by
    intro x hw
    simp only [pyIn, List.any_eq_false]
    intro w hw'
    rw [hw w hw']
    simp
  have hself : pyIn v p = false := hin v fun w hw => (hp w hw).2
  have hc' : (u.llCls rx b tx).conv v = some v := union_conv h.pos h.elem.2.2 h.first
  have fin : ∀ x, pyval infer (elText t v) = x → (u.llCls rx b tx).conv x = some v → (∀ w ∈ p, pyEq w x = false) →
      ∃ sg, xmlAppend infer (u.llCls rx b tx) own p ch (elText t v) = ⟨.leafList (p ++ [v]) true, own :: sg, none⟩ ∧ ∀ x ∈ sg, x = own := by
    intro x e h1 h2
    exact ⟨[], xmlAppend_ok (by rw [e]; exact h1) (by rw [e]; exact hin x h2), by simp⟩
  have hpos := h.pos
  have hread := elem_read_union (repr := fun _ => []) (b := b) (tx := tx) h
  have hapart : ∀ w ∈ p, pyEq w (jPy (fun _ => []) (elemJ t v)) = false := by
    intro w hw
    obtain ⟨⟨pre', t', h'⟩, hd⟩ := hp w hw
    exact elem_apart_union h h' hd
  have hpl := h.plain
  obtain ⟨hv, hne, _⟩ := h.elem
  cases hv with
  | int name t chain lo hi' n ha hb hl hn =>
    exact fin (.int n) (pyval_int hi n) hc' fun w hw => (hp w hw).2
  | str name T s ha =>
    rcases ht s rfl with rfl | h1 | ⟨h1, n, rfl, hno⟩
    · exact fin (.str []) rfl hc' fun w hw => (hp w hw).2
    · exact fin (.str s) (pyval_str h1) hc' fun w hw => (hp w hw).2
    · have hpv : pyval infer (elText (.str name T) (.str (intStr n))) = .int n := pyval_int hi n
      have hnone : (u.llCls rx b tx).conv (.int n) = none := by
        show elemConv rx (u.members.map YTy.ty) (.int n) = none
        rw [elemConv, List.findSome?_eq_none_iff]
        intro s hs
        obtain ⟨s, hs', rfl⟩ := List.mem_map.1 hs
        cases hc : elemCheck rx s.ty (.int n) with
        | none => rfl
        | some y => exact absurd ⟨y, by rw [conv_one]; exact hc⟩ (hno s hs')
      have hplain : (u.llCls rx b tx).plainStr = true := by
        obtain ⟨post, hpos⟩ := hpos
        show u.members.any YTy.isStr = true
        rw [hpos, List.any_append, List.any_cons, h1]
        simp
      refine ⟨[own], xmlAppend_again hplain (by rw [hpv]; exact hnone) ?_ (by rw [hpv]; exact hc') (by rw [hpv]; exact hself), by simp⟩
      rw [hpv]
      refine hin _ fun w hw => ?_
      obtain ⟨⟨pre', t', h'⟩, hd⟩ := hp w hw
      obtain ⟨post', hpos'⟩ := h'.pos
      have hno' := hno t' (by rw [hpos']; simp)
      have hpl' := h'.plain
      have hsm := h'.elem
      obtain ⟨hv', hne', hcv'⟩ := hsm
      cases hv' with
      | ext name x => exact absurd rfl (hpl' name x)
      | int name t chain lo hi' k =>
        by_cases e : k = n
        · subst e; exact absurd ⟨_, hcv'⟩ hno'
        · simp [pyEq, PyVal.num?, e]
      | str name T s => simp [pyEq, PyVal.num?]
      | ident name ids s => simp [pyEq, PyVal.num?]
      | bool name c =>
        by_cases e : n = if c then 1 else 0
        · subst e
          cases c <;> exact absurd ⟨_, rfl⟩ hno'
        · cases c <;> simp [pyEq, PyVal.num?] at e ⊢ <;> exact fun e' => e e'.symm
      | empty name => exact absurd rfl (hne'.1 name)
  | ident name ids s ha hs hc hm =>
    rcases ht s rfl with rfl | h1 | ⟨h1, n, rfl, _⟩
    · exact fin (.str []) rfl hc' fun w hw => (hp w hw).2
    · exact fin (.str s) (pyval_str h1) hc' fun w hw => (hp w hw).2
    · simp [YTy.isStr] at h1
  | bool name c ha =>
    refine fin (.int (if c then 1 else 0)) ?_ ?_ ?_
    · cases c
      · exact hi.int 0
      · exact hi.int 1
    · cases c <;> exact hread
    · cases c <;> exact hapart
  | empty name ha => exact absurd rfl (hne.1 name)
  | ext name x o => exact absurd rfl (hpl name x)

theorem xleafListBack_union {rx : Str → Str → Bool} {infer : Str → PyVal} (hi : Objectify infer) {m : Meta} {u : UTy} {b : Bool}
    {tx : List PyVal → Str} {vs : List PyVal} (h : ∀ v ∈ vs, ∃ pre t, ElemMember rx u pre t v ∧ InXml t v ∧ UntypedIn rx infer u t v)
    (hp : vs.Pairwise fun a b => pyEq a b = false) : XLeafListBack infer m (u.llCls rx b tx) vs := by
  intro p v s e
  subst e
  obtain ⟨pre, t, h1, h2, h3⟩ := h v (by simp)
  obtain ⟨j, e1, e2⟩ := elText_value (mod := m.module_) (u := b) (tx := tx) h1.elem h2 (elem_noObj h1)
  refine ⟨j, _, by rw [serElem_union h1]; exact e1, e2, fun own ch => xelem_union hi h1 h3 ?_ own ch⟩
  intro w hw
  rw [List.pairwise_append] at hp
  obtain ⟨pre', t', h', _⟩ := h w (by simp [hw])
  exact ⟨⟨pre', t', h'⟩, hp.2.2 w hw v (by simp)⟩

/-! ## Keys -/

theorem str_set_int {rx : Str → Str → Bool} {name : Str} {n : Int} {d : Option PyVal} :
    ((YTy.str name (.base .str)).cls rx d).set (.int n) = .ok (.str (intStr n)) := rfl

theorem xkey_read {rx : Str → Str → Bool} {infer : Str → PyVal} (hi : Objectify infer) {mod : Str} {t : YTy} {v : PyVal}
    (h : KeyVal rx mod t v) (ht : Untyped infer t v) :
    (t.cls rx).set (pyval infer (xleafText mod t v)) = .ok v ∧ (pyval infer (xleafText mod t v)).toStr = v.toStr := by
  have h0 := h
  obtain ⟨hne, ⟨hv, hs⟩, hid⟩ := h
  replace hs := hs hne.2
  have strs : ∀ s, v = .str s → xleafText mod t v = someText s → (t.cls rx).set (pyval infer (xleafText mod t v)) = .ok v ∧
      (pyval infer (xleafText mod t v)).toStr = v.toStr := by
    rintro s rfl e
    rw [e]
    rcases ht.1 s rfl with rfl | h1 | ⟨h1, n, rfl⟩
    · exact ⟨hs, rfl⟩
    · rw [pyval_str h1]
      exact ⟨hs, rfl⟩
    · have hT : ∃ name, t = .str name (.base .str) := by
        cases t with
        | str name T =>
          cases T with
          | base b => cases b <;> simp [YTy.isStr] at h1; exact ⟨_, rfl⟩
          | restr _ _ => simp [YTy.isStr] at h1
        | _ => simp [YTy.isStr] at h1
      obtain ⟨name, rfl⟩ := hT
      rw [pyval_int hi n]
      exact ⟨str_set_int, rfl⟩
  cases hv with
  | int name t chain lo hi' n ha hb hl hn =>
    have : pyval infer (xleafText mod (.int name t (chain.map rangeText)) (.int n)) = .int n := by
      simp [xleafText, PyVal.toStr, pyval, hi.int]
    rw [this]
    exact ⟨hs, rfl⟩
  | str name T s ha => exact strs s rfl rfl
  | ident name ids s ha hin hc hm =>
    refine strs s rfl ?_
    simp only [xleafText, key_ident h0]
  | bool name b ha =>
    cases b
    · rw [show pyval infer (xleafText mod (.bool name) (.bool false)) = .bool false from hi.ff]
      exact ⟨hs, rfl⟩
    · rw [show pyval infer (xleafText mod (.bool name) (.bool true)) = .bool true from hi.tt]
      exact ⟨hs, rfl⟩
  | empty name ha => exact absurd rfl (hne.1 name)
  | ext name x o => exact absurd rfl (hne.2 name x)

theorem xkeyRaw_leaf {rx : Str → Str → Bool} {nsOf : Str → Str} {infer : Str → PyVal} {kids : List (Meta × Schema)} {ns : List Inst}
    {i : Nat} {m : Meta} {t : YTy} {d : Option PyVal} {v : PyVal} (hk : kids[i]? = some (m, .leaf (t.cls rx d)))
    (hn : ns[i]? = some (.leaf v true)) (h : Stored rx t v) (hx : InXml t v) :
    xkeyRaw nsOf infer kids ns i = pyval infer (xleafText m.module_ t v) := by
  obtain ⟨ds, hw⟩ := xmlLeaf_value (rx := rx) nsOf (m := m) (d := d) h.1 hx
  simp only [xkeyRaw, hk, hn, hw, Xml.text]

theorem xgoodKeys_of {rx : Str → Str → Bool} {nsOf : Str → Str} {infer : Str → PyVal} (hi : Objectify infer) {ns : Str} {info : ListInfo}
    {kids : List (Meta × Schema)} {es : List (PyVal × Inst)} (hne : info.keys ≠ []) (hnd : info.keys.Nodup)
    (hleaf : ∀ i ∈ info.keys, XKeyLeaf rx infer ns kids es i)
    (hap : es.Pairwise fun a b => Spec.keyText (info.keys.map (valAt a.2.kids)) ≠ Spec.keyText (info.keys.map (valAt b.2.kids))) :
    XGoodKeys nsOf infer ns info kids es := by
  have htexts : ∀ q ∈ es, (info.keys.map (xkeyRaw nsOf infer kids q.2.kids)).map PyVal.toStr =
      (info.keys.map (valAt q.2.kids)).map PyVal.toStr := by
    intro q hq
    rw [List.map_map, List.map_map]
    refine List.map_congr_left fun i hi' => ?_
    obtain ⟨m, t, d, hk, hm, hne, hv⟩ := hleaf i hi'
    obtain ⟨v, hn, hs, hx, ht, hid⟩ := hv q hq
    simp only [Function.comp]
    rw [xkeyRaw_leaf hk hn hs hx, (xkey_read hi ⟨hne, hs, hid⟩ ht).2]
    simp [valAt, hn]
  refine ⟨hne, hnd, ?_, ?_⟩
  · intro q hq i hi'
    obtain ⟨m, t, d, hk, hm, hne, hv⟩ := hleaf i hi'
    obtain ⟨v, hn, hs, hx, ht, hid⟩ := hv q hq
    obtain ⟨ds, hw⟩ := xmlLeaf_value (rx := rx) nsOf (m := m) (d := d) hs.1 hx
    refine ⟨m, _, v, hk, hn, hm, ⟨_, hw⟩, ?_⟩
    rw [xkeyRaw_leaf hk hn hs hx]
    exact (xkey_read hi ⟨hne, hs, hid⟩ ht).1
  · refine hap.imp_of_mem ?_
    intro a b ha hb hab
    simp only [Spec.keyText, htexts a ha, htexts b hb]
    exact hab

/-! ## Trees -/

theorem xmlReady_of {rx : Str → Str → Bool} {nsOf : Str → Str} {infer : Str → PyVal} (hi : Objectify infer) {m : Meta} {S : Schema}
    {n : Inst} (h : XmlOrderly rx infer m S n) : XmlReady nsOf infer m S n := by
  cases S <;> cases n <;> simp only [XmlOrderly] at h <;> simp only [XmlReady]
  · intro hc
    exact xleafBack_holds (h hc).1 (h hc).2
  · refine ⟨h.1, fun hv => ?_⟩
    obtain ⟨hc, ⟨t, u, tx, rfl, hall⟩ | ⟨u, b, tx, rfl, hall⟩, hp⟩ := h.2 hv
    · exact ⟨hc, xleafListBack_value hi hall hp⟩
    · exact ⟨hc, xleafListBack_union hi hall hp⟩
  · exact h
  · refine ⟨h.1, h.2.1, fun he => ?_⟩
    obtain ⟨h1, h2, h3, h4⟩ := h.2.2 he
    exact xgoodKeys_of hi h1 h2 h3 h4

/-- Values ready and a reachable tree: everything ready. -/
theorem xmlOrderly_of {rx : Str → Str → Bool} {infer : Str → PyVal} : ∀ (S : Schema) (m : Meta) (n : Inst), Sound S n →
    Every (XmlValues rx infer) m S n → Every (XmlOrderly rx infer) m S n := by
  intro S
  induction S using Schema.ind with
  | hleaf L =>
    intro m n hs h
    cases hs.pres
    exact h
  | hll L =>
    intro m n hs h
    cases hs.vals with
    | leafList _ vs ch hv => exact ⟨h.1, fun hne => ⟨hv.1 hne, h.2 hne⟩⟩
  | hcont pres kids ih =>
    intro m n hs h
    obtain ⟨ch, pr, ns, rfl, hl⟩ := sound_cont hs
    simp only [Every] at h ⊢
    refine ⟨⟨hs.oneCase, h.1, ?_⟩, ?_⟩
    · rintro rfl rfl
      exact hs.absent
    · rw [everyKids_iff] at h ⊢
      exact ⟨h.2.1, fun i k c hk hc => ih k (List.mem_of_getElem? hk) _ _ (hs.kid hk hc) (h.2.2 i k c hk hc)⟩
  | hlist info kids ih =>
    intro m n hs h
    have hl : ∃ ch es, n = .list ch es := by
      cases hs.pres with
      | list _ _ ch es _ => exact ⟨ch, es, rfl⟩
    obtain ⟨ch, es, rfl⟩ := hl
    simp only [Every] at h ⊢
    refine ⟨⟨h.1.1, ?_, h.1.2⟩, ?_⟩
    · intro q hq
      have hq' := hs.entry hq
      obtain ⟨_, _, ns, e, _⟩ := sound_cont hq'
      rw [e] at hq' ⊢
      exact hq'.oneCase
    · intro q hq
      have hq' := hs.entry hq
      obtain ⟨_, _, ns, e, _⟩ := sound_cont hq'
      have h2 := h.2 q hq
      rw [e] at hq' h2 ⊢
      simp only [Inst.kids] at h2 ⊢
      rw [everyKids_iff] at h2 ⊢
      exact ⟨h2.1, fun i k c hk hc => ih k (List.mem_of_getElem? hk) _ _ (hq'.kid hk hc) (h2.2 i k c hk hc)⟩

end Pyb
