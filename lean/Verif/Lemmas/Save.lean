import Verif.Spec.Save
import Verif.Lemmas.JsonTypes
import Verif.Lemmas.KeyInv
import Verif.Lemmas.Gen

namespace Pyb
open Py Spec

/-! ## Integers -/

theorem trunc_zero (e : Int) : (Dec.mk 0 e).trunc = 0 := by
  simp [Dec.trunc]

theorem toInt_falsy {x : PyVal} {n : Int} (hx : x.truthy = false) (h : x.toInt = .ok n) : n = 0 := by
  cases x with
  | none => simp [PyVal.toInt] at h
  | bool b => cases b <;> simp [PyVal.toInt, PyVal.truthy] at h hx; exact h.symm
  | int m => simp [PyVal.toInt, PyVal.truthy] at h hx; omega
  | str s =>
    have hs : s = [] := by simpa [PyVal.truthy] using hx
    subst hs
    have : intOfStr [] = .error .valueError := by decide
    simp [PyVal.toInt, this] at h
  | seq a b => simp [PyVal.toInt] at h
  | obj o =>
    cases o with
    | dec x =>
      simp [PyVal.toInt, PyVal.truthy, PyObj.toInt, PyObj.truthy] at h hx
      obtain ⟨c, e⟩ := x
      simp only at hx
      subst hx
      rw [← h, trunc_zero]
    | float f r =>
      simp [PyVal.toInt, PyVal.truthy, PyObj.toInt, PyObj.truthy] at h hx
      obtain ⟨c, e⟩ := f
      simp only at hx
      subst hx
      rw [← h]
      simp only [decOfFloat, Int.zero_mul]
      split <;> exact trunc_zero _
    | bytes b =>
      have hs : b = [] := by simpa [PyVal.truthy, PyObj.truthy] using hx
      subst hs
      have : intOfStr [] = .error .valueError := by decide
      simp [PyVal.toInt, PyObj.toInt, PyObj.asciiText, this] at h
    | bits ns => simp [PyVal.toInt, PyObj.toInt] at h

theorem call_new {rx : Str → Str → Bool} {chain : List (List WrittenPart)} {a : Option PyVal} {w : PyVal}
    (h : ((towerOf chain).cls rx).call a = .ok w) : ∃ t, ((towerOf chain).cls rx).new a = .ok (w, t) := by
  cases hn : ((towerOf chain).cls rx).new a with
  | error e => rw [call_of_new_error hn] at h; simp at h
  | ok p =>
    cases chain with
    | nil =>
      cases a with
      | none => simp [towerOf, RTy.cls, Except.map] at h hn; subst h; exact ⟨p.2, by rw [← hn]⟩
      | some v =>
        simp only [towerOf, RTy.cls] at h hn
        rw [h] at hn
        simp [Except.map] at hn
        exact ⟨p.2, by rw [← hn]⟩
    | cons ws rest =>
      simp only [towerOf, RTy.cls] at h hn
      rw [hn] at h
      simp only [bind, Except.bind] at h
      split at h
      · simp at h
      · simp [pure, Except.pure] at h
        exact ⟨p.2, by rw [← h]⟩

/-- `__new__` of the base class, as a restricted class calls it. -/
def newInner (C : Cls) (a : Option PyVal) : Except Err (PyVal × Option (List Test)) :=
  match C.new a with
  | .error .typeError => C.new none
  | r => r

theorem restr_new {rx : Str → Str → Bool} {inner : RTy} {rs : List Restr} {a : Option PyVal} {o t}
    (h : ((RTy.restr inner rs).cls rx).new a = .ok (o, t)) : ∃ t', newInner (inner.cls rx) a = .ok (o, t') := by
  rw [RTy.cls] at h
  simp only [bind, Except.bind] at h
  unfold newInner
  cases hb : buildTests (fun v => (inner.cls rx).call (some v)) rs (a.getD (.bool false)) with
  | error e => rw [hb] at h; simp at h
  | ok q =>
    rw [hb] at h
    cases hq : anyOf rx q.1 q.2 with
    | error e =>
      cases hn : (inner.cls rx).new a with
      | ok p => simp [hq, hn, pure, Except.pure] at h ⊢; split at h <;> simp at h; exact ⟨p.2, by rw [← h.1]⟩
      | error e' =>
        cases h0 : (inner.cls rx).new none <;> cases e' <;> simp [hq, hn, h0, pure, Except.pure] at h ⊢ <;> split at h <;> simp at h
        rename_i p _
        exact ⟨p.2, by rw [← h.1]⟩
    | ok c =>
      cases hn : (inner.cls rx).new a with
      | ok p => cases c <;> simp [hq, hn, pure, Except.pure] at h ⊢ <;> (try split at h) <;> first
          | exact ⟨_, Prod.ext h.1 rfl⟩
          | (simp at h; done)
          | (simp at h; exact ⟨_, Prod.ext h.1 rfl⟩)
      | error e' =>
        cases h0 : (inner.cls rx).new none <;> cases e' <;> cases c <;> simp [hq, hn, h0, pure, Except.pure] at h ⊢ <;> (try split at h) <;> first
          | exact ⟨_, Prod.ext h.1 rfl⟩
          | (simp at h; done)
          | (simp at h; exact ⟨_, Prod.ext h.1 rfl⟩)

/-- What the class of a chain makes of a value is in all the ranges, or zero. -/
theorem tower_new {rx : Str → Str → Bool} : ∀ {chain : List (List WrittenPart)}, LegalChain chain → InType chain 0 → ∀ {x o : PyVal} {t},
    ((towerOf chain).cls rx).new (some x) = .ok (o, t) → ∃ n, o = .int n ∧ InType chain n ∧ (x.truthy = false → n = 0) := by
  intro chain
  induction chain with
  | nil =>
    intro _ _ x o t h
    simp only [towerOf, RTy.cls, BaseTy.conv] at h
    cases hx : x.toInt with
    | error e => simp [hx, Except.map] at h
    | ok n =>
      simp [hx, Except.map] at h
      exact ⟨n, h.1.symm, fun ws hws => by simp at hws, fun hf => toInt_falsy hf hx⟩
  | cons ws rest ih =>
    intro hl h0 x o t h
    have F := towerFacts rx rest hl.2.2.2
    have h0r : InType rest 0 := fun w hw => h0 w (List.mem_cons_of_mem _ hw)
    have ih := @ih hl.2.2.2 h0r
    have hm : (genSpecs (rangeText ws)).mapM (buildChk fun v => ((towerOf rest).cls rx).call (some v)) = .ok (ws.map fun w => chkOf w.part) :=
      build_layer _ ws hl.1 (fun w hw' b hbm => F.callOk _ _ (isNum_intStr b) (hl.2.1 w hw' b hbm))
    have zero : ∀ n : Int, n = 0 → InType (ws :: rest) n := by rintro _ rfl; exact h0
    -- what is passed down
    have down : (∃ t'', ((towerOf rest).cls rx).new (some x) = .ok (o, t'')) ∨ o = .int 0 := by
      obtain ⟨t', h⟩ := restr_new (inner := towerOf rest) h
      unfold newInner at h
      split at h
      · rw [F.newNone] at h; simp at h; exact .inr h.1.symm
      · exact .inl ⟨_, h⟩
    by_cases hx : x.truthy = true
    · rw [show towerOf (ws :: rest) = .restr (towerOf rest) [.range (genSpecs (rangeText ws))] from rfl, RTy.cls] at h
      simp only [Option.getD_some] at h
      cases hc : ((towerOf rest).cls rx).call (some x) with
      | error e => rw [buildTests_range_fail _ ws x e hm hx hc] at h; simp [bind, Except.bind] at h
      | ok w =>
        obtain ⟨t', hw⟩ := call_new hc
        obtain ⟨n, rfl, hn, _⟩ := ih hw
        rw [buildTests_range _ ws x (.int n) hm (fun _ => hc) (fun h => by rw [hx] at h; simp at h)] at h
        simp only [bind, Except.bind, ne_eq, reduceCtorEq, not_false_eq_true, if_true, anyOf, Test.run,
          rangeCheck_int n ws hl.2.2.1] at h
        by_cases ha : Allowed ws n
        · simp only [ha, decide_true, if_true, hw, pure, Except.pure, Except.ok.injEq, Prod.mk.injEq] at h
          refine ⟨n, h.1.symm, ?_, fun hf => by rw [hx] at hf; simp at hf⟩
          intro l hm'
          rcases List.mem_cons.1 hm' with rfl | hm'
          · exact ha
          · exact hn l hm'
        · simp [ha] at h
    · have hx : x.truthy = false := by simpa using hx
      rcases down with ⟨t', h'⟩ | rfl
      · obtain ⟨n, rfl, hn, hz⟩ := ih h'
        exact ⟨n, rfl, zero n (hz hx), hz⟩
      · exact ⟨0, rfl, h0, fun _ => rfl⟩

theorem tower_build {rx : Str → Str → Bool} {chain : List (List WrittenPart)} (hl : LegalChain chain) (h0 : InType chain 0) {x v : PyVal}
    (h : (towerOf chain).build rx x = .ok v) : ∃ n, v = .int n ∧ InType chain n := by
  have F := towerFacts rx chain hl
  unfold RTy.build at h
  have key : ∀ p, newInner ((towerOf chain).cls rx) (some x) = .ok p → ∃ n, p.1 = .int n ∧ InType chain n := by
    intro p hp
    unfold newInner at hp
    split at hp
    · rw [F.newNone] at hp
      simp at hp
      exact ⟨0, by rw [← hp], h0⟩
    · obtain ⟨n, h1, h2, _⟩ := tower_new hl h0 (o := p.1) (t := p.2) hp
      exact ⟨n, h1, h2⟩
  have h : (match newInner ((towerOf chain).cls rx) (some x) with
    | .error e => LeafRes.refused (setterErr e)
    | .ok (o, t) =>
      match (towerOf chain).init rx t (some x) with
      | .ok () => .ok o
      | .error .typeError => .ok o
      | .error e => .marked e) = .ok v := h
  cases hp : newInner ((towerOf chain).cls rx) (some x) with
  | error e => rw [hp] at h; simp at h
  | ok p =>
    rw [hp] at h
    obtain ⟨n, h1, h2⟩ := key p hp
    refine ⟨n, ?_, h2⟩
    rw [← h1]
    simp only at h
    split at h <;> simp at h <;> exact h.symm

theorem builtin_zero {t : IntTy} {lo hi : Int} (hb : builtinBounds t.name = some (lo, hi)) : lo ≤ 0 ∧ 0 ≤ hi := by
  cases t <;> simp [builtinBounds, IntTy.name] at hb <;> omega

theorem inType_split {chain : List (List WrittenPart)} {lo hi n : Int}
    (h : InType (chain ++ [[⟨.span (some lo) (some hi), 0, 0, 0, 0⟩]]) n) : InType chain n ∧ lo ≤ n ∧ n ≤ hi := by
  refine ⟨fun ws hws => h ws (by simp [hws]), ?_⟩
  have := h [⟨.span (some lo) (some hi), 0, 0, 0, 0⟩] (by simp)
  simpa [Allowed, RangePart.Contains] using this

/-- Leaves of safe types hold values of their types, whatever they were set to. -/
theorem safe_set {rx : Str → Str → Bool} {t : YTy} (ht : SafeTy t) {d : Option PyVal} {x v : PyVal} (h : (t.cls rx d).set x = .ok v) :
    Stored rx t v := by
  cases ht with
  | int name t chain lo hi ha hb hl h0 =>
    have h' : (towerOf (chain ++ [[⟨.span (some lo) (some hi), 0, 0, 0, 0⟩]])).build rx x = .ok v := by
      rw [← int_tower hb]; exact h
    obtain ⟨n, rfl, hn⟩ := tower_build hl (inType_append ⟨h0, builtin_zero hb⟩) h'
    have hn := inType_split hn
    exact ⟨.int name t chain lo hi n ha hb hl hn, fun _ => int_set hb hl hn (.inl rfl)⟩
  | str name ha =>
    have h' : (RTy.base .str).build rx x = .ok v := h
    simp [RTy.build, RTy.cls, BaseTy.conv, Except.map, RTy.init] at h'
    subst h'
    refine ⟨.str _ _ _ (.inl ha), fun _ => ?_⟩
    show (RTy.base .str).build rx _ = _
    simp [RTy.build, RTy.cls, BaseTy.conv, Except.map, RTy.init, PyVal.toStr]
  | enum name names ha hat =>
    have h' : (enumTy names).build rx x = .ok v := h
    rw [← toExcept_ok_iff, build_setLeaf, C15_members_exact rx names hat] at h'
    split at h'
    · rename_i hm
      simp at h'
      subst h'
      refine ⟨.str _ _ _ (.inr ha), fun _ => ?_⟩
      show (enumTy names).build rx _ = _
      rw [← toExcept_ok_iff, build_setLeaf, C15_members_exact rx names hat]
      rw [show (PyVal.str x.toStr).toStr = x.toStr from rfl, if_pos hm]
    · simp at h'
  | bool name ha =>
    have h' : LeafTy.bool.build rx x = .ok v := h
    simp only [LeafTy.build] at h'
    cases hb : yangBool x with
    | error e => simp [hb] at h'
    | ok b =>
      simp [hb] at h'
      subst h'
      refine ⟨.bool name b ha, fun _ => ?_⟩
      show LeafTy.bool.build rx _ = _
      cases b <;> rfl

theorem enum_elem {rx : Str → Str → Bool} {names : List Str} (hat : ∀ n ∈ names, startsWith n py!"@" = false) (v : PyVal) :
    elemCheck rx (.restr (enumTy names)) v = if v.toStr ∈ names then some (.str v.toStr) else none := by
  have hf : (names.filter fun k => !startsWith k py!"@") = names := by
    rw [List.filter_eq_self]; intro e he; simp [hat e he]
  have hb : ∀ w, buildTests (fun v => ((RTy.base .str).cls rx).call (some v)) [.dictKey names] w = .ok ([.dictKey names], w) := by
    intro w
    have : buildTests (fun v => ((RTy.base .str).cls rx).call (some v)) [.dictKey names] w =
      .ok ([.dictKey (names.filter fun k => !startsWith k py!"@")], w) := rfl
    rw [this, hf]
  simp only [enumTy, elemCheck, LeafTy.call, RTy.cls, Option.getD_some] at hb ⊢
  rw [hb]
  have ts : ∀ s, (PyVal.str s).toStr = s := fun _ => rfl
  by_cases h2 : v.toStr ∈ names
  · by_cases h1 : v = .bool false
    · subst h1
      simp [bind, Except.bind, allOf, Test.run, pure, Except.pure, BaseTy.conv, Except.map, initCheck, h2, ts, Except.toOption]
    · simp [bind, Except.bind, anyOf, allOf, Test.run, pure, Except.pure, BaseTy.conv, Except.map, initCheck, h1, h2, ts, Except.toOption]
  · by_cases h1 : v = .bool false
    · subst h1
      simp [bind, Except.bind, allOf, Test.run, pure, Except.pure, BaseTy.conv, Except.map, initCheck, h2, ts, Except.toOption]
    · simp [bind, Except.bind, anyOf, Test.run, pure, Except.pure, h1, h2, Except.toOption]

/-- So do leaf-lists. -/
theorem safe_conv {rx : Str → Str → Bool} {t : YTy} (ht : SafeTy t) {u : Bool} {tx : List PyVal → Str} {x v : PyVal}
    (h : (t.llCls rx u tx).conv x = some v) : StoredElem rx t v := by
  have one : elemCheck rx t.ty x = some v := by
    simp only [YTy.llCls, elemConv, List.findSome?] at h
    split at h
    · rename_i hb; rw [hb]; exact h
    · simp at h
  cases ht with
  | int name t chain lo hi ha hb hl h0 =>
    have hs : ∃ inner rs, towerOf (chain ++ [[⟨.span (some lo) (some hi), 0, 0, 0, 0⟩]]) = .restr inner rs := by
      cases chain <;> exact ⟨_, _, rfl⟩
    obtain ⟨inner, rs, e⟩ := hs
    have h' : ((towerOf (chain ++ [[⟨.span (some lo) (some hi), 0, 0, 0, 0⟩]])).cls rx).call (some x) = .ok v := by
      simp only [YTy.ty, int_tower hb, e, elemCheck, LeafTy.call] at one
      rw [e]
      cases hc : ((RTy.restr inner rs).cls rx).call (some x) with
      | error e => simp [hc, Except.toOption] at one
      | ok w => simp [hc, Except.toOption] at one; rw [one]
    obtain ⟨_, h'⟩ := call_new h'
    obtain ⟨n, rfl, hn, _⟩ := tower_new hl (inType_append ⟨h0, builtin_zero hb⟩) h'
    have hn := inType_split hn
    exact ⟨.int name t chain lo hi n ha hb hl hn, ⟨by simp, by simp⟩, int_conv hb hl hn (.inl rfl)⟩
  | str name ha =>
    cases x <;> simp [YTy.ty, elemCheck] at one
    subst one
    exact ⟨.str _ _ _ (.inl ha), ⟨by simp, by simp⟩, rfl⟩
  | enum name names ha hat =>
    have key : ∀ y, elemCheck rx (.restr (enumTy names)) y = if y.toStr ∈ names then some (.str y.toStr) else none := by
      intro y
      exact enum_elem hat y
    simp only [YTy.ty, key] at one
    split at one
    · rename_i hm
      simp at one
      subst one
      refine ⟨.str _ _ _ (.inr ha), ⟨by simp, by simp⟩, ?_⟩
      simp only [YTy.llCls, YTy.ty, elemConv, List.findSome?, key]
      rw [show (PyVal.str x.toStr).toStr = x.toStr from rfl, if_pos hm]
    · simp at one
  | bool name ha =>
    simp only [YTy.ty, elemCheck, LeafTy.call] at one
    cases hb : yangBool x with
    | error e => simp [hb, Except.map, Except.toOption] at one
    | ok b =>
      simp [hb, Except.map, Except.toOption] at one
      subst one
      refine ⟨.bool name b ha, ⟨by simp, by simp⟩, ?_⟩
      cases b <;> rfl

/-! ## Classes -/

/-- What the classes of supported modules are like. -/
def ClsOk (m : Meta) : Schema → Prop
  | .cont _ ks => GoodNames ks
  | .list info ks => GoodNames ks ∧ info.keys ≠ [] ∧ PlainHere info ks ∧ ∀ i ∈ info.keys, ∀ k, ks[i]? = some k → k.1.ns = m.ns
  | _ => True

theorem key_leaf {rx : Str → Str → Bool} {ns : Str} {info : ListInfo} {kids : List (Meta × Schema)} {es : List (PyVal × Inst)} {i : Nat}
    (hi : i ∈ info.keys) (hns : ∀ k, kids[i]? = some k → k.1.ns = ns) (hs : ∃ mi t d, kids[i]? = some (mi, .leaf (YTy.cls rx t d)) ∧ SafeTy t)
    (hk : ∀ q ∈ es, KeyAgrees info kids q.1 q.2) (hc : ∀ q ∈ es, KeyInv (.cont false kids) q.2) : KeyLeaf rx ns kids es i := by
  obtain ⟨mi, t, d, h1, h2⟩ := hs
  refine ⟨mi, t, d, h1, hns _ h1, ?_, ?_⟩
  · cases h2 <;> exact ⟨by simp, by simp⟩
  intro q hq
  obtain ⟨raws, hl, _, hr⟩ := hk q hq
  obtain ⟨p, hp⟩ := List.getElem?_of_mem hi
  have hlt : p < raws.length := by rw [hl]; exact (List.getElem?_eq_some_iff.1 hp).1
  obtain ⟨m', L, v, h3, h4, h5⟩ := hr p i raws[p] hp (List.getElem?_eq_getElem hlt)
  rw [h1] at h3
  simp at h3
  obtain ⟨_, rfl⟩ := h3
  have hkid : q.2.kids[i]? = some (.leaf v true) := by
    have := hc q hq
    generalize q.2 = e at this h4
    cases this with
    | cont _ _ ch pr ns =>
      simp only [nodeAt] at h4
      show ns[i]? = _
      cases hn : ns[i]? with
      | none => simp [hn] at h4
      | some c => simp [hn] at h4; rw [h4]
  refine ⟨v, hkid, safe_set h2 h5, ?_⟩
  rintro ids rfl
  cases h2

theorem attr_mono {a b : List (Meta × Schema)} {p m S} (h : ∀ x ∈ a, x ∈ b) (ha : Attr a p m S) : Attr b p m S := by
  cases ha with
  | here h1 => exact .here (h _ h1)
  | cont h1 h2 => exact .cont (h _ h1) h2
  | list h1 h2 => exact .list (h _ h1) h2

theorem values_ready {rx : Str → Str → Bool} : ∀ (S : Schema) (m : Meta) (n : Inst), ClsOk m S → (∀ p m' S', Attr [(m, S)] p m' S' → ClsOk m' S') →
    ObjInv fromClass S n → KeyInv S n → Every (Kept rx) m S n → Every (ValuesReady rx) m S n := by
  intro S
  induction S using Schema.ind with
  | hleaf L =>
    intro m n _ _ ho _ hk
    cases ho with
    | leaf _ v ch h =>
      intro hch
      rcases hk hch with ⟨t, d, rfl, ht⟩ | hk
      · obtain ⟨x, hx⟩ := h hch
        exact .inl ⟨t, d, rfl, safe_set ht hx⟩
      · exact hk
  | hll L =>
    intro m n _ _ ho _ hk
    cases ho with
    | leafList _ vs ch h =>
      intro hvs
      obtain ⟨h1, h2⟩ := hk hvs
      refine ⟨?_, h2⟩
      rcases h1 with ⟨t, u, tx, rfl, ht⟩ | h1
      · refine .inl ⟨t, u, tx, rfl, fun v hv => ?_⟩
        obtain ⟨x, hx⟩ := h.2 v hv
        exact safe_conv ht hx
      · exact h1
  | hcont pres kids ih =>
    intro m n hQ hA ho hK hk
    cases ho with
    | cont _ _ ch pr ns hlen ho =>
      cases hK with
      | cont _ _ _ _ _ hK =>
        obtain ⟨_, hk⟩ := hk
        refine ⟨hQ, ?_⟩
        rw [everyKids_iff] at hk ⊢
        refine ⟨hk.1, fun i k c hi hc => ?_⟩
        have hm : k ∈ kids := List.mem_of_getElem? hi
        exact ih k hm k.1 c (hA _ _ _ (.cont (List.mem_singleton.2 rfl) (.here hm)))
          (fun p m' S' h => hA _ _ _ (.cont (List.mem_singleton.2 rfl) (attr_mono (by rintro x hx; rw [List.mem_singleton.1 hx]; exact hm) h)))
          (ho i k c hi hc) (hK i k c hi hc) (hk.2 i k c hi hc)
  | hlist info kids ih =>
    intro m n hQ hA ho hK hk
    cases ho with
    | list _ _ ch es ho hpd =>
      cases hK with
      | list _ _ _ _ h1 h2 =>
        obtain ⟨⟨k1, k2, k3⟩, hk⟩ := hk
        obtain ⟨q1, q2, q3, q4⟩ := hQ
        refine ⟨⟨q1, q3.1, ?_, k2, k3⟩, ?_⟩
        · intro i hi
          rcases k1 i hi with h | h
          · exact key_leaf hi (q4 i hi) h (fun q hq => h1 q hq q2) h2
          · exact h
        · intro q hq
          have hk := hk q hq
          have ho := ho q hq
          have hK := h2 q hq
          generalize q.2 = e at hk ho hK
          cases ho with
          | cont _ _ ch pr ns hlen ho =>
            cases hK with
            | cont _ _ _ _ _ hK =>
              simp only [Inst.kids] at hk ⊢
              rw [everyKids_iff] at hk ⊢
              refine ⟨hk.1, fun i k c hi hc => ?_⟩
              have hm : k ∈ kids := List.mem_of_getElem? hi
              exact ih k hm k.1 c (hA _ _ _ (.list (List.mem_singleton.2 rfl) (.here hm)))
                (fun p m' S' h => hA _ _ _ (.list (List.mem_singleton.2 rfl) (attr_mono (by rintro x hx; rw [List.mem_singleton.1 hx]; exact hm) h)))
                (ho i k c hi hc) (hK i k c hi hc) (hk.2 i k c hi hc)

/-! ## The classes of a module -/

mutual
theorem gen_names {o c} : ∀ d, ((genNode o c d).map fun k => k.1.name).Sublist (nodeNames d)
  | .leaf s L => by simp [genNode, nodeNames, Src.meta]
  | .leafList s L => by simp [genNode, nodeNames, Src.meta]
  | .cont s pres kids => by
    simp only [genNode, nodeNames]
    split <;> simp [Src.meta]
  | .list s keys ord kids => by
    simp only [genNode, nodeNames]
    split <;> simp [Src.meta]
  | .choice n cs => by
    simp only [genNode, nodeNames]
    exact gens_case_names cs
  | .case n kids => by simp [genNode, nodeNames]
theorem gens_names {o c} : ∀ ds, ((genNodes o c ds).map fun k => k.1.name).Sublist (dataNames ds)
  | [] => by simp [genNodes, dataNames]
  | d :: ds => by
    simp only [genNodes, dataNames, List.map_append]
    exact (gen_names d).append (gens_names ds)
theorem gen_case_names {o n} : ∀ d, ((genCase o n d).map fun k => k.1.name).Sublist (caseNames d)
  | .case c kids => by simp only [genCase, caseNames]; exact gens_names kids
  | .leaf s L => by simp [genCase, caseNames]
  | .leafList s L => by simp [genCase, caseNames]
  | .cont s pres kids => by simp [genCase, caseNames]
  | .list s keys ord kids => by simp [genCase, caseNames]
  | .choice n cs => by simp [genCase, caseNames]
theorem gens_case_names {o n} : ∀ ds, ((genCases o n ds).map fun k => k.1.name).Sublist (casesNames ds)
  | [] => by simp [genCases, casesNames]
  | d :: ds => by
    simp only [genCases, casesNames, List.map_append]
    exact (gen_case_names d).append (gens_case_names ds)
end

/-- Where a class comes from: its statement, and the choice it is made with, which has no choice
inside. -/
theorem attr_gen {o : Bool} {p m S kids} (h : Attr kids p m S) : ∀ f c, NoNesting f → (c = none ∨ ∀ n cs, ¬ Inside (.choice n cs) f) → kids = genNodes o c f →
    ∃ d n c', Inside d f ∧ dataName d = some n ∧ (m, S) ∈ genNode o c' d ∧ (c' = none ∨ ∀ n cs, ¬ Inside (.choice n cs) (stmts d)) := by
  -- one step
  have one : ∀ {k : Meta × Schema} {f c}, NoNesting f → (c = none ∨ ∀ n cs, ¬ Inside (.choice n cs) f) → k ∈ genNodes o c f →
      ∃ d n c', Inside d f ∧ dataName d = some n ∧ k ∈ genNode o c' d ∧ (c' = none ∨ ∀ n cs, ¬ Inside (.choice n cs) (stmts d)) := by
    intro k f c hN hc hk
    obtain ⟨ch, d, h1, h2⟩ := genNodes_mem.1 hk
    obtain ⟨n, hn⟩ := dataIn_name h1
    refine ⟨d, n, _, dataIn_inside h1, hn, h2, ?_⟩
    rcases dataIn_one hN h1 with rfl | ⟨n', c', cs, g, rfl, h3, h4, h5⟩
    · simp only [innermost, List.getLast?_nil]
      rcases hc with rfl | hc
      · exact .inl rfl
      · exact .inr fun n cs h => hc n cs (inside_trans (dataIn_inside h1) h)
    · exact .inr fun n'' cs'' h => hN n' cs c' g (.here h3) h4 n'' cs'' (inside_trans h5 h)
  induction h with
  | here h => rintro f c hN hc rfl; exact one hN hc h
  | @cont kids m pres ks p m' S h1 _ ih =>
    rintro f c hN hc rfl
    obtain ⟨d, n, c', a1, a2, a3, a4⟩ := one hN hc h1
    obtain ⟨_, _, _, _, h5, _⟩ := genNode_out a2 a3
    obtain ⟨_, e⟩ := h5 _ _ rfl
    obtain ⟨d', n', c'', b1, b2⟩ := ih (stmts d) c' (noNesting_below hN a1) a4 e
    exact ⟨d', n', c'', inside_trans a1 b1, b2⟩
  | @list kids m info ks p m' S h1 _ ih =>
    rintro f c hN hc rfl
    obtain ⟨d, n, c', a1, a2, a3, a4⟩ := one hN hc h1
    obtain ⟨_, _, _, _, _, h5⟩ := genNode_out a2 a3
    obtain ⟨_, e⟩ := h5 _ _ rfl
    obtain ⟨d', n', c'', b1, b2⟩ := ih (stmts d) c' (noNesting_below hN a1) a4 e
    exact ⟨d', n', c'', inside_trans a1 b1, b2⟩

theorem gen_good {o c} {f g : List YNode} (H : Supported f) (hg : g = f ∨ ∃ d, Inside d f ∧ Inner d ∧ stmts d = g) : GoodNames (genNodes o c g) := by
  constructor
  · intro k hk
    obtain ⟨ch, d, h1, h2⟩ := genNodes_mem.1 hk
    have hd : Inside d f := by
      rcases hg with rfl | ⟨e, he, _, rfl⟩
      · exact dataIn_inside h1
      · exact inside_trans he (dataIn_inside h1)
    cases d with
    | leaf s L => simp [genNode] at h2; subst h2; exact H.idents _ s hd rfl
    | leafList s L => simp [genNode] at h2; subst h2; exact H.idents _ s hd rfl
    | cont s pres kids =>
      simp only [genNode] at h2
      split at h2
      · simp at h2
      · simp at h2; subst h2; exact H.idents _ s hd rfl
    | list s keys ord kids =>
      simp only [genNode] at h2
      split at h2
      · simp at h2
      · simp at h2; subst h2; exact H.idents _ s hd rfl
    | choice n cs => obtain ⟨_, hn⟩ := dataIn_name h1; simp [dataName] at hn
    | case n cs => obtain ⟨_, hn⟩ := dataIn_name h1; simp [dataName] at hn
  · have := H.names g hg
    have hs := (gens_names (o := o) (c := c) g).map safeName
    rw [List.map_map] at hs
    exact hs.nodup this

theorem keyPos_mem {keys : List Str} {kids : List (Meta × Schema)} {i : Nat} (h : i ∈ keyPos keys kids) :
    ∃ k ∈ keys, ∃ m, kids[i]? = some m ∧ m.1.name = k := by
  simp only [keyPos, List.mem_filterMap] at h
  obtain ⟨k, hk, h⟩ := h
  rw [List.findIdx?_eq_some_iff_getElem] at h
  obtain ⟨h1, h2, _⟩ := h
  exact ⟨k, hk, kids[i], List.getElem?_eq_getElem h1, by simpa using h2⟩

theorem keyPos_nodup {keys : List Str} {kids : List (Meta × Schema)} (h : keys.Nodup) : (keyPos keys kids).Nodup := by
  induction keys with
  | nil => simp [keyPos]
  | cons k keys ih =>
    simp only [List.nodup_cons] at h
    have ih := ih h.2
    simp only [keyPos, List.filterMap_cons] at ih ⊢
    split
    · exact ih
    · rename_i i hi
      refine List.nodup_cons.2 ⟨fun hm => ?_, ih⟩
      obtain ⟨k', hk', m, hm1, hm2⟩ := keyPos_mem (keys := keys) hm
      rw [List.findIdx?_eq_some_iff_getElem] at hi
      obtain ⟨h1, h2, _⟩ := hi
      rw [List.getElem?_eq_getElem h1] at hm1
      simp at hm1 h2
      subst hm1
      rw [hm2] at h2
      subst h2
      exact h.1 hk'

theorem gen_clsOk {o : Bool} {f : List YNode} (H : Supported f) {p m S} (h : Attr (genModule o f) p m S) : ClsOk m S := by
  obtain ⟨d, n, c, h1, h2, h3, h4⟩ := attr_gen h f none H.nesting (.inl rfl) rfl
  cases d with
  | leaf s L => simp [genNode] at h3; obtain ⟨rfl, rfl⟩ := h3; trivial
  | leafList s L => simp [genNode] at h3; obtain ⟨rfl, rfl⟩ := h3; trivial
  | cont s pres kids =>
    simp only [genNode] at h3
    split at h3
    · simp at h3
    · simp at h3
      obtain ⟨rfl, rfl⟩ := h3
      exact gen_good H (.inr ⟨_, h1, trivial, rfl⟩)
  | list s keys ord kids =>
    simp only [genNode] at h3
    split at h3
    · simp at h3
    · simp at h3
      obtain ⟨rfl, rfl⟩ := h3
      have hg : GoodNames (genNodes o c kids) := gen_good H (.inr ⟨_, h1, trivial, rfl⟩)
      obtain ⟨k1, k2, k3⟩ := H.keys _ _ _ _ h1
      have hleaf : ∀ k ∈ keys, ∃ (s' : Src) (L : LeafCls), (s'.meta c, Schema.leaf L) ∈ genNodes o c kids ∧ s'.name = k ∧ s'.ns = s.ns := by
        intro k hk
        obtain ⟨s', L, a1, a2, a3⟩ := k3 k hk
        refine ⟨s', L, ?_, a2, a3⟩
        rw [genNodes_eq, List.mem_flatMap]
        exact ⟨_, a1, by simp [genNode]⟩
      have uniq : ∀ a b, a ∈ genNodes o c kids → b ∈ genNodes o c kids → a.1.name = b.1.name → a = b := fun a b ha hb e =>
        nodup_map_eq hg.2 ha hb (by simp only [e])
      have pos : ∀ i ∈ keyPos keys (genNodes o c kids), ∃ (s' : Src) (L : LeafCls), (genNodes o c kids)[i]? = some (s'.meta c, .leaf L) ∧ s'.ns = s.ns := by
        intro i hi
        obtain ⟨k, hk, m, hm1, hm2⟩ := keyPos_mem hi
        obtain ⟨s', L, b1, b2, b3⟩ := hleaf k hk
        refine ⟨s', L, ?_, b3⟩
        rw [hm1, uniq _ _ (List.mem_of_getElem? hm1) b1 (by rw [hm2]; exact b2.symm)]
      refine ⟨hg, ?_, ⟨keyPos_nodup k2, ?_⟩, ?_⟩
      · intro e
        simp only at e
        obtain ⟨k, hk⟩ := List.exists_mem_of_ne_nil _ k1
        have := keyPos_names (keys := keys) (kids := genNodes o c kids) (fun k hk => by
          obtain ⟨s', L, b1, b2, _⟩ := hleaf k hk
          exact ⟨_, b1, b2⟩)
        rw [e] at this
        simp at this
        exact k1 this
      · intro j hj
        obtain ⟨s', L, b1, b2⟩ := pos j hj
        refine ⟨_, _, b1, ?_⟩
        rcases h4 with rfl | h4
        · exact .inl rfl
        · right
          intro k hk
          obtain ⟨ch, e, h5, h6⟩ := genNodes_mem.1 hk
          obtain ⟨_, hn⟩ := dataIn_name h5
          obtain ⟨_, _, h7, _⟩ := genNode_out hn h6
          rw [h7]
          cases h5 with
          | here => rfl
          | via h8 => exact absurd (.here h8) (h4 _ _)
      · intro i hi k hk
        obtain ⟨s', L, b1, b2⟩ := pos i hi
        rw [b1] at hk
        simp at hk
        subst hk
        exact b2
  | choice n cs => simp [dataName] at h2
  | case n cs => simp [dataName] at h2

theorem gen_plain {o : Bool} {f : List YNode} (H : Supported f) : ∀ k ∈ genModule o f, KeysPlain k.2 := by
  intro k hk p info lk hp
  obtain ⟨p', m, ha⟩ := schemaAt_attr _ p (Nat.le_refl _) _ k hk hp
  exact (gen_clsOk H ha).2.2.1

theorem supported_keys {f : List YNode} (H : Supported f) : KeyStmts f := by
  intro s keys o kids h
  obtain ⟨h1, _, h3⟩ := H.keys s keys o kids h
  refine ⟨h1, fun k hk => ?_⟩
  obtain ⟨s', L, a, b, _⟩ := h3 k hk
  exact ⟨s', L, a, b⟩

theorem session_ready {rx : Str → Str → Bool} {o : Bool} {f : List YNode} (H : Supported f) {acts : List Act} (hp : Proper (genModule o f) acts)
    (h : EveryKids (Kept rx) (genModule o f) (session (genModule o f) (freshKids (genModule o f)) acts)) :
    EveryKids (ValuesReady rx) (genModule o f) (session (genModule o f) (freshKids (genModule o f)) acts) := by
  have h1 := session_obj fromClass_stable acts (rootObj_fresh fromClass_stable (genModule o f))
  have h2 := session_keys (genModule_flat o f H.nesting H.shadow).apart (gen_plain H) acts (fun p op h => (hp.1 p op h).2) hp.2
    (ns := freshKids (genModule o f)) ⟨freshKids_length _, by
      intro i k c hk hc
      rw [freshKids_get, hk] at hc
      simp at hc
      subst hc
      exact ⟨fresh_inv (st := true) stable_top _, keyInv_fresh _⟩⟩
  rw [everyKids_iff] at h ⊢
  refine ⟨h.1, fun i k c hk hc => ?_⟩
  have hm : k ∈ genModule o f := List.mem_of_getElem? hk
  exact values_ready k.2 k.1 c (gen_clsOk H (.here hm))
    (fun p m' S' ha => gen_clsOk H (attr_mono (by rintro x hx; rw [List.mem_singleton.1 hx]; exact hm) ha))
    (h1.2 i k c hk hc) (h2.2 i k c hk hc).2 (h.2 i k c hk hc)

/-- A leaf of a safe type, or a container. -/
def LeafOrCont (rx : Str → Str → Bool) : Schema → Prop
  | .leaf L => ∃ t dv, L = YTy.cls rx t dv ∧ SafeTy t
  | .cont _ _ => True
  | _ => False

theorem kept_leaves {rx : Str → Str → Bool} : ∀ (S : Schema) (m : Meta) (n : Inst), LeafOrCont rx S → (∀ p m' S', Attr [(m, S)] p m' S' → LeafOrCont rx S') →
    ObjInv fromClass S n → Every (Kept rx) m S n := by
  intro S
  induction S using Schema.ind with
  | hleaf L => intro m n h _ ho; cases ho; exact fun _ => .inl h
  | hll L => intro m n h; exact h.elim
  | hlist info kids ih => intro m n h; exact h.elim
  | hcont pres kids ih =>
    intro m n _ hA ho
    cases ho with
    | cont _ _ ch pr ns hlen ho =>
      refine ⟨trivial, everyKids_iff.2 ⟨hlen, fun i k c hi hc => ?_⟩⟩
      have hm : k ∈ kids := List.mem_of_getElem? hi
      exact ih k hm k.1 c (hA _ _ _ (.cont (List.mem_singleton.2 rfl) (.here hm)))
        (fun p m' S' h => hA _ _ _ (.cont (List.mem_singleton.2 rfl) (attr_mono (by rintro x hx; rw [List.mem_singleton.1 hx]; exact hm) h)))
        (ho i k c hi hc)

theorem session_leaves {rx : Str → Str → Bool} {o : Bool} {f : List YNode} (H : Supported f) (hl : SafeLeaves rx f) (acts : List Act) :
    EveryKids (Kept rx) (genModule o f) (session (genModule o f) (freshKids (genModule o f)) acts) := by
  have h1 := session_obj fromClass_stable acts (rootObj_fresh fromClass_stable (genModule o f))
  have hA : ∀ p m S, Attr (genModule o f) p m S → LeafOrCont rx S := by
    intro p m S ha
    obtain ⟨d, n, c, h1, h2, h3, _⟩ := attr_gen ha f none H.nesting (.inl rfl) rfl
    have := hl d h1
    cases d with
    | leaf s L => simp [genNode] at h3; obtain ⟨rfl, rfl⟩ := h3; exact this
    | cont s pres kids =>
      simp only [genNode] at h3
      split at h3
      · simp at h3
      · simp at h3; obtain ⟨rfl, rfl⟩ := h3; trivial
    | leafList s L => exact this.elim
    | list s keys ord kids => exact this.elim
    | choice n cs => simp [dataName] at h2
    | case n cs => simp [dataName] at h2
  refine everyKids_iff.2 ⟨h1.1, fun i k c hk hc => ?_⟩
  have hm : k ∈ genModule o f := List.mem_of_getElem? hk
  exact kept_leaves k.2 k.1 c (hA _ _ _ (.here hm))
    (fun p m' S' ha => hA _ _ _ (attr_mono (by rintro x hx; rw [List.mem_singleton.1 hx]; exact hm) ha)) (h1.2 i k c hk hc)

/-! ## For concrete modules -/

def supportedB (f : List YNode) : Bool :=
  (f :: ((allL f).filter innerB).map stmts).all (fun g => decide ((dataNames g).map safeName).Nodup) &&
  (allL f).all (fun d => match srcOf d with
    | some s => !s.name.contains ':' && !s.name.contains '@' && !s.module_.contains '@'
    | none => true) &&
  (allL f).all (fun d => match d with
    | .list s keys _ kids => !keys.isEmpty && decide keys.Nodup &&
        keys.all fun k => kids.any fun e => match e with | .leaf s' _ => s'.name == k && s'.ns == s.ns | _ => false
    | _ => true) &&
  (allL f).all flatChoice && (allL f).all clearNode

theorem supported_of {f} (h : supportedB f = true) : Supported f := by
  simp only [supportedB, Bool.and_eq_true] at h
  obtain ⟨⟨⟨⟨h1, h2⟩, h3⟩, h4⟩, h5⟩ := h
  refine ⟨?_, ?_, ?_, noNesting_of h4, noShadow_of h5⟩
  · intro g hg
    have hg : g ∈ f :: ((allL f).filter innerB).map stmts := by
      rcases hg with rfl | ⟨d, a, b, rfl⟩
      · exact List.mem_cons_self ..
      · exact List.mem_cons_of_mem _ (List.mem_map.2 ⟨d, List.mem_filter.2 ⟨allL_of a, innerB_of b⟩, rfl⟩)
    simpa using List.all_eq_true.1 h1 g hg
  · intro d s hd hs
    have := List.all_eq_true.1 h2 _ (allL_of hd)
    simp only [hs] at this
    simpa [and_assoc] using this
  · intro s keys o kids hi
    have := List.all_eq_true.1 h3 _ (allL_of hi)
    simp only [Bool.and_eq_true, Bool.not_eq_true', List.isEmpty_eq_false_iff, decide_eq_true_eq] at this
    refine ⟨this.1.1, this.1.2, fun k hk => ?_⟩
    obtain ⟨d, hd, h'⟩ := List.any_eq_true.1 (List.all_eq_true.1 this.2 k hk)
    cases d with
    | leaf s' L => exact ⟨s', L, hd, by simpa using h'⟩
    | _ => simp at h'

end Pyb
