import Verif.Spec.UnionDoc
import Verif.Lemmas.NativeTypes
import Verif.Lemmas.XmlTypes

/-! # Unions of integers and strings -/

namespace Pyb
open Py Spec

/-- What a class makes of a value is what the class at the bottom makes of it. -/
theorem call_bottom (rx : Str → Str → Bool) : ∀ (T : RTy) (v o : PyVal),
    ((T.cls rx).call (some v) = .ok o → ∃ t, (T.cls rx).new (some v) = .ok (o, t)) ∧
    ((T.cls rx).call (some v) = .ok o → match T.zero with
      | .str _ => o = .str v.toStr
      | _ => ∃ n, v.toInt = .ok n ∧ o = .int n) := by
  intro T
  induction T with
  | base b =>
    intro v o
    refine ⟨fun h => ⟨none, ?_⟩, fun h => ?_⟩
    · simp only [RTy.cls] at h ⊢
      rw [h]; rfl
    · cases b with
      | int =>
        simp only [RTy.cls, BaseTy.conv] at h
        cases hv : v.toInt with
        | ok n => rw [hv] at h; simp [Except.map] at h; exact ⟨n, rfl, h.symm⟩
        | error e => rw [hv] at h; simp [Except.map] at h
      | str => simp [RTy.cls, BaseTy.conv] at h; simp [RTy.zero, BaseTy.zero, h]
  | restr inner rs ih =>
    intro v o
    have hnew : ((RTy.restr inner rs).cls rx).call (some v) = .ok o → ∃ t x, ((RTy.restr inner rs).cls rx).new (some v) = .ok (o, t) ∧
        (inner.cls rx).call (some v) = .ok x := by
      intro h
      simp only [RTy.cls] at h ⊢
      generalize hn : (do
        let __discr ← buildTests (fun v => (RTy.cls rx inner).call (some v)) rs ((some v).getD (PyVal.bool false))
        _ : Except Err (PyVal × Option (List Test))) = r at h ⊢
      cases r with
      | error e => simp [bind, Except.bind] at h
      | ok p =>
        obtain ⟨o', t⟩ := p
        simp only [bind, Except.bind, initCheck] at h
        cases hc : (inner.cls rx).call (some v) with
        | error e => rw [hc] at h; simp at h
        | ok x =>
          rw [hc] at h
          simp only at h
          split at h
          · simp at h
          · simp only [pure, Except.pure, Except.ok.injEq] at h
            exact ⟨t, x, by rw [h], rfl⟩
    refine ⟨fun h => ?_, fun h => ?_⟩
    · obtain ⟨t, x, h1, _⟩ := hnew h; exact ⟨t, h1⟩
    · obtain ⟨t, x, h1, h2⟩ := hnew h
      obtain ⟨t', hi⟩ := (ih v x).1 h2
      have hx : o = x := by
        simp only [RTy.cls, hi, bind, Except.bind, pure, Except.pure] at h1
        repeat' split at h1
        all_goals simp at h1
        all_goals exact h1.1.symm
      subst hx
      exact (ih v o).2 h2

theorem str_call {rx : Str → Str → Bool} {t : YTy} (ht : StrType t) {v w : PyVal} (h : t.ty.call rx v = .ok w) : w = .str v.toStr := by
  obtain ⟨name, T, _, hz, rfl⟩ := ht
  have := (call_bottom rx T v w).2 h
  rw [hz] at this
  exact this

/-- Integer types take the numbers in their ranges, and nothing that is no number. -/
theorem int_accepts {rx : Str → Str → Bool} {t : YTy} (ht : IntType t) :
    ∃ P : Int → Prop, (∀ x n, IsNum x n → (Accepts rx t x ↔ P n)) ∧ (∀ x n, IsNum x n → P n → t.ty.call rx x = .ok (.int n)) ∧
      (∀ n, P n → Value t (.int n)) ∧ ∀ x w, t.ty.call rx x = .ok w → ∃ n, x.toInt = .ok n ∧ w = .int n := by
  obtain ⟨name, it, chain, lo, hi, ha, hb, hl, rfl⟩ := ht
  have F := towerFacts rx _ hl
  have hcall : ∀ x, (YTy.int name it (chain.map rangeText)).ty.call rx x =
      ((towerOf (chain ++ [[⟨.span (some lo) (some hi), 0, 0, 0, 0⟩]])).cls rx).call (some x) := by
    intro x
    simp only [YTy.ty, LeafTy.call, int_tower hb]
  have hin : ∀ n, InType (chain ++ [[⟨.span (some lo) (some hi), 0, 0, 0, 0⟩]]) n → InType chain n ∧ lo ≤ n ∧ n ≤ hi := by
    intro n h
    refine ⟨fun ws hws => h ws (by simp [hws]), ?_⟩
    simpa [Allowed, RangePart.Contains] using h [⟨.span (some lo) (some hi), 0, 0, 0, 0⟩] (by simp)
  refine ⟨InType (chain ++ [[⟨.span (some lo) (some hi), 0, 0, 0, 0⟩]]), ?_, ?_, ?_, ?_⟩
  · intro x n hx
    simp only [Accepts, hcall]
    refine ⟨fun ⟨w, h⟩ => ?_, fun h => ⟨_, F.callOk x n hx h⟩⟩
    rw [← Classical.not_not (a := InType _ n)]
    intro hni
    have herr : ∃ e, ((towerOf (chain ++ [[⟨.span (some lo) (some hi), 0, 0, 0, 0⟩]])).cls rx).new (some x) = .error e := by
      by_cases htr : x.truthy = true
      · cases hc : chain ++ [[(⟨.span (some lo) (some hi), 0, 0, 0, 0⟩ : WrittenPart)]] with
        | nil => simp at hc
        | cons ws rest =>
          by_cases hr : InType rest n
          · refine ⟨.valueError, ?_⟩
            rw [← hc]
            refine F.newValue x n ws rest hc hx hr ?_
            intro hw
            apply hni
            rw [hc]
            intro y hy
            rcases List.mem_cons.1 hy with rfl | hy
            · exact hw
            · exact hr y hy
          · refine ⟨.typeError, ?_⟩
            rw [← hc]
            exact F.newType x n ws rest hc hx htr hr
      · rcases hx.shape with h' | rfl
        · exact absurd h' htr
        · have : n = 0 := by
            simpa [PyVal.truthy] using htr
          subst this
          exact ⟨_, F.newZero hni⟩
    obtain ⟨e, he⟩ := herr
    rw [call_of_new_error he] at h
    simp at h
  · intro x n hx h
    rw [hcall]
    exact F.callOk x n hx h
  · intro n h
    exact .int name it chain lo hi n ha hb hl (hin n h)
  · intro x w h
    rw [hcall] at h
    have hz : ∀ c, (towerOf c).zero = .int 0 := by
      intro c
      induction c with
      | nil => rfl
      | cons _ _ ih => exact ih
    have := (call_bottom rx _ x w).2 h
    rw [hz] at this
    exact this

theorem not_accepts {rx : Str → Str → Bool} {t : YTy} {v : PyVal} (h : ∃ e, t.ty.call rx v = .error e) : ¬ Accepts rx t v := by
  rintro ⟨w, h'⟩
  obtain ⟨e, h⟩ := h
  rw [h] at h'
  simp at h'

/-- The values of a union of integers, then strings, are values of the first member that
takes them, and the members before do not take their texts. -/
theorem ints_strings {rx : Str → Str → Bool} {u : UTy} {ints strs : List YTy} {d : Option PyVal} (hname : TypeArg py!"union" u.name)
    (hu : u.members = ints ++ strs) (hi : ∀ t ∈ ints, IntType t) (hs : ∀ t ∈ strs, StrType t) {x w : PyVal}
    (hx : (∃ s, x = .str s) ∨ ((∃ n, x = .int n) ∧ ∃ t ∈ ints, Accepts rx t x)) (h : (u.cls rx d).set x = .ok w) :
    ∃ pre t, MemberValue rx u pre t w ∧ ∀ s ∈ pre, ¬ Accepts rx s (.str (xmlTextOf w)) ∧ ¬ Accepts rx s (.str w.toStr) := by
  have hset : setUnion rx (u.members.map YTy.ty) x = .ok w := by
    rw [← build_setUnion, toExcept_ok_iff]
    exact h
  rcases C20_union_first_match rx (u.members.map YTy.ty) x with ⟨pre', t', post', y, h1, h2, h3, h4⟩ | ⟨_, h2⟩
  · rw [h4] at hset
    simp only [Except.ok.injEq] at hset
    subst hset
    obtain ⟨pre, rest, hm, rfl, hrest⟩ := List.map_eq_append_iff.1 h1
    obtain ⟨t, post, rfl, rfl, rfl⟩ := List.map_eq_cons_iff.1 hrest
    have hpre : ∀ s ∈ pre, ¬ Accepts rx s x := fun s hs => not_accepts (h2 s.ty (List.mem_map.2 ⟨s, hs, rfl⟩))
    have hsplit : t ∈ ints ∧ (∀ s ∈ pre, s ∈ ints) ∨ t ∈ strs ∧ ∀ s ∈ ints, s ∈ pre := by
      rw [hu] at hm
      rcases List.append_eq_append_iff.1 hm with ⟨q, hq1, hq2⟩ | ⟨q, hq1, hq2⟩
      · right
        exact ⟨by rw [hq2]; simp, fun s hs => by rw [hq1]; simp [hs]⟩
      · cases q with
        | nil =>
          right
          simp only [List.nil_append] at hq2
          simp only [List.append_nil] at hq1
          exact ⟨by rw [← hq2]; simp, fun s hs => by rw [← hq1]; exact hs⟩
        | cons a q =>
          simp only [List.cons_append, List.cons.injEq] at hq2
          left
          obtain ⟨rfl, _⟩ := hq2
          exact ⟨by rw [hq1]; simp, fun s hs => by rw [hq1]; simp [hs]⟩
    rcases hsplit with ⟨ht, hp⟩ | ⟨ht, hp⟩
    · obtain ⟨P, hP1, hP2, hP3, hP4⟩ := int_accepts (rx := rx) (hi t ht)
      obtain ⟨n, hn, rfl⟩ := hP4 x y h3
      have hnum : IsNum x n := by
        rcases hx with ⟨s, rfl⟩ | ⟨⟨m, rfl⟩, _⟩
        · exact isNum_str hn
        · simp only [PyVal.toInt, Except.ok.injEq] at hn
          subst hn
          exact isNum_int _
      have hPn : P n := (hP1 x n hnum).1 ⟨_, h3⟩
      have hnot : ∀ s ∈ pre, ∀ z, IsNum z n → ¬ Accepts rx s z := by
        intro s hs' z hz
        obtain ⟨Q, hQ1, _⟩ := int_accepts (rx := rx) (hi s (hp s hs'))
        rw [hQ1 z n hz, ← hQ1 x n hnum]
        exact hpre s hs'
      refine ⟨pre, t, ⟨hname, ⟨post, hm⟩, hP3 n hPn, ?_, hP2 _ _ (isNum_int n) hPn, fun s hs' => hnot s hs' _ (isNum_int n)⟩, fun s hs' => ?_⟩
      · rintro nm x rfl
        have := hP3 n hPn
        cases this
      exact ⟨hnot s hs' _ (isNum_intStr n), hnot s hs' _ (isNum_intStr n)⟩
    · have hw := str_call (hs t ht) h3
      rcases hx with ⟨s, rfl⟩ | ⟨_, t', ht', ha⟩
      · simp only [PyVal.toStr] at hw
        subst hw
        obtain ⟨name, T, ha, _, rfl⟩ := hs t ht
        exact ⟨pre, _, ⟨hname, ⟨post, hm⟩, .str name T s ha, by simp, h3, hpre⟩, fun s' hs' => ⟨hpre s' hs', hpre s' hs'⟩⟩
      · exact absurd ha (hpre t' (hp t' ht'))
  · rw [h2] at hset
    simp at hset

end Pyb
