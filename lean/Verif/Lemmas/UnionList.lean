import Verif.Lemmas.UnionDoc

/-! # Leaf-lists of unions of integers and strings -/

namespace Pyb
open Py Spec

theorem int_takes {rx : Str → Str → Bool} {t : YTy} (ht : IntType t) (x : PyVal) : (t.llCls rx).conv x = (t.ty.call rx x).toOption := by
  rw [conv_one]
  obtain ⟨name, it, chain, lo, hi, ha, hb, hl, rfl⟩ := ht
  simp only [YTy.ty, int_tower hb]
  have : ∃ inner rs, towerOf (chain ++ [[⟨.span (some lo) (some hi), 0, 0, 0, 0⟩]]) = .restr inner rs := by
    cases chain <;> exact ⟨_, _, rfl⟩
  obtain ⟨inner, rs, e⟩ := this
  rw [e, elemCheck]
  all_goals simp

theorem int_takes_iff {rx : Str → Str → Bool} {t : YTy} (ht : IntType t) {x : PyVal} : ElemTakes rx t x ↔ Accepts rx t x := by
  unfold ElemTakes Accepts
  rw [int_takes ht]
  cases t.ty.call rx x <;> simp [Except.toOption]

/-- The elements of a leaf-list of a union of integers, then strings, are values of the
first member that takes them. -/
theorem ints_strings_elem {rx : Str → Str → Bool} {u : UTy} {ints strs : List YTy} {b : Bool} {tx : List PyVal → Str} (hname : TypeArg py!"union" u.name)
    (hu : u.members = ints ++ strs) (hi : ∀ t ∈ ints, IntType t) (hs : ∀ t ∈ strs, StrType t) {x w : PyVal}
    (hx : (∃ s, x = .str s) ∨ ((∃ n, x = .int n) ∧ ∃ t ∈ ints, Accepts rx t x)) (h : (u.llCls rx b tx).conv x = some w) :
    ∃ pre t, ElemMember rx u pre t w := by
  have hset : (u.members.map YTy.ty).findSome? (fun t => elemCheck rx t x) = some w := h
  rw [List.findSome?_eq_some_iff] at hset
  obtain ⟨pre', t', post', h1, h3, h2⟩ := hset
  obtain ⟨pre, rest, hm, rfl, hrest⟩ := List.map_eq_append_iff.1 h1
  obtain ⟨t, post, rfl, rfl, rfl⟩ := List.map_eq_cons_iff.1 hrest
  rw [← conv_one] at h3
  have hpre : ∀ s ∈ pre, ¬ ElemTakes rx s x := by
    rintro s hs ⟨y, hy⟩
    rw [conv_one, h2 _ (List.mem_map.2 ⟨s, hs, rfl⟩)] at hy
    cases hy
  have hsplit : t ∈ ints ∧ (∀ s ∈ pre, s ∈ ints) ∨ t ∈ strs ∧ ∀ s ∈ ints, s ∈ pre := by
    rw [hu] at hm
    rcases List.append_eq_append_iff.1 hm with ⟨q, hq1, hq2⟩ | ⟨q, hq1, hq2⟩
    · right
      exact ⟨by rw [hq2]; simp, fun s hs => by rw [hq1]; simp [hs]⟩
    · cases q with
      | nil =>
        right
        simp only [List.nil_append] at hq2
        simp only [List.append_nil] at hq1
        exact ⟨by rw [← hq2]; simp, fun s hs => by rw [← hq1]; exact hs⟩
      | cons a q =>
        simp only [List.cons_append, List.cons.injEq] at hq2
        left
        obtain ⟨rfl, _⟩ := hq2
        exact ⟨by rw [hq1]; simp, fun s hs => by rw [hq1]; simp [hs]⟩
  rcases hsplit with ⟨ht, hp⟩ | ⟨ht, hp⟩
  · obtain ⟨P, hP1, hP2, hP3, hP4⟩ := int_accepts (rx := rx) (hi t ht)
    have h3' : t.ty.call rx x = .ok w := by
      rw [int_takes (hi t ht)] at h3
      cases hc : t.ty.call rx x with
      | error e => rw [hc] at h3; cases h3
      | ok y => rw [hc] at h3; simp only [Except.toOption, Option.some.injEq] at h3; rw [h3]
    obtain ⟨n, hn, rfl⟩ := hP4 x w h3'
    have hnum : IsNum x n := by
      rcases hx with ⟨s, rfl⟩ | ⟨⟨m, rfl⟩, _⟩
      · exact isNum_str hn
      · simp only [PyVal.toInt, Except.ok.injEq] at hn
        subst hn
        exact isNum_int _
    have hPn : P n := (hP1 x n hnum).1 ⟨_, h3'⟩
    have hnot : ∀ s ∈ pre, ∀ z, IsNum z n → ¬ ElemTakes rx s z := by
      intro s hs' z hz
      obtain ⟨Q, hQ1, _⟩ := int_accepts (rx := rx) (hi s (hp s hs'))
      rw [int_takes_iff (hi s (hp s hs')), hQ1 z n hz, ← hQ1 x n hnum, ← int_takes_iff (hi s (hp s hs'))]
      exact hpre s hs'
    have hplain : (∀ n, t ≠ .empty n) ∧ ∀ n x, t ≠ .ext n x := by
      obtain ⟨_, _, _, _, _, _, _, _, rfl⟩ := hi t ht
      simp
    refine ⟨pre, t, ⟨hname, ⟨post, hm⟩, ⟨hP3 n hPn, ?_, ?_⟩, hplain.2, fun s hs' => hnot s hs' _ (isNum_int n), fun _ s hs' => hnot s hs' _ (isNum_intStr n), by simp⟩⟩
    · obtain ⟨_, _, _, _, _, _, _, _, rfl⟩ := hi t ht
      simp
    · rw [int_takes (hi t ht), hP2 _ _ (isNum_int n) hPn]
      rfl
  · rcases hx with ⟨s, rfl⟩ | ⟨_, t', ht', ha⟩
    · have hw : w = .str s := by
        obtain ⟨name, T, ha, hz, rfl⟩ := hs t ht
        rw [conv_one] at h3
        cases T with
        | base c =>
          cases c with
          | int => simp [RTy.zero, BaseTy.zero] at hz
          | str => simpa [YTy.ty, elemCheck] using h3.symm
        | restr inner rs =>
          simp only [YTy.ty, elemCheck] at h3
          cases hc : (LeafTy.restr (.restr inner rs)).call rx (.str s) with
          | error e => rw [hc] at h3; cases h3
          | ok y =>
            rw [hc] at h3
            simp only [Except.toOption, Option.some.injEq] at h3
            subst h3
            exact str_call (t := .str name (.restr inner rs)) ⟨name, _, ha, hz, rfl⟩ hc
      subst hw
      obtain ⟨name, T, ha, _, rfl⟩ := hs t ht
      exact ⟨pre, _, ⟨hname, ⟨post, hm⟩, ⟨.str name T s ha, by simp, h3⟩, by simp, hpre, fun hl => absurd hl id, by simp⟩⟩
    · exact absurd ((int_takes_iff (hi t' ht')).2 ha) (hpre t' (hp t' ht'))

end Pyb
