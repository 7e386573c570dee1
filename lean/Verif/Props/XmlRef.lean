import Verif.Props.XmlText

/-! # C97: which references are read -/

namespace Pyb
open Py Spec

theorem hexValue_some {c : Char} {d : Nat} (h : hexValue c = some d) :
    (48 ≤ c.toNat ∧ c.toNat ≤ 57 ∨ 65 ≤ c.toNat ∧ c.toNat ≤ 70 ∨ 97 ≤ c.toNat ∧ c.toNat ≤ 102) ∧ digitOf c = d := by
  have h1 : 48 ≤ c.toNat ∧ c.toNat ≤ 57 ∨ 65 ≤ c.toNat ∧ c.toNat ≤ 70 ∨ 97 ≤ c.toNat ∧ c.toNat ≤ 102 := by
    unfold hexValue at h
    split at h
    · omega
    · split at h
      · omega
      · split at h
        · omega
        · simp at h
  refine ⟨h1, ?_⟩
  rw [hexValue_digitOf h1] at h
  exact Option.some.inj h

theorem refDigits_sound {b : Nat} : ∀ {ds : Str} {n m : Nat}, refDigits b n ds = some m →
    (∀ c ∈ ds, (48 ≤ c.toNat ∧ c.toNat ≤ 57 ∨ 65 ≤ c.toNat ∧ c.toNat ≤ 70 ∨ 97 ≤ c.toNat ∧ c.toNat ≤ 102) ∧ digitOf c < b) ∧
    ds.foldl (fun n c => b * n + digitOf c) n = m
  | [], n, m, h => ⟨by simp, Option.some.inj h⟩
  | c :: cs, n, m, h => by
    rw [refDigits] at h
    cases q : hexValue c with
    | none => rw [q] at h; simp at h
    | some d =>
      rw [q] at h
      simp only at h
      split at h
      · rename_i hd
        obtain ⟨h1, h2⟩ := hexValue_some q
        obtain ⟨i1, i2⟩ := refDigits_sound h
        refine ⟨fun x hx => ?_, by rw [List.foldl_cons, h2]; exact i2⟩
        rcases List.mem_cons.1 hx with rfl | hx
        · exact ⟨h1, by rw [h2]; exact hd⟩
        · exact i1 x hx
      · simp at h

/-- Numbers that are none of a character stand for none that is allowed. -/
theorem ofNat_toNat {n : Nat} (h : xmlChar (Char.ofNat n) = true) : (Char.ofNat n).toNat = n := by
  by_cases hv : n.isValidChar
  · simp [Char.ofNat, hv, Char.toNat, Char.ofNatAux]
  · have : Char.ofNat n = Char.ofNat 0 := by simp only [Char.ofNat, hv, dite_false]; rfl
    rw [this] at h
    exact absurd h (by decide)

theorem numeral_of {b : Nat} {ds : Str} (hne : ds ≠ []) {c : Char} (hc : xmlChar c = true) (h : (refDigits b 0 ds).map Char.ofNat = some c) : Numeral b ds c.toNat := by
  cases q : refDigits b 0 ds with
  | none => rw [q] at h; simp at h
  | some m =>
    rw [q] at h
    have e : Char.ofNat m = c := Option.some.inj h
    obtain ⟨h1, h2⟩ := refDigits_sound q
    refine ⟨hne, h1, ?_⟩
    rw [h2, ← e, ofNat_toNat (e ▸ hc)]

theorem refChar_sound {s : Str} {c : Char} (hc : xmlChar c = true) (h : refChar s = some c) : RefTo c ('&' :: (s ++ [';'])) := by
  unfold refChar at h
  split at h
  · rename_i ds
    split at h
    · simp at h
    · rename_i hne
      have := RefTo.hex (numeral_of hne hc h)
      simpa using this
  · rename_i ds _
    split at h
    · simp at h
    · rename_i hne
      have := RefTo.dec (numeral_of hne hc h)
      simpa using this
  · have : (s, c) ∈ [(py!"amp", '&'), (py!"lt", '<'), (py!"gt", '>'), (py!"quot", '"'), (py!"apos", '\'')] := by
      have gen : ∀ (l : List (Str × Char)), l.lookup s = some c → (s, c) ∈ l := by
        intro l
        induction l with
        | nil => intro h; simp at h
        | cons p l ih =>
          obtain ⟨y, w⟩ := p
          intro h
          by_cases e : s = y
          · subst e
            simp [List.lookup] at h
            simp [h]
          · have hb : (s == y) = false := by simpa using e
            simp only [List.lookup, hb] at h
            simp [ih h]
      exact gen _ h
    simp only [List.mem_cons, Prod.mk.injEq, List.not_mem_nil, or_false] at this
    rcases this with ⟨rfl, rfl⟩ | ⟨rfl, rfl⟩ | ⟨rfl, rfl⟩ | ⟨rfl, rfl⟩ | ⟨rfl, rfl⟩
    · exact .amp
    · exact .lt
    · exact .gt
    · exact .quot
    · exact .apos

/-- C97: after `&`, exactly the references to characters that XML allows are read, as these characters;
anything else, such as `&#1a;`, `&#;`, `&#0;` or `&nbsp;`, is refused. -/
theorem C97_references (s r : Str) (c : Char) : readRef s = some (c, r) ↔ xmlChar c = true ∧ ∃ w, RefTo c ('&' :: w) ∧ s = w ++ r := by
  constructor
  · intro h
    unfold readRef at h
    split at h
    · rename_i c' x r' h1 h2
      split at h
      · rename_i hc
        have e := Option.some.inj h
        simp only [Prod.mk.injEq] at e
        obtain ⟨rfl, rfl⟩ := e
        refine ⟨hc, s.takeWhile (· ≠ ';') ++ [';'], refChar_sound hc h1, ?_⟩
        have hx : x = ';' := by
          have := List.head?_dropWhile_not (fun c => decide (c ≠ ';')) s
          rw [h2] at this
          simpa using this
        conv => lhs; rw [← List.takeWhile_append_dropWhile (p := fun c => decide (c ≠ ';')) (l := s)]
        rw [h2, hx]
        simp
      · simp at h
    · simp at h
  · rintro ⟨hc, w, hw, rfl⟩
    obtain ⟨w', e, h⟩ := readRef_of hw hc r
    rw [List.cons_inj_right] at e
    subst e
    exact h

example : RefTo 'J' py!"&#74;" ∧ RefTo 'J' py!"&#x4a;" ∧ xmlChar 'J' = true ∧ readRef py!"#1a;" = none ∧ readRef py!"#0;" = none ∧ readRef py!"nbsp;" = none :=
  ⟨.dec (ds := py!"74") ⟨by decide, by decide, by decide⟩, .hex (ds := py!"4a") ⟨by decide, by decide, by decide⟩, by decide, by decide, by decide, by decide⟩

end Pyb
