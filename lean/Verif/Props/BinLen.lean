import Verif.Model.BinLen
import Verif.Props.Restricted
import Verif.Props.Scalar

/-! # C87: the length of binary values -/

namespace Pyb
open Py Spec

theorem setBinaryLength_eq (ws : List WrittenPart) (hl : LegalLength ws) (v : BinArg) (n : Nat)
    (hv : v.len = some n) (hn : n < 2 ^ 53) (hb : ∀ b, yangBinary v = .ok b → b.length < 2 ^ 53) :
    setBinaryLength (genSpecs (rangeText ws)) v =
      if Allowed ws n then
        match yangBinary v with
        | .ok b => if Allowed ws b.length then .ok b else .error .valueError
        | .error e => .error e
      else .error .valueError := by
  simp only [setBinaryLength, length_build ws hl.1, bind, Except.bind, hv, rangeCheck_len n hn ws hl,
    decide_eq_true_eq]
  split
  · cases h : yangBinary v with
    | error e => rfl
    | ok b =>
      simp only [rangeCheck_len b.length (hb b h) ws hl, decide_eq_true_eq]
  · rfl

/-- C87: octets are accepted exactly if their number is allowed, and are stored as they
are. -/
theorem C87_octets_exact (ws : List WrittenPart) (hl : LegalLength ws) (b : List Nat) (hb : b.length < 2 ^ 53) :
    setBinaryLength (genSpecs (rangeText ws)) (.bytes b) =
      if Allowed ws b.length then .ok b else .error .valueError := by
  rw [setBinaryLength_eq ws hl (.bytes b) b.length rfl hb (by
    intro b' h; simp only [yangBinary, Except.ok.injEq] at h; subst h; exact hb)]
  simp only [yangBinary]
  by_cases h : Allowed ws b.length <;> simp [h]

theorem b64loop_length : ∀ (s : Str) (q left pads : Nat) (b : List Nat),
    b64loop q left pads s = .ok b → b.length ≤ s.length
  | [], q, left, pads, b, h => by
    simp only [b64loop] at h
    split at h
    · simp only [Except.ok.injEq] at h; subst h; simp
    · cases h
  | c :: cs, q, left, pads, b, h => by
    have ih := fun q left pads b => b64loop_length cs q left pads b
    have step : ∀ (r : Except Err (List Nat)) (x : Nat), (∀ b, r = .ok b → b.length ≤ cs.length) →
        r.map (x :: ·) = .ok b → b.length ≤ cs.length + 1 := by
      intro r x hr h
      cases r with
      | error e => cases h
      | ok b' =>
        simp only [Except.map, Except.ok.injEq] at h
        subst h
        have := hr b' rfl
        simp only [List.length_cons]; omega
    simp only [b64loop] at h
    simp only [List.length_cons]
    split at h
    · split at h
      · simp only [Except.ok.injEq] at h; subst h; simp
      · have := ih _ _ _ _ h; omega
    · split at h
      · have := ih _ _ _ _ h; omega
      · split at h
        · have := ih _ _ _ _ h; omega
        · split at h
          · exact step _ _ (ih _ _ _) h
          · split at h
            · exact step _ _ (ih _ _ _) h
            · exact step _ _ (ih _ _ _) h

/-- C87: text is accepted if it is base64 and both the number of octets it stands for and
the number of its characters are allowed.  Missing: the length is a restriction of the
number of octets only, see `C87_text_refuted`. -/
theorem C87_text_partial (ws : List WrittenPart) (hl : LegalLength ws) (s : Str) (hs : s.length < 2 ^ 53) (b : List Nat) :
    setBinaryLength (genSpecs (rangeText ws)) (.text s) = .ok b ↔
      b64decode s = .ok b ∧ Allowed ws b.length ∧ Allowed ws s.length := by
  rw [setBinaryLength_eq ws hl (.text s) s.length rfl hs (by
    intro b' h
    simp only [yangBinary, b64decode] at h
    split at h
    · have := b64loop_length _ _ _ _ _ h; omega
    · cases h)]
  simp only [yangBinary]
  by_cases h : Allowed ws s.length
  · cases hd : b64decode s with
    | error e => simp [h]
    | ok b' =>
      simp only [h, if_true, Except.ok.injEq, and_true]
      by_cases hb : Allowed ws b'.length
      · simp only [hb, if_true, Except.ok.injEq]
        constructor
        · rintro rfl; exact ⟨rfl, hb⟩
        · exact fun x => x.1
      · simp only [hb, if_false]
        constructor
        · intro x; cases x
        · rintro ⟨rfl, x⟩; exact absurd x hb
  · simp [h]

/-- C87: the text a document has for accepted octets is accepted again exactly if its own
number of characters is allowed. -/
theorem C87_document_partial (ws : List WrittenPart) (hl : LegalLength ws) (b b' : List Nat)
    (hb : ∀ x ∈ b, x < 256) (hn : b.length < 2 ^ 52) (h : setBinaryLength (genSpecs (rangeText ws)) (.bytes b) = .ok b') :
    setBinaryLength (genSpecs (rangeText ws)) (.text (dumpBinary b')) = .ok b ↔
      Allowed ws (4 * ((b.length + 2) / 3) : Nat) := by
  rw [C87_octets_exact ws hl b (by omega)] at h
  split at h
  · next ha =>
    simp only [Except.ok.injEq] at h
    subst h
    have hlen : (dumpBinary b).length = 4 * ((b.length + 2) / 3) := b64encode_length b
    rw [C87_text_partial ws hl _ (by rw [hlen]; omega), hlen]
    exact ⟨fun x => x.2.2, fun x => ⟨b64_roundtrip b hb, ha, x⟩⟩
  · cases h

/-- C87: anything else is refused. -/
theorem C87_others_refused (ws : List WrittenPart) (hl : LegalLength ws) :
    setBinaryLength (genSpecs (rangeText ws)) .other = .error .valueError := by
  simp only [setBinaryLength, length_build ws hl.1, bind, Except.bind, BinArg.len]

/-- C87 is false of text: with a length of 3, the text of three octets is refused, so a
document that has the value cannot be read. -/
theorem C87_text_refuted :
    setBinaryLength (genSpecs py!"3") (.bytes [77, 97, 110]) = .ok [77, 97, 110] ∧
    dumpBinary [77, 97, 110] = py!"TWFu" ∧ yangBinary (.text py!"TWFu") = .ok [77, 97, 110] ∧
    setBinaryLength (genSpecs py!"3") (.text py!"TWFu") = .error .valueError := by decide

example : setBinaryLength (genSpecs py!"1..4") (.text py!"TWFu") = .ok [77, 97, 110] := by decide
example : setBinaryLength (genSpecs py!"1..4") (.text py!"TWFuIQ==") = .error .valueError := by decide
example : LegalLength [⟨.span (some 1) (some 4), 0, 0, 0, 0⟩] := by
  refine ⟨by simp, ?_⟩
  intro w hw m hm
  simp only [List.mem_singleton] at hw
  subst hw
  cases hm
example : rangeText [⟨.span (some 1) (some 4), 0, 0, 0, 0⟩] = py!"1..4" := by decide

end Pyb
