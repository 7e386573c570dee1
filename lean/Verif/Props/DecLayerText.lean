import Verif.Props.DecLayer
import Verif.Props.DecimalText

/-! # C85: texts that are no decimals -/

namespace Pyb
open Py Spec

theorem decOfStr_not {s : Str} (h : ∀ x, ¬ WrittenDecimal s x) : ∃ e, decOfStr s = .error e := by
  cases hd : decOfStr s with
  | error e => exact ⟨e, rfl⟩
  | ok x => exact absurd ((C85_decimal_text s x).1 hd) (h x)

/-- The exception is always that of `decimal`. -/
theorem decOfStr_error {s : Str} {e : Err} (h : decOfStr s = .error e) : e = .invalidOperation := by
  have hu : ∀ (u : Str) (e : Err), decOfUnsigned u = .error e → e = .invalidOperation := by
    intro u e h
    simp only [decOfUnsigned] at h
    split at h
    · exact (Except.error.inj h).symm
    · split at h
      · simp at h
      · split at h
        · simp at h
        · exact (Except.error.inj h).symm
  have hm : ∀ (u : Str) (f : Nat × Int → Dec) (e : Err), (decOfUnsigned u).map f = .error e → e = .invalidOperation := by
    intro u f e h
    cases hd : decOfUnsigned u with
    | ok r => rw [hd] at h; simp [Except.map] at h
    | error e' =>
      rw [hd] at h
      simp only [Except.map, Except.error.injEq] at h
      exact h ▸ hu u e' hd
  unfold decOfStr decOfBare at h
  split at h
  · exact hm _ _ _ h
  · exact hm _ _ _ h
  · exact hm _ _ _ h

theorem checks_plain {ws : List DecWritten} (h : RangeOk ws) : ∃ ts, (genSpecs (decRangeText ws)).mapM (buildDChk none) = .ok ts ∧
    ∀ x, decRangeCheck ts x = true ↔ DecAllowed ws x :=
  checks_of h.parts (fun w hw l hl => ⟨h.lits w hw l hl, _, reads_plain (h.lits w hw l hl)⟩)
    (fun w hw l hl y hy => by rw [reads_plain_eq (h.lits w hw l hl) hy]; exact decSame_refl _)
    (fun w hw l hl y hy => by
      rw [reads_plain_eq (h.lits w hw l (by simp [hl, DecPart.lits])) hy]; exact h.singles w hw l hl)

/-- C85 is false for the texts that are no numbers, whatever the range: they raise the `InvalidOperation` of `decimal`, which
is no `ValueError`. -/
theorem C85_no_number_refuted (ws : List DecWritten) (h : RangeOk ws) (s : Str) (hne : s ≠ []) (hs : ∀ x, ¬ WrittenDecimal s x) :
    setDecRange none (genSpecs (decRangeText ws)) (.text s) = .error .invalidOperation := by
  obtain ⟨ts, hts, _⟩ := checks_plain h
  obtain ⟨e, he⟩ := decOfStr_not hs
  cases decOfStr_error he
  have ht : (DArg.text s).truthy = true := by simp [DArg.truthy, hne]
  simp [setDecRange, hts, bind, Except.bind, decNew, newCheck, ht, decBase, DArg.decimal, he, decInit, pure, Except.pure]

/-- C85 is false for these texts where a range is put on a typedef that has a range: no exception at all, and the leaf holds 0,
be that in the ranges or not. -/
theorem C85_layers_text_refuted (ws1 ws2 : List DecWritten) (h1 : RangeOk ws1) (h2 : RangeOk ws2)
    (hin : ∀ w ∈ ws2, ∀ l ∈ w.part.lits, DecAllowed ws1 l.value) (s : Str) (hne : s ≠ []) (hs : ∀ x, ¬ WrittenDecimal s x) :
    setDecLayer none (genSpecs (decRangeText ws1)) (genSpecs (decRangeText ws2)) (.text s) = .ok ⟨0, 0⟩ := by
  obtain ⟨ts1, a1, b1⟩ := checks_plain h1
  obtain ⟨ts2, a2, _⟩ := checks_plain h2
  have a3 := layer_builds b1 h2.parts (fun w hw l hl => ⟨h2.lits w hw l hl, _, reads_plain (h2.lits w hw l hl)⟩)
    (fun w hw l hl y hy => by rw [reads_plain_eq (h2.lits w hw l hl) hy]; exact decSame_refl _) hin a2
  obtain ⟨e, he⟩ := decOfStr_not hs
  have ht : (DArg.text s).truthy = true := by simp [DArg.truthy, hne]
  have hc : decNew none ts1 (.text s) = .error .typeError := by
    simp [decNew, newCheck, ht, decBase, DArg.decimal, he, bind, Except.bind]
  have hd : decCall none ts1 (.text s) = .error .typeError := by simp [decCall, hc, bind, Except.bind]
  simp [setDecLayer, a1, a3, layerNew, layerCheck, layerInit, ht, hd, bind, Except.bind, pure, Except.pure, decZero]

/-- `ten` is no number. -/
theorem ten_not : ∀ x, ¬ WrittenDecimal py!"ten" x := fun x h => by
  have h1 := (C85_decimal_text _ x).2 h
  rw [show decOfStr py!"ten" = .error .invalidOperation by decide] at h1
  cases h1

example : setDecRange none (genSpecs (decRangeText demoRange)) (.text py!"ten") = .error .invalidOperation :=
  C85_no_number_refuted _ demoRange_ok.1 _ (by decide) ten_not

/-- Zero is in neither of these ranges. -/
example : setDecLayer none (genSpecs (decRangeText demoRange)) (genSpecs (decRangeText demoInner)) (.text py!"ten") = .ok ⟨0, 0⟩ ∧
    setDecLayer none (genSpecs (decRangeText demoRange)) (genSpecs (decRangeText demoInner)) (.int 0) = .error .valueError := by decide

end Pyb
