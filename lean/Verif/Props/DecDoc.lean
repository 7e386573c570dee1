import Verif.Lemmas.DecDoc
import Verif.Props.Json
import Verif.Props.DecRange

/-! # C86: decimal64 values survive documents -/

namespace Pyb
open Py Spec

/-- C86: in native JSON (a float), for every number of fraction digits every value of fewer
than 2^52 units (so: of up to 15 digits) comes back as it was.  Missing: values of more
digits, see `C86_digits_refuted`. -/
theorem C86_native_partial (fd : Nat) (k : Int) (hk : k.natAbs < 2 ^ 52) :
    readDecimal fd (dumpDecimal true ⟨k, -fd⟩) = .ok ⟨k, -fd⟩ := by
  simp only [readDecimal, dumpDecimal, if_true, DecDoc.arg, decBase, DArg.decimal, bind, Except.bind]
  exact quantize_float fd k hk

/-- C86: in IETF JSON and XML (a text), every value of up to 28 digits comes back. -/
theorem C86_text (fd : Nat) (k : Int) (hk : k.natAbs < 10 ^ 28) :
    readDecimal fd (dumpDecimal false ⟨k, -fd⟩) = .ok ⟨k, -fd⟩ := by
  have := (C46_decimal_partial fd k hk).1
  simp only [loadDecimal, setDecimal] at this
  simp only [readDecimal, dumpDecimal, DecDoc.arg, decBase, DArg.decimal, bind, Except.bind, Bool.false_eq_true, if_false]
  cases h : decOfStr (decStr ⟨k, -fd⟩) with
  | error e => rw [h] at this; cases this
  | ok x => rw [h] at this; exact this

/-- C86: in particular whatever was assigned to the leaf comes back from a text. -/
theorem C86_assigned_text (fd : Nat) (v : DArg) (x : Dec) (h : decBase (some fd) v = .ok x) :
    readDecimal fd (dumpDecimal false x) = .ok x := by
  simp only [decBase, bind, Except.bind] at h
  cases hv : v.decimal with
  | error e => rw [hv] at h; cases h
  | ok y =>
    rw [hv] at h
    replace h : quantize y fd = .ok x := h
    obtain ⟨k, _, hq⟩ := quantize_result y fd
    rw [hq] at h
    split at h
    · next hk =>
      simp only [Except.ok.injEq] at h
      subst h
      exact C86_text fd k hk
    · cases h

/-- C86, types with a range: a text is taken exactly if the decimal it was written for is,
and gives that decimal, whatever the range. -/
theorem C86_range_text (specs : List Str) (x : Dec) :
    readDecRange specs (dumpDecimal false x) = setDecRange none specs (.dec x) := by
  have hd : DArg.decimal (.text (decStr x)) = .ok x := decOfStr_decStr x
  have hne : decStr x ≠ [] := by
    intro h
    have := decOfStr_decStr x
    rw [h] at this
    have e : decOfStr [] = .error .invalidOperation := by decide
    rw [e] at this
    cases this
  have hb : decBase none (.text (decStr x)) = .ok x := hd
  have hb' : decBase none (.dec x) = .ok x := rfl
  have hn : ∀ ts, newCheck none ts (.text (decStr x)) = newCheck none ts (.dec x) := by
    intro ts
    simp only [newCheck, DArg.truthy, hb, hb', decide_eq_true_eq, hne, ne_eq, not_false_eq_true, if_true]
    split <;> rfl
  simp only [readDecRange, dumpDecimal, Bool.false_eq_true, if_false, DecDoc.arg, setDecRange, decNew, decInit, hn, hb, hb']

/-- C86 is false of native JSON for types with a range: the value that is read is not
rounded to the digits of the type.  0.1 comes back as the float next to it. -/
theorem C86_range_refuted :
    setDecRange none (genSpecs py!"0..1") (.text py!"0.1") = .ok ⟨1, -1⟩ ∧
    readDecRange (genSpecs py!"0..1") (dumpDecimal true ⟨1, -1⟩) =
      .ok ⟨10000000000000000555111512312578270211815834045410156250, -56⟩ := by
  decide

/-- C86 is false of native JSON for values of 16 digits and more, which `decimal64` has:
82181351804610.49 is a value with two digits, and comes back as 82181351804610.48; with one
digit 1004550283168670.7 comes back as 1004550283168670.8. -/
theorem C86_digits_refuted :
    setDecimal 2 none ⟨8218135180461049, -2⟩ = .ok ⟨8218135180461049, -2⟩ ∧
    readDecimal 2 (dumpDecimal true ⟨8218135180461049, -2⟩) = .ok ⟨8218135180461048, -2⟩ := by decide

example : readDecimal 2 (dumpDecimal true ⟨-10, -2⟩) = .ok ⟨-10, -2⟩ := by decide
example : readDecimal 18 (dumpDecimal false ⟨9223372036854775807, -18⟩) = .ok ⟨9223372036854775807, -18⟩ := by
  decide

end Pyb
