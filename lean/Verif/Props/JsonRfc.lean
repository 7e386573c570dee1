import Verif.Lemmas.JsonRfc
import Verif.Props.JsonText

/-! # C95: the text is JSON as RFC 8259 has it -/

namespace Pyb
open Py Spec

/-- C95: every JSON text is read, by `loads`, as the document it stands for: with any white space,
any escapes, any numbers, any nesting.  Not covered: objects with two members of one name. -/
theorem C95_rfc8259_read (rf : Str → Option (Int × Int)) (j : J) (s : Str) (h : Rfc8259 rf j s) : loadsDoc rf (.str s) = .ok j := by
  obtain ⟨t, w, w', hw, hw', ht, rfl⟩ := h
  obtain ⟨⟨c, r, rfl, hc⟩, h⟩ := rfc_reads ht
  have := h ((w ++ c :: r ++ w').length + 1) w' (by simp only [List.length_append]; omega) (numEnd_blank' hw')
  have e : skipSpace (w ++ c :: r ++ w') = c :: r ++ w' := by
    rw [List.append_assoc, skipSpace_blank hw, List.cons_append, skip_start hc]
  have e' : skipSpace w' = [] := by
    have := skipSpace_blank hw' []
    rwa [List.append_nil] at this
  rw [loadsDoc, jsonParse, e, this]
  simp only [e', if_true]

/-- C95: so are files with such a text, by `load`. -/
theorem C95_rfc8259_file (rf : Str → Option (Int × Int)) (j : J) (s : Str) (hj : Structured j) (h : Rfc8259 rf j s) : loadDoc rf (some s) = .ok j :=
  load_structured hj (C95_rfc8259_read rf j s h)

/-- C95: what `dumps` writes is a JSON text of the document. -/
theorem C95_rfc8259_written (fl : Int × Int → Str) (rf : Str → Option (Int × Int)) (ind : Option Nat) (j : J)
    (hm : MembersApart j) (hf : FloatsBack fl rf j) : Rfc8259 rf j (jsonText ind fl 0 j) :=
  ⟨_, [], [], blank_nil, blank_nil, text_rfc ind 0 j hm hf, by simp⟩

/-- C95: a text stands for one document only, so another program that keeps to the RFC reads the
same. -/
theorem C95_rfc8259_unique (rf : Str → Option (Int × Int)) (i j : J) (s : Str) (hi : Rfc8259 rf i s) (hj : Rfc8259 rf j s) : i = j := by
  have h1 := C95_rfc8259_read rf i s hi
  have h2 := C95_rfc8259_read rf j s hj
  rw [h1] at h2
  exact Except.ok.inj h2

/-- An object with an escaped slash, odd white space, `-0`, and `2E+3`, which is the float 2000. -/
example (rf : Str → Option (Int × Int)) (h : rf py!"2E+3" = some (2000, 0)) :
    loadsDoc rf (.str py!" {\"\\u004A\\/b\" : [1 ,-0, 2E+3]}\n") = .ok (.obj [(py!"J/b", .arr [.num 1, .num 0, .float (2000, 0)])]) := by
  have b0 : JsonBlank [] := blank_nil
  have b1 : JsonBlank [' '] := by simp [JsonBlank]
  have hd : Digits ['3'] := ⟨by simp, by simp [isDigit]⟩
  have f : RfcText rf (.value (.float (2000, 0))) py!"2E+3" :=
    .float _ _ ⟨[], 2, [], py!"E+3", rfl, .inl rfl, .inl rfl, .inr ⟨'E', ['+'], ['3'], rfl, .inr rfl, .inr (.inr rfl), hd⟩, .inr (by decide)⟩ h
  have i1 : RfcText rf (.value (.num 1)) ['1'] := .integer 1 _ ⟨1, .inl ⟨rfl, rfl⟩⟩
  have i0 : RfcText rf (.value (.num 0)) ['-', '0'] := .integer 0 _ ⟨0, .inr ⟨rfl, rfl⟩⟩
  have xs := RfcText.elements _ _ _ _ [' '] [] i1 b1 b0 (.elements _ _ _ _ [] [' '] i0 b0 b1 (.element _ _ f))
  have a := RfcText.array _ _ [] [] b0 b0 xs
  have k : StringText py!"J/b" py!"\"\\u004A\\/b\"" :=
    ⟨py!"\\u004A\\/b", .cons 'J' _ py!"\\u004A" py!"\\/b" (.one 'J' py!"004A" ⟨'0', '0', '4', 'A', 0, 0, 4, 10, rfl, by simp [HexDigit], by simp [HexDigit], by simp [HexDigit], by simp [HexDigit], rfl⟩)
      (.cons '/' _ py!"\\/" py!"b" .slash (.cons 'b' [] ['b'] [] (.plain 'b' (by decide) (by decide) (by decide)) .nil)), rfl⟩
  have o := RfcText.object _ _ [] [] b0 b0 (.member _ _ _ _ [' '] [' '] k b1 b1 a) (by simp)
  exact C95_rfc8259_read rf _ _ ⟨_, [' '], ['\n'], b1, by simp [JsonBlank], o, rfl⟩

end Pyb
