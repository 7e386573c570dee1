import Verif.Lemmas.JsonTextDoc
import Verif.Props.Json
import Verif.Props.Native
import Verif.Props.ExtDoc

/-!
# C95: documents in files, and in text

`dump` writes the document of a binding to a file as text, `load` and `load_ietf` read it.
A file is its content, or `none` if there is none; what `dump` does to it is a sequence of
steps, so that a crash may come between any two.
-/

namespace Pyb
open Py Spec

theorem fileAfter_append (f : Option Str) (a b : List FileStep) : fileAfter f (a ++ b) = fileAfter (fileAfter f a) b := by
  rw [fileAfter, List.foldl_append]
  rfl

theorem fileAfter_put (s t : Str) : fileAfter (some t) (s.map .put) = some (t ++ s) := by
  induction s generalizing t with
  | nil => rw [List.map_nil, List.append_nil]; rfl
  | cons c s ih =>
    rw [List.map_cons, show fileAfter (some t) (FileStep.put c :: s.map .put) = fileAfter (some (t ++ [c])) (s.map .put) from rfl, ih]
    rw [List.append_assoc]
    rfl

theorem fileAfter_dump (before : Option Str) (s : Str) : fileAfter before (dumpSteps true (.ok s)).1 = some s := by
  rw [show (dumpSteps true (.ok s)).1 = FileStep.truncate :: s.map .put from rfl,
    show fileAfter before (FileStep.truncate :: s.map .put) = fileAfter (some []) (s.map .put) from rfl, fileAfter_put]
  rfl

theorem loadsDoc_structured {rf : Str → Option (Int × Int)} {j : J} (h : Structured j) : loadsDoc rf j = .ok j := by
  cases j <;> first | rfl | cases h

theorem load_structured {rf : Str → Option (Int × Int)} {s : Str} {j : J} (hj : Structured j) (h : jsonParse rf s = .ok j) :
    loadDoc rf (some s) = .ok j := by
  rw [loadDoc, h]
  exact loadsDoc_structured hj

/-- C95: the text that `dumps` makes of a document is read, by `loads`, as that document,
whatever the indentation, the strings and the nesting.  Not covered: objects with two
members of one name (there are none in documents of bindings, `C95_names_partial`), and
floats that Python does not read as it writes them (there are none; but float text is not
modelled). -/
theorem C95_text_partial (fl : Int × Int → Str) (rf : Str → Option (Int × Int)) (ind : Option Nat) (j : J)
    (hm : MembersApart j) (hf : FloatsBack fl rf j) : loadsDoc rf (.str (jsonText ind fl 0 j)) = .ok j :=
  jsonParse_text ind j hm hf

/-- C95: a document that is written to a file by `dump` is what `load` then reads,
whatever was in the file before. -/
theorem C95_file_partial (fl : Int × Int → Str) (rf : Str → Option (Int × Int)) (ind : Option Nat) (j : J) (before : Option Str)
    (hj : Structured j) (hm : MembersApart j) (hf : FloatsBack fl rf j) :
    (dumpSteps true (.ok (jsonText ind fl 0 j))).2 = none ∧
    loadDoc rf (fileAfter before (dumpSteps true (.ok (jsonText ind fl 0 j))).1) = .ok j := by
  refine ⟨rfl, ?_⟩
  rw [fileAfter_dump]
  exact load_structured hj (jsonParse_text ind j hm hf)

/-- C95: the text is ASCII, so the encoding of the file does not matter. -/
theorem C95_ascii_partial (fl : Int × Int → Str) (rf : Str → Option (Int × Int)) (ind : Option Nat) (j : J) (hf : FloatsBack fl rf j) :
    Ascii (jsonText ind fl 0 j) :=
  jsonText_ascii ind 0 j hf

/-- C95: no object of an IETF document of a binding has two members of one name, and there
are no floats in it; this is for every tree, with or without the conditions of C38. -/
theorem C95_names_partial (fl : Int × Int → Str) (rf : Str → Option (Int × Int)) (o : DumpOpt) (kids : List (Meta × Schema)) (ns : List Inst) (j : J)
    (hg : GoodNames kids) (hn : EveryKids NamedIetf kids ns) (h : ietfDump o kids ns = .ok j) :
    Structured j ∧ MembersApart j ∧ FloatsBack fl rf j := by
  have ht : MembersApart j ∧ FloatsBack fl rf j := ietfDump_ok o hg hn h
  refine ⟨?_, ht⟩
  rw [ietfDump] at h
  cases hk : ietfKids o none kids ns with
  | error e => simp [hk, Except.map] at h
  | ok ms =>
    simp only [hk, Except.map, Except.ok.injEq] at h
    subst h
    trivial

/-- The same for the default encoding, without the floats. -/
theorem C95_native_names_partial (kids : List (Meta × Schema)) (ns : List Inst) (j : J)
    (hg : GoodNames kids) (hn : EveryKids NamedNative kids ns) (h : nativeDump kids ns = .ok j) : Structured j ∧ MembersApart j := by
  refine ⟨?_, nativeDump_apart hg hn h⟩
  rw [nativeDump] at h
  cases hk : nativeKids kids ns with
  | error e => simp [hk, Except.map] at h
  | ok ms =>
    simp only [hk, Except.map, Except.ok.injEq] at h
    subst h
    trivial

theorem values_named {rx : Str → Str → Bool} {m : Meta} {S : Schema} {n : Inst} (h : ValuesReady rx m S n) : NamedIetf m S n := by
  cases S <;> cases n <;> first | exact h.1 | trivial | exact h.elim

theorem native_named {repr : J → Str} {m : Meta} {S : Schema} {n : Inst} (h : NativeReady repr m S n) : NamedNative m S n := by
  cases S <;> cases n <;> first | exact ⟨h.1, h.2.2.1, h.2.2.2.2.2⟩ | exact h.2.1 | trivial | exact h.elim

/-- C38 with files: what any history of operations leaves in a new binding, written by
`dump(obj, fn, mode="ietf")` and read by `load_ietf(fn, ...)`, comes back. -/
theorem C38_file_partial (fl : Int × Int → Str) (rf : Str → Option (Int × Int)) (ind : Option Nat) (before : Option Str)
    (rx : Str → Str → Bool) (g : LoadOpt) (hov : g.over = false) (hu : FreshUuid g.uuid)
    (kids : List (Meta × Schema)) (hf : FlatRoot kids) (hnames : GoodNames kids) (ops : List (Path × Op))
    (hops : ∀ x ∈ ops, Plain x.2) (h : EveryKids (ValuesReady rx) kids (history kids (freshKids kids) ops)) :
    ∃ ns', (dumpSteps true ((ietfDump {} kids (history kids (freshKids kids) ops)).map (jsonText ind fl 0))).2 = none ∧
      (loadDoc rf (fileAfter before (dumpSteps true ((ietfDump {} kids (history kids (freshKids kids) ops)).map (jsonText ind fl 0))).1)).map
        (ietfLoad g kids (freshKids kids)) = .ok (ns', none) ∧
      SameKids kids (history kids (freshKids kids) ops) ns' := by
  obtain ⟨j, ns', h1, h2, h3⟩ := C38_reachable_partial rx g hov hu kids hf hnames ops hops h
  obtain ⟨hj, hm, hfl⟩ := C95_names_partial fl rf {} kids _ j hnames (everyKids_imp (fun _ _ _ => values_named) h) h1
  refine ⟨ns', ?_, ?_, h3⟩
  · rw [h1]
    rfl
  · rw [h1, show (Except.ok j : Except Err J).map (jsonText ind fl 0) = .ok (jsonText ind fl 0 j) from rfl,
      (C95_file_partial fl rf ind j before hj hm hfl).2, ← h2]
    rfl

/-- C39 with files; Python writes each float of the document (the decimals) so that it
reads the same. -/
theorem C39_file_partial (fl : Int × Int → Str) (rf : Str → Option (Int × Int)) (ind : Option Nat) (before : Option Str)
    (rx : Str → Str → Bool) (g : LoadOpt) (hov : g.over = false)
    (kids : List (Meta × Schema)) (hf : FlatRoot kids) (hnames : GoodNames kids) (ops : List (Path × Op))
    (hops : ∀ x ∈ ops, Plain x.2) (h : EveryKids (NativeValues rx) kids (history kids (freshKids kids) ops))
    (hfl : ∀ j, nativeDump kids (history kids (freshKids kids) ops) = .ok j → FloatsBack fl rf j) :
    ∃ ns', (dumpSteps true ((nativeDump kids (history kids (freshKids kids) ops)).map (jsonText ind fl 0))).2 = none ∧
      (loadDoc rf (fileAfter before (dumpSteps true ((nativeDump kids (history kids (freshKids kids) ops)).map (jsonText ind fl 0))).1)).map
        (nativeLoad g kids (freshKids kids)) = .ok (ns', none) ∧
      SameKids kids (history kids (freshKids kids) ops) ns' := by
  obtain ⟨j, ns', h1, h2, h3⟩ := C39_reachable_partial rx g hov kids hf hnames ops hops h
  have hr := history_native (repr := g.repr) hf hops h
  obtain ⟨hj, hm⟩ := C95_native_names_partial kids _ j hnames (everyKids_imp (fun _ _ _ => native_named) hr) h1
  refine ⟨ns', ?_, ?_, h3⟩
  · rw [h1]
    rfl
  · rw [h1, show (Except.ok j : Except Err J).map (jsonText ind fl 0) = .ok (jsonText ind fl 0 j) from rfl,
      (C95_file_partial fl rf ind j before hj hm (hfl j h1)).2, ← h2]
    rfl

/-! ## Crashes -/

theorem put_split {s : Str} {a b : List FileStep} (h : s.map FileStep.put = a ++ b) : ∃ p q, s = p ++ q ∧ a = p.map .put ∧ b = q.map .put := by
  obtain ⟨p, q, h1, h2, h3⟩ := List.map_eq_append_iff.1 h
  exact ⟨p, q, h1, h2.symm, h3.symm⟩

/-- C95: if the program stops at any moment while `dump` writes a document, the file is as
it was before, or it is read as the new document, or it cannot be read (`ValueError`).  It is
never read as some other document. -/
theorem C95_crash_partial (fl : Int × Int → Str) (rf : Str → Option (Int × Int)) (ind : Option Nat) (j : J) (before f : Option Str)
    (hj : Structured j) (hm : MembersApart j) (hf : FloatsBack fl rf j)
    (h : FileAtCrash before (dumpSteps true (.ok (jsonText ind fl 0 j))).1 f) :
    f = before ∨ loadDoc rf f = .ok j ∨ loadDoc rf f = .error .valueError := by
  obtain ⟨done, rest, hs, rfl⟩ := h
  cases done with
  | nil => exact .inl rfl
  | cons x done =>
    refine .inr ?_
    rw [show (dumpSteps true (.ok (jsonText ind fl 0 j))).1 = FileStep.truncate :: (jsonText ind fl 0 j).map .put from rfl,
      List.cons_append, List.cons.injEq] at hs
    obtain ⟨rfl, hs⟩ := hs
    obtain ⟨p, q, he, rfl, rfl⟩ := put_split hs
    rw [show fileAfter before (FileStep.truncate :: p.map .put) = fileAfter (some []) (p.map .put) from rfl, fileAfter_put, List.nil_append]
    cases q with
    | nil =>
      rw [List.append_nil] at he
      rw [← he]
      exact .inl (load_structured hj (jsonParse_text ind j hm hf))
    | cons c q =>
      refine .inr ?_
      rw [loadDoc, jsonParse_cut ind j hj hm hf p (c :: q) (by simp) he]
      rfl

def noFl : Int × Int → Str := fun _ => []
def noRf : Str → Option (Int × Int) := fun _ => none

/-- C95 fails: after a crash the file may hold neither the old document nor the new one,
since it is emptied before anything is written. -/
theorem C95_crash_refuted :
    loadDoc noRf (some py!"{}") = .ok (.obj []) ∧
    FileAtCrash (some py!"{}") (dumpSteps true (.ok (jsonText none noFl 0 (.arr [])))).1 (some []) ∧
    loadDoc noRf (some []) = .error .valueError :=
  ⟨rfl, ⟨[.truncate], _, rfl, rfl⟩, rfl⟩

/-- C95 fails: `dump` empties the file before it makes the document, so if that raises
(here a leaf-list of binary values, set by `append`) the old document is lost. -/
theorem C95_failure_refuted (before : Option Str) (ind : Option Nat) (fl : Int × Int → Str) :
    ∃ e, (dumpSteps true ((ietfDump {} binsKids
        (history binsKids (freshKids binsKids) [([.field 0], .ll (.append (.str py!"aGk=")))])).map (jsonText ind fl 0))).2 = some e ∧
      fileAfter before (dumpSteps true ((ietfDump {} binsKids
        (history binsKids (freshKids binsKids) [([.field 0], .ll (.append (.str py!"aGk=")))])).map (jsonText ind fl 0))).1 = some [] ∧
      loadDoc noRf (some []) = .error .valueError := by
  obtain ⟨h1, ⟨e, h2⟩, _⟩ := C38_binary_leaflist_refuted
  rw [h1, h2]
  exact ⟨e, rfl, rfl, rfl⟩

/-- C95: a file that cannot be opened is left as it is, and `dump` raises; reading a file
that does not exist raises. -/
theorem C95_unopened (doc : Except Err Str) (before : Option Str) (rf : Str → Option (Int × Int)) :
    (∃ e, (dumpSteps false doc).2 = some e) ∧ fileAfter before (dumpSteps false doc).1 = before ∧ (∃ e, loadDoc rf none = .error e) :=
  ⟨⟨_, rfl⟩, rfl, ⟨_, rfl⟩⟩

/-- C95: `load` and `loads` of the content of the file are the same, for any content that
is the text of an object or an array. -/
theorem C95_loads_partial (rf : Str → Option (Int × Int)) (s : Str) (j : J) (hj : Structured j) (h : loadsDoc rf (.str s) = .ok j) :
    loadDoc rf (some s) = .ok j :=
  load_structured hj h

/-- They are not if the document is a string: `load` parses what is in the string. -/
theorem C95_string_refuted :
    loadsDoc noRf (.str (jsonText none noFl 0 (.str py!"{}"))) = .ok (.str py!"{}") ∧
    loadDoc noRf (some (jsonText none noFl 0 (.str py!"{}"))) = .ok (.obj []) := ⟨rfl, rfl⟩

/-! ## Cases -/

/-- A document with an escape, a control character, a character above `0xffff` and an empty
object, written with an indentation of 4. -/
def textDoc : J := .obj [(py!"m:c", .arr [.str ['a', '"', '\n', Char.ofNat 1, Char.ofNat 0x1f600], .num (-12), .obj [], .null]), (py!"m:b", .bool true)]

theorem textDoc_apart : MembersApart textDoc := by simp [textDoc, MembersApart, MembersApartAll, MembersApartMems]

theorem textDoc_floats (fl : Int × Int → Str) (rf : Str → Option (Int × Int)) : FloatsBack fl rf textDoc := by
  simp [textDoc, FloatsBack, FloatsBackAll, FloatsBackMems]

example : jsonText none noFl 0 (.obj [(py!"m:c", .arr [.str ['a', '"', '\n', Char.ofNat 1], .num (-12), .obj [], .null]), (py!"m:b", .bool true)]) =
    py!"{\"m:c\": [\"a\\\"\\n\\u0001\", -12, {}, null], \"m:b\": true}" := rfl

example (before : Option Str) : loadDoc noRf (fileAfter before (dumpSteps true (.ok (jsonText (some 4) noFl 0 textDoc))).1) = .ok textDoc :=
  (C95_file_partial noFl noRf (some 4) textDoc before trivial textDoc_apart (textDoc_floats _ _)).2

/-- A float. -/
example : FloatsBack (fun _ => py!"1.5e-07") (fun s => if s = py!"1.5e-07" then some (15, -8) else none) (.float (15, -8)) :=
  ⟨⟨[], 1, py!".5", py!"e-07", rfl, .inl rfl, .inr ⟨py!"5", rfl, by simp, by decide⟩, .inr ⟨['-'], py!"07", rfl, .inr (.inl rfl), by simp, by decide⟩, .inl (by simp)⟩, rfl⟩

/-- The tree of `Props/Json` meets the conditions of `C38_file_partial` and `C39_file_partial`. -/
example (before : Option Str) : ∃ ns',
    (loadDoc noRf (fileAfter before (dumpSteps true (.ok (jsonText (some 4) noFl 0 jsonDoc))).1)).map (ietfLoad demoLoad jsonKids (freshKids jsonKids)) = .ok (ns', none) ∧
    SameKids jsonKids jsonTree ns' := by
  obtain ⟨ns', _, h2, h3⟩ := C38_file_partial noFl noRf (some 4) before noRx demoLoad rfl demoUuid_fresh jsonKids json_flat ⟨by decide, by decide⟩
    jsonOps (by simp [jsonOps, Plain]) (by rw [jsonTree_reached]; exact json_values)
  rw [jsonTree_reached, jsonTree_written] at h2
  rw [jsonTree_reached] at h3
  exact ⟨ns', h2, h3⟩

example (before : Option Str) : ∃ ns',
    (loadDoc noRf (fileAfter before (dumpSteps true (.ok (jsonText (some 4) noFl 0 jsonNative))).1)).map (nativeLoad demoLoad jsonKids (freshKids jsonKids)) = .ok (ns', none) ∧
    SameKids jsonKids jsonTree ns' := by
  obtain ⟨ns', _, h2, h3⟩ := C39_file_partial noFl noRf (some 4) before noRx demoLoad rfl jsonKids json_flat ⟨by decide, by decide⟩
    jsonOps (by simp [jsonOps, Plain]) (by rw [jsonTree_reached]; exact json_native_values) (by
      intro j hj
      rw [jsonTree_reached, jsonNative_written] at hj
      cases hj
      simp [jsonNative, FloatsBack, FloatsBackAll, FloatsBackMems])
  rw [jsonTree_reached, jsonNative_written] at h2
  rw [jsonTree_reached] at h3
  exact ⟨ns', h2, h3⟩

/-- A crash after three characters. -/
example : FileAtCrash none (dumpSteps true (.ok (jsonText none noFl 0 textDoc))).1 (some py!"{\"m") :=
  ⟨[.truncate, .put '{', .put '"', .put 'm'], _, rfl, rfl⟩

end Pyb
