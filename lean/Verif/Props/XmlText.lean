import Verif.Lemmas.XmlTextDoc
import Verif.Props.Xml
import Verif.Props.XPath

/-!
# C97: documents in XML text

`serialise` writes the elements of a binding as text, `decode` reads a text, with a parser
that leaves out comments and the white space between elements.
-/

namespace Pyb
open Py Spec

/-- C97: every text of a document is read as that document: however it is indented, with or
without comments, with any of the forms of references, declarations and empty elements.

Missing: the forms that `XmlDoc` does not have (see `readXml`), and comments after blanks at
the start of a text (`C97_comment_refuted`). -/
theorem C97_layout_partial (x : Xml) (w : Str) (h : XmlDoc x w) : readXml w = some x := readXml_doc h

/-- C97: no text is one of two documents. -/
theorem C97_unambiguous_partial (x y : Xml) (w : Str) (h1 : XmlDoc x w) (h2 : XmlDoc y w) : x = y := by
  have := readXml_doc h1
  rw [readXml_doc h2] at this
  exact (Option.some.inj this).symm

/-- C97: what is written for a document, on one line or indented, is one of its texts, and
it is read as the document, whatever the characters of its texts; except for declarations of
prefixes, which are left out for the namespace around an element. -/
theorem C97_text_partial (pretty : Bool) (x : Xml) (h : Writable x) :
    XmlDoc (asWritten [] x) (writeXml pretty x) ∧ readXml (writeXml pretty x) = some (asWritten [] x) :=
  ⟨writeXml_doc pretty h, readXml_doc (writeXml_doc pretty h)⟩

/-- C97: the text is ASCII, so its encoding does not matter. -/
theorem C97_ascii_partial (pretty : Bool) (x : Xml) (h : Writable x) : Ascii (writeXml pretty x) := by
  rw [writeXml]
  refine ascii_append (write_ascii pretty 0 [] x h) ?_
  cases pretty
  · intro c hc; cases hc
  · intro c hc; simp at hc; subst hc; decide

/-- C97: the documents of bindings are such documents, for all trees, with or without the
conditions of C69. -/
theorem C97_documents_partial (nsOf : Str → Str) (flt : Bool) (name mns : Str) (kids : List (Meta × Schema)) (ns : List Inst) (x : Xml)
    (h1 : Identifier name) (h2 : Uri mns) (hn : XmlNamesAll nsOf kids) (h : xmlDump nsOf flt name mns kids ns = .ok x) : Writable x :=
  xmlDump_writable h1 h2 hn h

/-- C69 with text: what any history of operations leaves in a new binding, written by
`serialise` and read by `decode`, comes back; and so it does from any other text of the same
document, as other programs may write it. -/
theorem C69_text_partial (rx : Str → Str → Bool) (nsOf : Str → Str) (infer : Str → PyVal) (hi : Objectify infer)
    (name mns : Str) (kids : List (Meta × Schema)) (hf : FlatRoot kids) (hnames : GoodNames kids) (ops : List (Path × Op))
    (hops : ∀ x ∈ ops, Plain x.2) (h : EveryKids (XmlValues rx infer) kids (history kids (freshKids kids) ops))
    (h1 : Identifier name) (h2 : Uri mns) (hn : XmlNamesAll nsOf kids) :
    ∃ x ns', xmlDump nsOf true name mns kids (history kids (freshKids kids) ops) = .ok x ∧
      (∀ pretty, (readXml (writeXml pretty x)).map (xmlLoad infer kids (freshKids kids)) = some (ns', none)) ∧
      (∀ w, XmlDoc (asWritten [] x) w → (readXml w).map (xmlLoad infer kids (freshKids kids)) = some (ns', none)) ∧
      SameKids kids (history kids (freshKids kids) ops) ns' := by
  obtain ⟨x, ns', hx, hl, hs⟩ := C69_reachable_partial rx nsOf infer hi name mns kids hf hnames ops hops h
  have hw := C97_documents_partial nsOf true name mns kids _ x h1 h2 hn hx
  have key : ∀ w, XmlDoc (asWritten [] x) w → (readXml w).map (xmlLoad infer kids (freshKids kids)) = some (ns', none) := by
    intro w hd
    rw [readXml_doc hd, Option.map_some, xmlLoad_written, hl]
  exact ⟨x, ns', hx, fun pretty => key _ (C97_text_partial pretty x hw).1, key, hs⟩

/-! ## Prefixes -/

theorem lookup_kept {ds : List (Str × Str)} {p u inh : Str} (h : ds.lookup p = some u) (hu : u ≠ inh) :
    (ds.filter fun d => d.2 ≠ inh).lookup p = some u := by
  induction ds with
  | nil => cases h
  | cons d ds ih =>
    rw [List.lookup_cons] at h
    cases e : p == d.1
    · rw [e] at h
      by_cases hd : d.2 = inh
      · rw [List.filter_cons_of_neg (by simp [hd])]
        exact ih h
      · rw [List.filter_cons_of_pos (by simp [hd]), List.lookup_cons, e]
        exact ih h
    · rw [e] at h
      cases h
      rw [List.filter_cons_of_pos (by simp [hu]), List.lookup_cons, e]

/-- C71 in documents: the element of a leaf has the text RFC 7950 requires, with its prefix
declared, where `inh` is the default namespace around it; but not if the leaf is of another
module than the node it is in, and its value is an identity of the module of that node
(`C71_prefix_refuted`). -/
theorem C71_document_partial (rx : Str → Str → Bool) (nsOf : Str → Str) (m : Meta) (hm : nsOf m.module_ = m.ns) (t : YTy)
    (d : Option PyVal) (v : PyVal) (h : Stored rx t v) (hx : InXml t v) (hw : XmlEncodedWell t v) (inh : Str)
    (hin : ∀ n ids i, t = .ident n ids → ids.lookup v.toStr = some i → i = m.module_ ∨ nsOf i ≠ inh) :
    ∃ y, xmlLeaf nsOf m (t.cls rx d) v true = .ok y ∧ Rfc7950 nsOf m t v (asWritten inh y).decls (asWritten inh y).text := by
  obtain ⟨y, hy, hr, _⟩ := C71_encoding_partial rx nsOf m hm t d v h hx hw
  refine ⟨y, hy, ?_⟩
  obtain ⟨ns, name, ds, tx, ks⟩ := y
  simp only [asWritten, Xml.decls, Xml.text] at hr ⊢
  cases hr with
  | int => exact .int ..
  | str _ _ _ _ h' => exact .str _ _ _ _ h'
  | strEmpty => exact .strEmpty ..
  | tt => exact .tt ..
  | ff => exact .ff ..
  | identHere _ _ _ i _ h1 h2 => exact .identHere _ _ _ i _ h1 h2
  | ident name ids s i pre _ h1 h2 =>
    rcases hin _ _ i rfl h1 with rfl | hne
    · exfalso
      have hw1 : name = py!"identityref" := hw.1
      subst hw1
      obtain ⟨ds', hl⟩ := xmlLeaf_value (rx := rx) nsOf (m := m) (d := d) h.1 hx
      rw [hy] at hl
      simp only [Except.ok.injEq, Xml.elem.injEq, xleafText, leafJ, if_true, serIdentity, PyVal.toStr, h1] at hl
      have := hl.2.2.2.1
      simp only [ne_eq, not_true, if_false, someText] at this
      split at this
      · cases this
      · simp only [Option.some.injEq] at this
        have hlen := congrArg List.length this
        simp at hlen
        omega
    · exact .ident _ _ _ i pre _ h1 (lookup_kept h2 hne)
  | empty => exact .empty ..
  | dec _ _ _ _ _ h1 h2 => exact .dec _ _ _ _ _ h1 h2
  | bin _ _ _ h' => exact .bin _ _ _ h'
  | binEmpty => exact .binEmpty ..
  | bits _ _ _ _ _ h1 h2 => exact .bits _ _ _ _ _ h1 h2
  | bitsEmpty => exact .bitsEmpty ..

theorem uri_of {s : Str} (h1 : s ≠ []) (h2 : (s.all fun c => 32 < c.toNat && c.toNat < 127 && c ≠ '"' && c ≠ '\'' && c ≠ '&' && c ≠ '<') = true) : Uri s := by
  refine ⟨h1, fun c hc => ?_⟩
  have := List.all_eq_true.1 h2 c hc
  simpa [and_assoc] using this

/-- A container of the module `m` with a leaf that the module `n` has added: an identityref
to the identities of `m`. -/
def tPaint : YTy := .ident py!"identityref" [(py!"red", py!"m")]
def inN (name : Str) : Meta := { name := name, ns := py!"urn:n", module_ := py!"n" }
def colourKids : List (Meta × Schema) := [(inM py!"c", .cont false [(inN py!"i", .leaf (tPaint.cls noRx))])]

theorem colour_names : XmlNamesAll demoNs colourKids := by
  simp only [colourKids, XmlNamesAll, XmlNames, and_true]
  refine ⟨ident_of rfl rfl, uri_of (by decide) rfl, ident_of rfl rfl, uri_of (by decide) rfl, ?_⟩
  intro v y i hi
  have hm : i = py!"m" := by
    have : ((tPaint.cls noRx).ser v).idents = [(py!"red", py!"m")] := by cases v <;> rfl
    rw [this, List.lookup_cons] at hi
    cases e : y == py!"red" <;> simp [e] at hi
    exact hi.symm
  subst hm
  exact ⟨ident_of rfl rfl, uri_of (by decide) rfl⟩

/-- C71 fails in documents for a leaf that one module adds to another, if its value is an
identity of that other module: the prefix of the value is not declared. -/
theorem C71_prefix_refuted : ∃ x, Plain (.set (.str py!"red") false) ∧
    xmlDump demoNs true py!"m" py!"urn:m" colourKids (history colourKids (freshKids colourKids) [([.field 0, .field 0], .set (.str py!"red") false)]) = .ok x ∧
    (∀ pretty, readXml (writeXml pretty x) = some (.elem py!"urn:m" py!"m" [] none [.elem py!"urn:m" py!"c" [] none
      [.elem py!"urn:n" py!"i" [] (some py!"m:red") []]])) ∧
    ¬ Rfc7950 demoNs (inN py!"i") tPaint (.str py!"red") [] (some py!"m:red") := by
  refine ⟨.elem py!"urn:m" py!"m" [] none [.elem py!"urn:m" py!"c" [] none [.elem py!"urn:n" py!"i" [(py!"m", py!"urn:m")] (some py!"m:red") []]],
    by simp [Plain], rfl, ?_, ?_⟩
  · intro pretty
    have hw := C97_documents_partial demoNs true py!"m" py!"urn:m" colourKids
      (history colourKids (freshKids colourKids) [([.field 0, .field 0], .set (.str py!"red") false)])
      (.elem py!"urn:m" py!"m" [] none [.elem py!"urn:m" py!"c" [] none [.elem py!"urn:n" py!"i" [(py!"m", py!"urn:m")] (some py!"m:red") []]])
      (ident_of rfl rfl) (uri_of (by decide) rfl) colour_names rfl
    rw [(C97_text_partial pretty _ hw).2]
    rfl
  · intro h
    generalize hd : ([] : List (Str × Str)) = ds at h
    generalize ht : some py!"m:red" = t at h
    cases h with
    | identHere _ _ _ i _ h1 h2 => simp at ht
    | ident _ _ _ i pre _ h1 h2 => subst hd; cases h2

theorem uri_demo {m : Str} (h : Identifier m) : Uri (demoNs m) := by
  refine ⟨by simp [demoNs], fun c hc => ?_⟩
  rcases List.mem_append.1 hc with hc | hc
  · exact (uri_of (s := py!"urn:") (by decide) rfl).2 c hc
  · have hn := name_chars (ident_valid h)
    have := hn.2 c hc
    have ha := ident_ascii h c hc
    have hk := ident_name h c hc
    have hlow : 32 < c.toNat ∧ c.toNat < 127 := by
      simp only [nameChar, cmdChar, isDigit, Bool.or_eq_true, Bool.and_eq_true, decide_eq_true_eq] at hk
      rcases hk with ⟨((((((h | h) | h) | h) | h) | h)), _⟩ | h
      · omega
      · omega
      · omega
      all_goals (subst h; decide)
    refine ⟨hlow.1, hlow.2, this.2.2.2.2.2.2.2.2, this.2.2.2.1, ?_, ?_⟩ <;> (rintro rfl; revert hk; decide)

theorem json_xmlNames : XmlNamesAll demoNs jsonKids := by
  have hm : Uri py!"urn:m" := uri_of (by decide) rfl
  have none : ∀ (t : YTy), (∀ v, ((t.cls noRx).ser v).idents = []) → ∀ v y i, ((t.cls noRx).ser v).idents.lookup y = some i → Identifier i ∧ Uri (demoNs i) := by
    intro t ht v y i hi
    rw [ht] at hi
    cases hi
  have hi : ∀ v y i, ((tIdent.cls noRx).ser v).idents.lookup y = some i → Identifier i ∧ Uri (demoNs i) := by
    intro v y i hi
    have e : ((tIdent.cls noRx).ser v).idents = [(py!"red", py!"n"), (py!"blue", py!"m")] := rfl
    rw [e, List.lookup_cons, List.lookup_cons] at hi
    have : i = py!"n" ∨ i = py!"m" := by
      cases h1 : y == py!"red" <;> cases h2 : y == py!"blue" <;> simp [h1, h2] at hi <;> simp [← hi]
    have hid : Identifier i := by rcases this with rfl | rfl <;> exact ident_of rfl rfl
    exact ⟨hid, uri_demo hid⟩
  simp only [jsonKids, jsonC, jsonL, XmlNamesAll, XmlNames, inM, and_true]
  refine ⟨ident_of rfl rfl, hm, ⟨ident_of rfl rfl, hm, ?_⟩, ⟨ident_of rfl rfl, hm, ?_⟩, ⟨ident_of rfl rfl, hm, hi⟩, ⟨ident_of rfl rfl, hm, ?_⟩,
    ⟨ident_of rfl rfl, hm, ident_of rfl rfl, hm, ?_⟩, ⟨ident_of rfl rfl, hm, ⟨ident_of rfl rfl, hm, ?_⟩, ident_of rfl rfl, hm, ?_⟩, ident_of rfl rfl, hm⟩
  all_goals exact none _ fun _ => rfl

example : ∃ ns', (∀ pretty, (readXml (writeXml pretty xmlDoc)).map (xmlLoad demoInfer jsonKids (freshKids jsonKids)) = some (ns', none)) ∧
    SameKids jsonKids (history jsonKids (freshKids jsonKids) jsonOps) ns' := by
  obtain ⟨x, ns', h1, h2, _, h3⟩ := C69_text_partial noRx demoNs demoInfer demo_objectify py!"m" py!"urn:m" jsonKids json_flat
    ⟨by decide, by decide⟩ jsonOps (by simp [jsonOps, Plain]) (by rw [jsonTree_reached]; exact xml_values) (ident_of rfl rfl)
    (uri_of (by decide) rfl) json_xmlNames
  have e : x = xmlDoc := by
    rw [jsonTree_reached, xmlDoc_written] at h1
    simpa using h1.symm
  subst e
  exact ⟨ns', h2, h3⟩

/-! ## What is written and read -/

/-- A document with special characters and prefixes. -/
def shortDoc : Xml := .elem py!"urn:m" py!"m" [] none [.elem py!"urn:m" py!"c" [] none
  [.elem py!"urn:m" py!"s" [] (some py!"a<b & é\r") [], .elem py!"urn:n" py!"i" [(py!"m", py!"urn:m"), (py!"o", py!"urn:o")] (some py!"o:red") [],
   .elem py!"urn:m" py!"e" [] none []]]

example : writeXml true shortDoc =
    py!"<m xmlns=\"urn:m\">\n  <c>\n    <s>a&lt;b &amp; &#233;&#13;</s>\n    <i xmlns:o=\"urn:o\" xmlns=\"urn:n\">o:red</i>\n    <e/>\n  </c>\n</m>\n" := by rfl

theorem shortDoc_writable : Writable shortDoc := by
  have hm : Uri py!"urn:m" := uri_of (by decide) rfl
  have hn : Uri py!"urn:n" := uri_of (by decide) rfl
  have ho : Uri py!"urn:o" := uri_of (by decide) rfl
  simp only [shortDoc, Writable, WritableAll, and_true]
  refine ⟨ident_of rfl rfl, hm, by simp, by simp, by simp, by simp, ident_of rfl rfl, hm, by simp, by simp, by simp, by simp, ?_, ?_, ?_⟩
  · exact ⟨ident_of rfl rfl, hm, by simp, by simp, fun s e => by cases e; exact ⟨by decide, rfl⟩, by simp⟩
  · refine ⟨ident_of rfl rfl, hn, by decide, ?_, fun s e => by cases e; exact ⟨by decide, rfl⟩, by simp⟩
    intro d hd
    simp at hd
    rcases hd with rfl | rfl
    · exact ⟨ident_of rfl rfl, hm⟩
    · exact ⟨ident_of rfl rfl, ho⟩
  · exact ⟨ident_of rfl rfl, hm, by simp, by simp, by simp, by simp⟩

example : readXml (writeXml true shortDoc) = some (asWritten [] shortDoc) := (C97_text_partial true _ shortDoc_writable).2

/-- Another text of a document: with comments, blanks, other quotes and references. -/
example : XmlDoc (.elem py!"u" py!"a" [] none [.elem py!"u" py!"b" [] (some py!"xA") [], .elem py!"u" py!"c" [] none []])
    py!"<!-- one -->\n<a xmlns='u' >\n\t<b>x<!-- two -->&#x41;</b ><!----><c></c>\n</a>" := by
  have com : ∀ b : Str, (¬ Contains (b ++ ['-']) py!"--") → Comment (py!"<!--" ++ b ++ py!"-->") := fun b h => ⟨b, rfl, h⟩
  have no : ∀ b : Str, '-' ∉ b → ¬ Contains (b ++ ['-']) py!"--" := by
    rintro b hb ⟨x, y, e⟩
    have := congrArg (List.count '-') e
    have h0 : List.count '-' b = 0 := List.count_eq_zero.2 hb
    simp only [List.count_append, h0, List.count_cons, List.count_nil] at this
    simp at this
    omega
  have hst : ∀ name : Str, Identifier name → StartTag py!"u" py!"u" name [] ('<' :: name) :=
    fun name h => ⟨h, [], [], by simp, by simp [Blanks], by simp, by simp, by simp, by simp⟩
  have hb : Renders py!"u" (.elem py!"u" py!"b" [] (some py!"xA") []) py!"<b>x<!-- two -->&#x41;</b >" :=
    .text (s := py!"xA") (v := py!"x<!-- two -->&#x41;") (e := py!"</b >") (hst py!"b" (ident_of rfl rfl))
      (.char (by simp [Blank]) (by decide) (by decide) (by decide) (by decide)
        (.comment (w := py!"<!-- two -->") (by decide) (com py!" two " (no _ (by decide))) (.ref (w := py!"&#x41;") (.hex (ds := py!"41") ⟨by decide, by decide, rfl⟩) .nil)))
      rfl ⟨[' '], rfl, by simp [Blanks, Blank]⟩
  have hcx : Renders py!"u" (.elem py!"u" py!"c" [] none []) py!"<c></c>" :=
    .text (s := []) (v := []) (e := py!"</c>") (hst py!"c" (ident_of rfl rfl)) .nil rfl ⟨[], rfl, by simp [Blanks]⟩
  have ha : Renders [] (.elem py!"u" py!"a" [] none [.elem py!"u" py!"b" [] (some py!"xA") [], .elem py!"u" py!"c" [] none []])
      py!"<a xmlns='u' >\n\t<b>x<!-- two -->&#x41;</b ><!----><c></c>\n</a>" := by
    refine Renders.kids (w := py!"<a xmlns='u' ") (g := ['\n']) (e := py!"</a>")
      [(['\n', '\t'], .elem py!"u" py!"b" [] (some py!"xA") [], py!"<b>x<!-- two -->&#x41;</b >"),
       (py!"<!---->", .elem py!"u" py!"c" [] none [], py!"<c></c>")] ?_ (by simp) ?_ ?_ ?_ ?_
    · refine ⟨ident_of rfl rfl, [((none, py!"u"), [' '], '\'')], [' '], rfl, by simp [Blanks, Blank], ?_, by simp, rfl, rfl⟩
      intro a hm
      simp at hm
      subst hm
      exact ⟨by simp [Blanks, Blank], by simp, .inr rfl, by simp, uri_of (by simp) rfl⟩
    · intro p hp
      simp at hp
      rcases hp with rfl | rfl
      · exact .blank (.inr (.inr rfl)) (.blank (.inr (.inl rfl)) .nil)
      · exact .comment (b := py!"<!---->") (com [] (no _ (by simp))) .nil
    · intro p hp
      simp at hp
      rcases hp with rfl | rfl
      · exact hb
      · exact hcx
    · exact .blank (.inr (.inr rfl)) .nil
    · exact ⟨[], rfl, by simp [Blanks]⟩
  exact ⟨py!"<!-- one -->\n", _, [], rfl, .comment (b := py!"<!-- one -->") (com py!" one " (no _ (by decide))) (.blank (.inr (.inr rfl)) .nil), ha, .nil⟩

/-- C97 fails for a comment after blanks at the start of a text: they are not text then. -/
theorem C97_comment_refuted :
    readXml py!"<s xmlns=\"u\">  x</s>" = some (.elem py!"u" py!"s" [] (some py!"  x") []) ∧
    readXml py!"<s xmlns=\"u\">  <!-- c -->x</s>" = some (.elem py!"u" py!"s" [] (some py!"x") []) := ⟨rfl, rfl⟩

/-- Blanks are text if there is nothing else. -/
example : readXml py!"<s xmlns=\"u\">  </s>" = some (.elem py!"u" py!"s" [] (some py!"  ") []) := rfl

end Pyb
