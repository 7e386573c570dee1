import Verif.Lemmas.SaveXml
import Verif.Props.Save
import Verif.Props.XmlText

/-! # C99 for XML -/

namespace Pyb
open Py Spec

/-- C99 for XML: what any proper program leaves in the binding of a supported module, written by
`serialise` and read by `decode` into a new binding, comes back; and so it does from any other text
of the same document. -/
theorem C99_xml_partial (rx : Str → Str → Bool) (nsOf : Str → Str) (infer : Str → PyVal) (hi : Objectify infer) (name mns : Str)
    (h1 : Identifier name) (h2 : Uri mns) (genPres : Bool) (f : List YNode) (H : Supported f) (hn : XmlNamed nsOf f)
    (acts : List Act) (hp : Proper (genModule genPres f) acts)
    (h : EveryKids (XKept rx infer) (genModule genPres f) (session (genModule genPres f) (freshKids (genModule genPres f)) acts)) :
    ∃ x ns', xmlDump nsOf true name mns (genModule genPres f) (session (genModule genPres f) (freshKids (genModule genPres f)) acts) = .ok x ∧
      (∀ pretty, (readXml (writeXml pretty x)).map (xmlLoad infer (genModule genPres f) (freshKids (genModule genPres f))) = some (ns', none)) ∧
      (∀ w, XmlDoc (asWritten [] x) w → (readXml w).map (xmlLoad infer (genModule genPres f) (freshKids (genModule genPres f))) = some (ns', none)) ∧
      SameKids (genModule genPres f) (session (genModule genPres f) (freshKids (genModule genPres f)) acts) ns' := by
  obtain ⟨x, ns', hx, hl, hs⟩ := C69_session_partial rx nsOf infer hi name mns _ (genModule_flat genPres f H.nesting H.shadow)
    (genModule_keyed (supported_keys H)) (gen_good H (.inl rfl)) acts (fun p op h => (hp.1 p op h).1) (session_xready H hp h)
  have hw := C97_documents_partial nsOf true name mns _ _ x h1 h2 (xnames_nodes none f fun e he s hs => hn e s he hs) hx
  have key : ∀ w, XmlDoc (asWritten [] x) w → (readXml w).map (xmlLoad infer (genModule genPres f) (freshKids (genModule genPres f))) = some (ns', none) := by
    intro w hd
    rw [readXml_doc hd, Option.map_some, xmlLoad_written, hl]
  exact ⟨x, ns', hx, fun pretty => key _ (C97_text_partial pretty x hw).1, key, hs⟩

/-- C99 for XML and modules of leaves of safe types: only that no leaf holds an empty string, or one
with characters XML does not have. -/
theorem C99_xml_leaves_partial (rx : Str → Str → Bool) (nsOf : Str → Str) (infer : Str → PyVal) (hi : Objectify infer) (name mns : Str)
    (h1 : Identifier name) (h2 : Uri mns) (genPres : Bool) (f : List YNode) (H : Supported f) (hn : XmlNamed nsOf f) (hl : SafeLeaves rx f)
    (acts : List Act) (hp : Proper (genModule genPres f) acts)
    (h : EveryKids PlainTexts (genModule genPres f) (session (genModule genPres f) (freshKids (genModule genPres f)) acts)) :
    ∃ x ns', xmlDump nsOf true name mns (genModule genPres f) (session (genModule genPres f) (freshKids (genModule genPres f)) acts) = .ok x ∧
      (∀ pretty, (readXml (writeXml pretty x)).map (xmlLoad infer (genModule genPres f) (freshKids (genModule genPres f))) = some (ns', none)) ∧
      SameKids (genModule genPres f) (session (genModule genPres f) (freshKids (genModule genPres f)) acts) ns' := by
  obtain ⟨x, ns', a, b, _, c⟩ := C99_xml_partial rx nsOf infer hi name mns h1 h2 genPres f H hn acts hp (session_xleaves H hl acts h)
  exact ⟨x, ns', a, b, c⟩

/-! ## The modules of `Props/Save` -/

theorem no_idents {t : YTy} (h : SafeTy t) {rx d} (v : PyVal) : ((t.cls rx d).ser v).idents = [] := by
  cases h <;> rfl

theorem saveLeaves_named : XmlNamed demoNs saveLeaves := by
  intro d s hd hs
  have hm : Uri py!"urn:m" := uri_of (by decide) rfl
  have := allL_of hd
  simp [saveLeaves, allL, allB] at this
  have hI : ∀ {t : YTy}, SafeTy t → ∀ s' L, YNode.leaf s' (t.cls noRx) = .leaf s L → ∀ v y i, (L.ser v).idents.lookup y = some i → Identifier i ∧ Uri (demoNs i) := by
    intro t ht s' L e v y i hi
    cases e
    rw [no_idents ht] at hi
    cases hi
  rcases this with rfl | rfl | rfl | rfl | rfl | rfl | rfl | rfl | rfl <;> cases hs
  all_goals refine ⟨⟨ident_of rfl rfl, hm⟩, ?_⟩
  · intro L e; cases e
  · exact hI safe_percent _
  · exact hI safe_state _
  · exact hI safe_str _
  · intro L e; cases e
  · exact hI safe_bool _

/-- For any strings that are not empty and have only characters of XML. -/
example (s : Str) (hs : s ≠ []) (hx : s.all xmlChar = true) : ∃ x ns',
    xmlDump demoNs true py!"m" py!"urn:m" (genModule true saveLeaves) (session (genModule true saveLeaves) (freshKids (genModule true saveLeaves))
      [.api [.field 0, .field 0] (.set (.int 42) false), .api [.field 0, .field 2] (.set (.str s) false)]) = .ok x ∧
    (∀ pretty, (readXml (writeXml pretty x)).map (xmlLoad demoInfer (genModule true saveLeaves) (freshKids (genModule true saveLeaves))) = some (ns', none)) ∧
    SameKids (genModule true saveLeaves) (session (genModule true saveLeaves) (freshKids (genModule true saveLeaves))
      [.api [.field 0, .field 0] (.set (.int 42) false), .api [.field 0, .field 2] (.set (.str s) false)]) ns' := by
  have hafter : session (genModule true saveLeaves) (freshKids (genModule true saveLeaves))
      [.api [.field 0, .field 0] (.set (.int 42) false), .api [.field 0, .field 2] (.set (.str s) false)] =
      [.cont true false [.leaf (.int 42) true, .leaf (.str []) false, .leaf (.str s) true, .cont false false [.leaf (.bool false) false]]] := by rfl
  refine C99_xml_leaves_partial noRx demoNs demoInfer demo_objectify py!"m" py!"urn:m" (ident_of rfl rfl) (uri_of (by decide) rfl) true saveLeaves
    saveLeaves_supported saveLeaves_named saveLeaves_safe _ ⟨fun p op h => ?_, by simp⟩ ?_
  · simp at h
    rcases h with ⟨rfl, rfl⟩ | ⟨rfl, rfl⟩ <;> exact ⟨⟨by simp, by simp⟩, fun q k j info lk hp hq hj => ⟨by simp, by simp⟩⟩
  · rw [hafter]
    refine ⟨⟨trivial, ?_, ?_, ?_, ⟨trivial, ?_, trivial⟩, trivial⟩, trivial⟩
    · intro _ s' e; cases e
    · intro h; cases h
    · intro _ s' e; cases e; exact ⟨hs, hx⟩
    · intro h; cases h

theorem saveLists_named : XmlNamed demoNs saveLists := by
  intro d s hd hs
  have hm : Uri py!"urn:m" := uri_of (by decide) rfl
  have := allL_of hd
  simp [saveLists, allL, allB] at this
  have hI : ∀ {t : YTy}, SafeTy t → ∀ s' L, YNode.leaf s' (t.cls noRx) = .leaf s L → ∀ v y i, (L.ser v).idents.lookup y = some i → Identifier i ∧ Uri (demoNs i) := by
    intro t ht s' L e v y i hi
    cases e
    rw [no_idents ht] at hi
    cases hi
  rcases this with rfl | rfl | rfl | rfl | rfl | rfl | rfl | rfl <;> cases hs
  all_goals refine ⟨⟨ident_of rfl rfl, hm⟩, ?_⟩
  · intro L e; cases e
  · intro L e; cases e
  · intro L e; cases e
  · exact hI safe_bool _
  · exact hI safe_str _
  · intro L e; cases e
  · exact hI safe_percent _
  · exact hI safe_state _

theorem listActs_xkept : EveryKids (XKept noRx demoInfer) (genModule false saveLists)
    (session (genModule false saveLists) (freshKids (genModule false saveLists)) listActs) := by
  rw [listActs_after]
  have int : ∀ (t : YTy) (n : Int), (∀ m ids, t ≠ .ident m ids) → InXml t (.int n) ∧ Untyped demoInfer t (.int n) := fun t n h =>
    ⟨inXml_int t n h, by simp, by simp⟩
  have str : ∀ (t : YTy) (s : Str), (∀ m ids, t ≠ .ident m ids) → s.all xmlChar = true → (demoInfer s = .str s ∨ (t.isStr = true ∧ ∃ n, s = intStr n)) →
      InXml t (.str s) ∧ Untyped demoInfer t (.str s) := fun t s h h1 h2 =>
    ⟨inXml_str h1 h, fun s' e => by cases e; exact .inr h2, by simp⟩
  have ls : ∀ {L : LeafCls} {v ch} {m : Meta} {t d}, L = YTy.cls noRx t d → SafeTy t → (∀ s, v = .str s → s ≠ [] ∧ s.all xmlChar = true) →
      Every (XKept noRx demoInfer) m (.leaf L) (.leaf v ch) := fun h1 h2 h3 _ => .inl ⟨⟨_, _, h1, h2⟩, h3⟩
  have us : ∀ {L : LeafCls} {v} {m : Meta}, Every (XKept noRx demoInfer) m (.leaf L) (.leaf v false) := by intro L v m h; cases h
  refine ⟨⟨trivial, ?_, ?_, trivial⟩, trivial⟩
  · refine ⟨fun _ => by decide, fun _ => ⟨.inl ⟨_, _, _, rfl, safe_percent, ?_⟩, by decide⟩⟩
    intro v hv
    simp only [List.mem_cons, List.not_mem_nil, or_false] at hv
    rcases hv with rfl | rfl <;> exact int _ _ (by simp [tPercent])
  · refine ⟨⟨?_, by decide⟩, ?_⟩
    · intro i hi
      have hi : i ∈ [1] := hi
      simp at hi
      subst hi
      refine .inl ⟨_, _, _, rfl, safe_str, ?_⟩
      intro q hq
      simp only [List.mem_cons, List.not_mem_nil, or_false] at hq
      rcases hq with rfl | rfl
      · exact str tStr py!"x y" (by simp [tStr]) (by decide) (.inl rfl)
      · exact str tStr py!"5" (by simp [tStr]) (by decide) (.inr ⟨rfl, 5, rfl⟩)
    · intro q hq
      simp only [List.mem_cons, List.not_mem_nil, or_false] at hq
      rcases hq with rfl | rfl
      · refine ⟨ls rfl safe_bool (by simp), ls rfl safe_str (by simp; decide), ⟨⟨?_, by simp⟩, by simp⟩, trivial⟩
        intro i hi
        have hi : i ∈ [1, 0] := hi
        simp at hi
        rcases hi with rfl | rfl
        · exact .inl ⟨_, _, _, rfl, safe_state, by simp⟩
        · exact .inl ⟨_, _, _, rfl, safe_percent, by simp⟩
      · refine ⟨us, ls rfl safe_str (by simp; decide), ⟨⟨?_, by decide⟩, ?_⟩, trivial⟩
        · intro i hi
          have hi : i ∈ [1, 0] := hi
          simp at hi
          rcases hi with rfl | rfl
          · refine .inl ⟨_, _, _, rfl, safe_state, ?_⟩
            intro q hq
            simp only [List.mem_cons, List.not_mem_nil, or_false] at hq
            rcases hq with rfl | rfl
            · exact str tState py!"up" (by simp [tState]) (by decide) (.inl rfl)
            · exact str tState py!"down" (by simp [tState]) (by decide) (.inl rfl)
          · refine .inl ⟨_, _, _, rfl, safe_percent, ?_⟩
            intro q hq
            simp only [List.mem_cons, List.not_mem_nil, or_false] at hq
            rcases hq with rfl | rfl <;> exact int _ 30 (by simp [tPercent])
        · intro q hq
          simp only [List.mem_cons, List.not_mem_nil, or_false] at hq
          rcases hq with rfl | rfl <;> exact ⟨ls rfl safe_percent (by simp), ls rfl safe_state (by simp; decide), trivial⟩

example : ∃ x ns', xmlDump demoNs true py!"m" py!"urn:m" (genModule false saveLists)
      (session (genModule false saveLists) (freshKids (genModule false saveLists)) listActs) = .ok x ∧
    (∀ pretty, (readXml (writeXml pretty x)).map (xmlLoad demoInfer (genModule false saveLists) (freshKids (genModule false saveLists))) = some (ns', none)) ∧
    SameKids (genModule false saveLists) (session (genModule false saveLists) (freshKids (genModule false saveLists)) listActs) ns' := by
  obtain ⟨x, ns', a, b, _, c⟩ := C99_xml_partial noRx demoNs demoInfer demo_objectify py!"m" py!"urn:m" (ident_of rfl rfl) (uri_of (by decide) rfl) false
    saveLists saveLists_supported saveLists_named _ listActs_proper listActs_xkept
  exact ⟨x, ns', a, b, c⟩

end Pyb
