import Verif.Lemmas.XmlDoc
import Verif.Props.JsonDoc
import Verif.Spec.Overwrite

/-! # Properties of XML serialisation (C69 - C73) -/

namespace Pyb
open Py Spec

/-! ## C69: the XML round trip -/

/-- C69 for any tree that is in order (`XmlOrderly`): loading what was written into a new
object gives a tree with the same data.

Not covered: trees for which the conditions of `XmlOrderly` fail (see the refutations
below), other types of leaves, and choices with the name of a choice above them. -/
theorem C69_xml_roundtrip_partial (rx : Str → Str → Bool) (nsOf : Str → Str) (infer : Str → PyVal) (hi : Objectify infer)
    (name mns : Str) (kids : List (Meta × Schema)) (hf : ApartRoot kids) (hnames : GoodNames kids) (ns : List Inst)
    (h : EveryKids (XmlOrderly rx infer) kids ns) :
    ∃ x ns', xmlDump nsOf true name mns kids ns = .ok x ∧ xmlLoad infer kids (freshKids kids) x = (ns', none) ∧
      SameKids kids ns ns' :=
  xml_roundtrip name mns hf hnames (everyKids_imp (fun _ _ _ => xmlReady_of hi) h)

/-- C69 for what any history of operations leaves in a new binding: of the conditions
only those on the values, names and keys (`XmlValues`) remain.  Here there must be no
choice within a case of another (`C32_nested_refuted`). -/
theorem C69_reachable_partial (rx : Str → Str → Bool) (nsOf : Str → Str) (infer : Str → PyVal) (hi : Objectify infer)
    (name mns : Str) (kids : List (Meta × Schema)) (hf : FlatRoot kids) (hnames : GoodNames kids) (ops : List (Path × Op))
    (hops : ∀ x ∈ ops, Plain x.2) (h : EveryKids (XmlValues rx infer) kids (history kids (freshKids kids) ops)) :
    ∃ x ns', xmlDump nsOf true name mns kids (history kids (freshKids kids) ops) = .ok x ∧
      xmlLoad infer kids (freshKids kids) x = (ns', none) ∧ SameKids kids (history kids (freshKids kids) ops) ns' := by
  refine C69_xml_roundtrip_partial rx nsOf infer hi name mns kids hf.apart hnames _ ?_
  rw [everyKids_iff] at h ⊢
  exact ⟨h.1, fun i k c hk hc => xmlOrderly_of _ _ _ (history_sound hf hops hk hc) (h.2 i k c hk hc)⟩

/-- An inference that finds integers, however written, and booleans. -/
def demoInfer (s : Str) : PyVal :=
  match intOfStr s with
  | .ok n => .int n
  | .error _ => if s = py!"true" then .bool true else if s = py!"false" then .bool false else .str s

theorem demo_objectify : Objectify demoInfer where
  int n := by simp only [demoInfer, intOfStr_intStr]
  tt := by rfl
  ff := by rfl

/-- Namespaces of modules. -/
def demoNs (m : Str) : Str := py!"urn:" ++ m

def xElem (name : Str) (kids : List Xml) : Xml := .elem py!"urn:m" name [] none kids
def xLeaf (name : Str) (text : Str) : Xml := .elem py!"urn:m" name [] (some text) []

/-- What is written for the example of `Props/Json.lean`. -/
def xmlDoc : Xml :=
  xElem py!"m" [xElem py!"c"
    [xLeaf py!"a" py!"18446744073709551615", .elem py!"urn:m" py!"i" [(py!"n", py!"urn:n")] (some py!"n:red") [], xElem py!"e" [],
     xElem py!"p" [xLeaf py!"y" py!"7"],
     xElem py!"l" [xLeaf py!"k" py!"x"], xElem py!"l" [xLeaf py!"k" py!"y", xLeaf py!"z" py!"50"],
     xLeaf py!"v" py!"5", xLeaf py!"v" py!"6"]]

theorem xmlDoc_written : xmlDump demoNs true py!"m" py!"urn:m" jsonKids jsonTree = .ok xmlDoc := by rfl

theorem inXml_int (t : YTy) (n : Int) (h : ∀ n ids, t ≠ .ident n ids) : InXml t (.int n) :=
  ⟨by simp, fun n ids e => absurd e (h n ids), by simp⟩

theorem inXml_str {t : YTy} {s : Str} (hs : s.all xmlChar = true) (h : ∀ n ids, t ≠ .ident n ids) : InXml t (.str s) :=
  ⟨by intro s' e; simp at e; subst e; exact hs, fun n ids e => absurd e (h n ids), by simp⟩

theorem xml_values : EveryKids (XmlValues noRx demoInfer) jsonKids jsonTree := by
  simp only [jsonKids, jsonTree, jsonC, jsonL, EveryKids, Every, and_true, List.mem_cons, List.not_mem_nil, or_false,
    forall_eq_or_imp, forall_eq, Inst.kids]
  refine ⟨jsonC_names, ?_, ?_, ?_, ?_, ⟨?_, ?_⟩, ⟨?_, ⟨?_, ?_⟩, ?_, ?_⟩, ?_⟩
  · exact fun _ => ⟨.inl ⟨tU64, none, rfl, ⟨val_u64 _ (by decide), fun _ => rfl⟩, inXml_int _ _ (by simp [tU64])⟩, by decide⟩
  · exact fun h => by simp at h
  · refine fun _ => ⟨.inl ⟨tIdent, none, rfl, ⟨.ident _ _ _ (.inl rfl) (by decide) (by decide) (by decide), fun _ => rfl⟩, ⟨?_, ?_, by simp⟩⟩, by decide⟩
    · intro s e; simp at e; subst e; rfl
    · intro n ids e
      simp only [tIdent, YTy.ident.injEq] at e
      obtain ⟨_, rfl⟩ := e
      decide
  · exact fun _ => ⟨.inl ⟨tEmpty, none, rfl, ⟨.empty _ (.inl rfl), fun _ => rfl⟩, ⟨by simp, by simp [tEmpty], by simp⟩⟩, by decide⟩
  · exact ⟨by decide, by decide⟩
  · exact fun _ => ⟨.inl ⟨tTen, none, rfl, ⟨val_ten _ (by decide), fun _ => rfl⟩, inXml_int _ _ (by simp [tTen])⟩, by decide⟩
  · refine ⟨⟨by decide, by decide⟩, fun _ => ⟨by decide, by decide, ?_, ?_⟩⟩
    · intro i hi
      simp only [List.mem_singleton] at hi
      subst hi
      refine ⟨_, tStr, none, rfl, rfl, by simp [tStr], ?_⟩
      intro q hq
      simp only [List.mem_cons, List.not_mem_nil, or_false] at hq
      rcases hq with rfl | rfl
      · exact ⟨_, rfl, ⟨.str _ _ _ (.inl (.inl rfl)), fun _ => rfl⟩, inXml_str rfl (by simp [tStr]),
          ⟨by intro s e; simp at e; subst e; exact .inr (.inl rfl), by simp⟩, by simp [tStr]⟩
      · exact ⟨_, rfl, ⟨.str _ _ _ (.inl (.inl rfl)), fun _ => rfl⟩, inXml_str rfl (by simp [tStr]),
          ⟨by intro s e; simp at e; subst e; exact .inr (.inl rfl), by simp⟩, by simp [tStr]⟩
    · simp [valAt, Inst.kids, Spec.keyText, join, PyVal.toStr]
  · exact fun _ => ⟨.inl ⟨tStr, none, rfl, ⟨.str _ _ _ (.inl (.inl rfl)), fun _ => rfl⟩, inXml_str rfl (by simp [tStr])⟩, by decide⟩
  · exact fun h => by simp at h
  · exact fun _ => ⟨.inl ⟨tStr, none, rfl, ⟨.str _ _ _ (.inl (.inl rfl)), fun _ => rfl⟩, inXml_str rfl (by simp [tStr])⟩, by decide⟩
  · exact fun _ => ⟨.inl ⟨tPercent, none, rfl, ⟨val_percent _ (by decide), fun _ => rfl⟩, inXml_int _ _ (by simp [tPercent])⟩, by decide⟩
  · refine ⟨fun _ => by decide, fun _ => ⟨.inl ⟨tU64, true, _, rfl, ?_⟩, by decide⟩⟩
    intro v hv
    simp only [List.mem_cons, List.not_mem_nil, or_false] at hv
    rcases hv with rfl | rfl
    · exact ⟨⟨val_u64 _ (by decide), by simp [tU64], rfl⟩, inXml_int _ _ (by simp [tU64]), ⟨by intro s e; simp at e, by simp⟩⟩
    · exact ⟨⟨val_u64 _ (by decide), by simp [tU64], rfl⟩, inXml_int _ _ (by simp [tU64]), ⟨by intro s e; simp at e, by simp⟩⟩

example : ∃ ns', xmlDump demoNs true py!"m" py!"urn:m" jsonKids (history jsonKids (freshKids jsonKids) jsonOps) = .ok xmlDoc ∧
    xmlLoad demoInfer jsonKids (freshKids jsonKids) xmlDoc = (ns', none) ∧
    SameKids jsonKids (history jsonKids (freshKids jsonKids) jsonOps) ns' := by
  obtain ⟨x, ns', h1, h2, h3⟩ := C69_reachable_partial noRx demoNs demoInfer demo_objectify py!"m" py!"urn:m" jsonKids json_flat
    ⟨by decide, by decide⟩ jsonOps (by simp [jsonOps, Plain]) (by rw [jsonTree_reached]; exact xml_values)
  have e : x = xmlDoc := by
    rw [jsonTree_reached, xmlDoc_written] at h1
    simpa using h1.symm
  subst e
  exact ⟨ns', by rw [jsonTree_reached]; exact xmlDoc_written, h2, h3⟩

/-- A round trip that fails: operations on a new binding, after which the tree is written
as elements `xs` in that of the module, and loading this into a new object raises or gives
different data. -/
def XRoundTripFails (kids : List (Meta × Schema)) (ops : List (Path × Op)) (xs : List Xml) (ns' : List Inst) (e : Option Err) : Prop :=
  FlatRoot kids ∧ GoodNames kids ∧ (∀ x ∈ ops, Plain x.2) ∧ Objectify demoInfer ∧
  xmlDump demoNs true py!"m" py!"urn:m" kids (history kids (freshKids kids) ops) = .ok (xElem py!"m" xs) ∧
  xmlLoad demoInfer kids (freshKids kids) (xElem py!"m" xs) = (ns', e) ∧
  (e ≠ none ∨ ¬ SameKids kids (history kids (freshKids kids) ops) ns')

def strKids : List (Meta × Schema) := [(inM py!"s", .leaf (tStr.cls noRx))]

/-- C69 fails for a leaf set to the empty string: it is not set. -/
theorem C69_empty_string_refuted :
    XRoundTripFails strKids [([.field 0], .set (.str []) false)] [xElem py!"s" []] [.leaf (.str []) false] none := by
  refine ⟨by simp [ChoicesRoot, strKids, Choices], ⟨by decide, by decide⟩, by simp [Plain], demo_objectify, rfl, rfl, .inr ?_⟩
  intro h
  have : history strKids (freshKids strKids) [([.field 0], .set (.str []) false)] = [.leaf (.str []) true] := rfl
  rw [this] at h
  simp [strKids, SameKids, SameData] at h

/-- C69 fails for a leaf of type `empty` set to `False`: it is `True`. -/
theorem C69_empty_false_refuted :
    XRoundTripFails emptyKids [([.field 0], .set (.bool false) false)] [xElem py!"e" []] [.leaf (.bool true) true] none := by
  refine ⟨by simp [ChoicesRoot, emptyKids, Choices], ⟨by decide, by decide⟩, by simp [Plain], demo_objectify, rfl, rfl, .inr ?_⟩
  intro h
  have : history emptyKids (freshKids emptyKids) [([.field 0], .set (.bool false) false)] = [.leaf (.bool false) true] := rfl
  rw [this] at h
  simp [emptyKids, SameKids, SameData] at h

def strsKids : List (Meta × Schema) := [(inM py!"w", .leafList (tStr.llCls noRx))]

/-- C69 fails for a leaf-list of strings that look like numbers or booleans: the text is
not the same. -/
theorem C69_typed_strings_refuted :
    XRoundTripFails strsKids [([.field 0], .ll (.append (.str py!"007"))), ([.field 0], .ll (.append (.str py!"true")))]
      [xLeaf py!"w" py!"007", xLeaf py!"w" py!"true"] [.leafList [.str py!"7", .str py!"True"] true] none := by
  refine ⟨by simp [ChoicesRoot, strsKids, Choices], ⟨by decide, by decide⟩, by simp [Plain], demo_objectify, rfl, rfl, .inr ?_⟩
  intro h
  have : history strsKids (freshKids strsKids) [([.field 0], .ll (.append (.str py!"007"))), ([.field 0], .ll (.append (.str py!"true")))] =
    [.leafList [.str py!"007", .str py!"true"] true] := rfl
  rw [this] at h
  simp [strsKids, SameKids, SameData] at h

def strKeyKids : List (Meta × Schema) := [(inM py!"l", .list { keys := [0] } [(inM py!"k", .leaf (tStr.cls noRx))])]

/-- C69 fails for a list whose key is a string that looks like a number. -/
theorem C69_typed_key_refuted :
    XRoundTripFails strKeyKids [([.field 0], .add (.str py!"007"))] [xElem py!"l" [xLeaf py!"k" py!"007"]]
      [.list false [(.str py!"7", .cont true false [.leaf (.str py!"7") true])]] none := by
  refine ⟨by simp [ChoicesRoot, strKeyKids, Choices, ChoicesKids, inM], ⟨by decide, by decide⟩, by simp [Plain], demo_objectify, rfl, rfl, .inr ?_⟩
  intro h
  have : history strKeyKids (freshKids strKeyKids) [([.field 0], .add (.str py!"007"))] =
    [.list false [(.str py!"007", .cont true false [.leaf (.str py!"007") true])]] := rfl
  rw [this] at h
  simp only [strKeyKids, SameKids, SameData] at h
  have := h.1.2 0 _ _ rfl rfl
  simp [Inst.kids, SameKids, SameData] at this

/-- C69 fails for a list that has two entries with the same key value (added as `5` and
as `"5"`): one is left. -/
theorem C69_same_key_refuted :
    XRoundTripFails numKids [([.field 0], .add (.int 5)), ([.field 0], .add (.str py!"5"))]
      [xElem py!"l" [xLeaf py!"k" py!"5"], xElem py!"l" [xLeaf py!"k" py!"5"]]
      [.list false [(.str py!"5", .cont true false [.leaf (.int 5) true])]] none := by
  refine ⟨by simp [ChoicesRoot, numKids, Choices, ChoicesKids, inM], ⟨by decide, by decide⟩, by simp [Plain], demo_objectify, rfl, rfl, .inr ?_⟩
  intro h
  have : history numKids (freshKids numKids) [([.field 0], .add (.int 5)), ([.field 0], .add (.str py!"5"))] =
      [.list false [(.int 5, .cont true false [.leaf (.int 5) true]), (.str py!"5", .cont true false [.leaf (.int 5) true])]] := rfl
  rw [this] at h
  simp [numKids, SameKids, SameData] at h

/-- C69 fails for a list whose key is an identity of another module: the prefix becomes
part of the key. -/
theorem C69_identity_key_refuted :
    XRoundTripFails idKids [([.field 0], .add (.str py!"red"))]
      [xElem py!"l" [.elem py!"urn:m" py!"k" [(py!"n", py!"urn:n")] (some py!"n:red") []]]
      [.list false [(.str py!"n:red", .cont true false [.leaf (.str py!"n:red") true])]] none := by
  refine ⟨by simp [ChoicesRoot, idKids, Choices, ChoicesKids, inM], ⟨by decide, by decide⟩, by simp [Plain], demo_objectify, rfl, rfl, .inr ?_⟩
  intro h
  have : history idKids (freshKids idKids) [([.field 0], .add (.str py!"red"))] =
      [.list false [(.str py!"red", .cont true false [.leaf (.str py!"red") true])]] := rfl
  rw [this] at h
  simp only [idKids, SameKids, SameData] at h
  have := h.1.2 0 _ _ rfl rfl
  simp [Inst.kids, SameKids, SameData] at this

def keylessKids : List (Meta × Schema) := [(inM py!"l", .list { keys := [] } [(inM py!"k", .leaf (tStr.cls noRx))])]

/-- C69 fails for a list without keys: it is written, but reading it raises
`NotImplementedError`. -/
theorem C69_keyless_refuted :
    history keylessKids (freshKids keylessKids) [([.field 0], .addAnon py!"u")] =
      [.list false [(.str py!"u", .cont false false [.leaf (.str []) false])]] ∧
    xmlDump demoNs true py!"m" py!"urn:m" keylessKids [.list false [(.str py!"u", .cont false false [.leaf (.str []) false])]] =
      .ok (xElem py!"m" [xElem py!"l" []]) ∧
    xmlLoad demoInfer keylessKids (freshKids keylessKids) (xElem py!"m" [xElem py!"l" []]) = ([.list false []], some .runtimeError) :=
  ⟨rfl, rfl, rfl⟩

def identsKids : List (Meta × Schema) := [(inM py!"w", .leafList (tIdent.llCls noRx))]

/-- C69 fails for leaf-lists of identityrefs: once set, they cannot be written. -/
theorem C69_identity_leaflist_refuted :
    history identsKids (freshKids identsKids) [([.field 0], .ll (.append (.str py!"red")))] = [.leafList [.str py!"red"] true] ∧
    xmlDump demoNs true py!"m" py!"urn:m" identsKids [.leafList [.str py!"red"] true] = .error .attributeError := ⟨rfl, rfl⟩

/-- In general: no tree with a leaf-list of identityrefs that was set can be written. -/
theorem C69_identity_leaflists_refuted (nsOf : Str → Str) (name mns : Str) (kids : List (Meta × Schema)) (ns : List Inst) (i : Nat)
    (m : Meta) (L : LLCls) (vs : List PyVal) (hk : kids[i]? = some (m, .leafList L)) (hi : ns[i]? = some (.leafList vs true))
    (hL : L.yangType = py!"identityref") : ∃ e, xmlDump nsOf true name mns kids ns = .error e := by
  cases h : xmlDump nsOf true name mns kids ns with
  | error e => exact ⟨e, rfl⟩
  | ok x =>
    simp only [xmlDump] at h
    cases hx : xmlKids nsOf true kids ns with
    | error e => simp [hx, Except.map] at h
    | ok xss =>
      obtain ⟨r, hr⟩ := xmlKids_node hx hk hi
      simp [xmlNode, xmlLLDecls, hL, bind, Except.bind] at hr

/-! ## C70: what is in the document -/

/-- C70, leaves: wherever a leaf is in a tree, the document has one element for it there if
it is set, with its name, namespace and value, and otherwise none. -/
theorem C70_leaf_iff_set (nsOf : Str → Str) (name mns : Str) (kids : List (Meta × Schema)) (hn : AllNames (rootCls kids)) (ns : List Inst)
    (x : Xml) (hx : xmlDump nsOf true name mns kids ns = .ok x) (p : List Pos) (m : Meta) (L : LeafCls) (v : PyVal) (ch : Bool)
    (ht : treeAt none (rootCls kids) (rootObj ns) p = some (some m, .leaf L, .leaf v ch)) :
    (ch = false → elemsAt (rootCls kids) [x] p = []) ∧
    (ch = true → ∃ y, elemsAt (rootCls kids) [x] p = [y] ∧ y.ns = m.ns ∧ y.name = m.name ∧ y.kids = [] ∧
      xmlLeaf nsOf m L v true = .ok y) := by
  have h := elemsAt_emits (p := p) hn (xroot_emits hx) ht
  generalize elemsAt (rootCls kids) [x] p = ys at h
  cases h with
  | @node m' _ _ r hm hr =>
    simp only [Option.some.injEq] at hm
    subst hm
    cases ch with
    | false =>
      simp [xmlNode] at hr
      subst hr
      exact ⟨fun _ => rfl, by simp⟩
    | true =>
      simp only [xmlNode] at hr
      cases hl : xmlLeaf nsOf m L v true with
      | error e => simp [hl, Except.map] at hr
      | ok y =>
        simp [hl, Except.map] at hr
        subst hr
        refine ⟨by simp, fun _ => ⟨y, rfl, ?_⟩⟩
        simp only [xmlLeaf, bind_ok] at hl
        obtain ⟨d, _, j, _, t, _, hl⟩ := hl
        simp only [pure, Except.pure, Except.ok.injEq] at hl
        subst hl
        exact ⟨rfl, rfl, rfl, rfl⟩

/-- C70, leaf-lists: one element for each value, in order, if it is set. -/
theorem C70_leaflist_in_order (nsOf : Str → Str) (name mns : Str) (kids : List (Meta × Schema)) (hn : AllNames (rootCls kids))
    (ns : List Inst) (x : Xml) (hx : xmlDump nsOf true name mns kids ns = .ok x) (p : List Pos) (m : Meta) (L : LLCls)
    (vs : List PyVal) (ch : Bool) (ht : treeAt none (rootCls kids) (rootObj ns) p = some (some m, .leafList L, .leafList vs ch)) :
    (ch = false → elemsAt (rootCls kids) [x] p = []) ∧
    (ch = true → (elemsAt (rootCls kids) [x] p).length = vs.length ∧
      ∀ (i : Nat) v, vs[i]? = some v → ∃ y j, (elemsAt (rootCls kids) [x] p)[i]? = some y ∧ y.ns = m.ns ∧ y.name = m.name ∧
        y.kids = [] ∧ serElem true m.module_ L v = .ok j ∧ elemText j = .ok y.text) := by
  have h := elemsAt_emits (p := p) hn (xroot_emits hx) ht
  generalize elemsAt (rootCls kids) [x] p = ys at h
  cases h with
  | @node m' _ _ r hm hr =>
    simp only [Option.some.injEq] at hm
    subst hm
    simp only [xmlNode, bind_ok] at hr
    obtain ⟨_, _, hr⟩ := hr
    cases ch with
    | false =>
      simp at hr
      subst hr
      exact ⟨fun _ => rfl, by simp⟩
    | true =>
      refine ⟨by simp, fun _ => ?_⟩
      cases hl : xmlLeafList m L vs with
      | error e => simp [hl, Except.map] at hr
      | ok ys =>
        simp [hl, Except.map] at hr
        subst hr
        obtain ⟨h1, h2⟩ := mapM_len hl
        refine ⟨h1, ?_⟩
        intro i v hv
        obtain ⟨y, h3, h4⟩ := h2 i v hv
        simp only [bind_ok] at h4
        obtain ⟨j, hj, t, ht', h4⟩ := h4
        simp only [pure, Except.pure, Except.ok.injEq] at h4
        subst h4
        exact ⟨_, j, h3, rfl, rfl, rfl, hj, ht'⟩

/-- C70, lists: one element for each entry. -/
theorem C70_list_entries (nsOf : Str → Str) (name mns : Str) (kids : List (Meta × Schema)) (hn : AllNames (rootCls kids))
    (ns : List Inst) (x : Xml) (hx : xmlDump nsOf true name mns kids ns = .ok x) (p : List Pos) (m : Meta) (info : ListInfo)
    (ek : List (Meta × Schema)) (es : List (PyVal × Inst)) (ch : Bool)
    (ht : treeAt none (rootCls kids) (rootObj ns) p = some (some m, .list info ek, .list ch es)) :
    (elemsAt (rootCls kids) [x] p).length = es.length ∧ ∀ y ∈ elemsAt (rootCls kids) [x] p, y.ns = m.ns ∧ y.name = m.name ∧ y.text = none := by
  have h := elemsAt_emits (p := p) hn (xroot_emits hx) ht
  generalize elemsAt (rootCls kids) [x] p = ys at h
  cases h with
  | @node m' _ _ r hm hr =>
    simp only [Option.some.injEq] at hm
    subst hm
    simp only [xmlNode] at hr
    cases hl : (es.mapM fun q => (xmlKids nsOf true ek q.2.kids).map fun xs => Xml.elem m.ns m.name [] none xs.flatten) with
    | error e => simp [hl] at hr
    | ok xs =>
      simp only [hl, Except.ok.injEq] at hr
      have e : r.getD [] = xs := by subst hr; cases xs <;> simp
      rw [e]
      obtain ⟨h1, h2⟩ := mapM_len hl
      refine ⟨h1, ?_⟩
      intro y hy
      obtain ⟨i, hi⟩ := List.getElem?_of_mem hy
      have hlt := (List.getElem?_eq_some_iff.1 hi).1
      obtain ⟨y', h3, h4⟩ := h2 i es[i] (List.getElem?_eq_getElem (by omega))
      rw [hi] at h3
      simp only [Option.some.injEq] at h3
      subst h3
      cases hk : xmlKids nsOf true ek es[i].2.kids with
      | error e => simp [hk, Except.map] at h4
      | ok ms =>
        simp [hk, Except.map] at h4
        subst h4
        exact ⟨rfl, rfl, rfl⟩

/-- C70, containers: one element if it is marked as present or there is something to be
shown in it, and otherwise none. -/
theorem C70_container_iff_shown (nsOf : Str → Str) (name mns : Str) (kids : List (Meta × Schema)) (hn : AllNames (rootCls kids))
    (ns : List Inst) (x : Xml) (hx : xmlDump nsOf true name mns kids ns = .ok x) (p : List Pos) (hp : EndsInChild p) (m : Meta)
    (pres : Bool) (ck : List (Meta × Schema)) (c : Inst) (hc : ∃ ch pr cs, c = .cont ch pr cs)
    (ht : treeAt none (rootCls kids) (rootObj ns) p = some (some m, .cont pres ck, c)) :
    (Shown (.cont pres ck) c → ∃ y, elemsAt (rootCls kids) [x] p = [y] ∧ y.ns = m.ns ∧ y.name = m.name ∧ y.text = none) ∧
    (¬ Shown (.cont pres ck) c → elemsAt (rootCls kids) [x] p = []) := by
  have h := elemsAt_node (p := p) hn (xroot_emits hx) hp ht
  obtain ⟨r, hr, e⟩ := h
  rw [e]
  have hs := xmlNode_shown hr
  constructor
  · intro h
    obtain ⟨j, rfl⟩ := hs.2 h
    obtain ⟨ch, pr, cs, rfl⟩ := hc
    simp only [xmlNode] at hr
    cases hk : xmlKids nsOf true ck cs with
    | error e => simp [hk] at hr
    | ok ms =>
      simp only [hk, Except.ok.injEq] at hr
      split at hr
      · simp at hr
      · simp at hr
        subst hr
        exact ⟨_, rfl, rfl, rfl, rfl⟩
  · intro h
    cases r with
    | none => rfl
    | some j => exact absurd (hs.1 ⟨j, rfl⟩) h

/-- C70: the elements for containers and entries hold nothing but elements for their
children. -/
theorem C70_nothing_else (nsOf : Str → Str) (name mns : Str) (kids : List (Meta × Schema)) (hn : AllNames (rootCls kids))
    (ns : List Inst) (x : Xml) (hx : xmlDump nsOf true name mns kids ns = .ok x) (p : List Pos) (pm : Option Meta) (pres : Bool)
    (ck : List (Meta × Schema)) (c : Inst) (ht : treeAt none (rootCls kids) (rootObj ns) p = some (pm, .cont pres ck, c))
    (y : Xml) (hy : y ∈ elemsAt (rootCls kids) [x] p) (z : Xml) (hz : z ∈ y.kids) :
    ∃ k ∈ ck, z.ns = k.1.ns ∧ z.name = k.1.name := by
  have h := elemsAt_emits (p := p) hn (xroot_emits hx) ht
  generalize elemsAt (rootCls kids) [x] p = ys at h hy
  cases h with
  | @node m _ _ r hm hr =>
    cases r with
    | none => simp at hy
    | some js =>
      cases c with
      | cont ch pr cs =>
        simp only [xmlNode] at hr
        cases hk : xmlKids nsOf true ck cs with
        | error e => simp [hk] at hr
        | ok ms =>
          simp only [hk, Except.ok.injEq] at hr
          split at hr
          · simp at hr
          · simp only [Option.some.injEq] at hr
            subst hr
            simp only [Option.getD_some, List.mem_singleton] at hy
            subst hy
            exact xmlKids_mem hk hz
      | _ => simp [xmlNode] at hr
  | @cont _ _ _ y' xss hk he =>
    simp only [List.mem_singleton] at hy
    subst hy
    rw [he] at hz
    exact xmlKids_mem hk hz

example : treeAt none (rootCls jsonKids) (rootObj jsonTree) [.child 0, .child 5, .elem 1, .child 1] =
    some (some (inM py!"z"), .leaf (tPercent.cls noRx), .leaf (.int 50) true) ∧
    elemsAt (rootCls jsonKids) [xmlDoc] [.child 0, .child 5, .elem 1, .child 1] = [xLeaf py!"z" py!"50"] ∧
    elemsAt (rootCls jsonKids) [xmlDoc] [.child 0, .child 5, .elem 0, .child 1] = [] ∧
    (elemsAt (rootCls jsonKids) [xmlDoc] [.child 0, .child 6]).map Xml.text = [some py!"5", some py!"6"] := ⟨rfl, rfl, rfl, rfl⟩

/-! ## C71: the encoding of values -/

/-- C71: the element of a leaf has the text RFC 7950 requires, and what is read for it is
the same value.

Missing: the types and values excluded by `XmlEncodedWell` (refuted below), and the values
with no text, which are not read; unions and leafrefs. -/
theorem C71_encoding_partial (rx : Str → Str → Bool) (nsOf : Str → Str) (m : Meta) (hm : nsOf m.module_ = m.ns) (t : YTy)
    (d : Option PyVal) (v : PyVal) (h : Stored rx t v) (hx : InXml t v) (hw : XmlEncodedWell t v) :
    ∃ y, xmlLeaf nsOf m (t.cls rx d) v true = .ok y ∧ Rfc7950 nsOf m t v y.decls y.text ∧
      (xmlTextOf v ≠ [] → ∀ own c, xmlSet (t.cls rx d) own false c y.text = ⟨.leaf v true, [own, none], none⟩) := by
  obtain ⟨ds, hl⟩ := xmlLeaf_value (rx := rx) nsOf (m := m) (d := d) h.1 hx
  refine ⟨_, hl, ?_, ?_⟩
  · simp only [Xml.decls, Xml.text]
    have hv := h.1
    cases hv with
    | int name t chain lo hi n ha hb hl hn => exact .int ..
    | str name T s ha =>
      by_cases e : s = []
      · subst e; exact .strEmpty ..
      · simp only [xleafText, PyVal.toStr, someText_ne e]; exact .str _ _ _ _ e
    | bool name b ha =>
      cases b
      · exact .ff ..
      · exact .tt ..
    | empty name ha =>
      simp only [XmlEncodedWell] at hw
      simp only [xleafText, if_pos hw]
      exact .empty ..
    | ext name x o ha hv =>
      simp only [xleafText, ext_textOf]
      cases hv with
      | dec fd k h1 h2 =>
        simp only [extText, PyObj.toStr, someText_ne (decStr_xml _).2]
        exact .dec _ _ _ _ _ (decStr_text fd k hw) (decOfStr_decStr _)
      | bin b hb =>
        by_cases e : b = []
        · subst e; exact .binEmpty ..
        · have : b64encode b ≠ [] := by
            have hl : 0 < b.length := List.length_pos_iff.2 e
            intro e'
            have := b64encode_length b
            rw [e'] at this
            simp only [List.length_nil] at this
            omega
          simp only [extText, someText_ne this]
          exact .bin _ _ _ e
      | bits allowed ns h1 h2 h3 =>
        by_cases e : ns = []
        · subst e; exact .bitsEmpty ..
        · have : join py!" " ns ≠ [] := by
            cases ns with
            | nil => exact absurd rfl e
            | cons a ns =>
              have : a ≠ [] := by
                obtain ⟨q, hq, rfl⟩ := List.mem_map.1 (h2 a (by simp))
                exact (h1 q hq).1
              cases ns <;> simp [join, this]
          simp only [extText, PyObj.toStr, someText_ne this]
          exact .bits _ _ _ _ _ e (List.Perm.refl ns)
    | ident name ids s ha hs hc hm' =>
      simp only [XmlEncodedWell] at hw
      obtain ⟨hw1, hne, hw2⟩ := hw
      subst hw1
      obtain ⟨i, hi⟩ := lookup_of_mem hs
      have hne' : s ≠ [] := by rintro rfl; exact hne rfl
      simp only [xmlLeaf, bind_ok] at hl
      obtain ⟨d', hd', _, _, _, _, hl⟩ := hl
      simp only [pure, Except.pure, Except.ok.injEq, Xml.elem.injEq] at hl
      obtain ⟨_, _, rfl, _⟩ := hl
      have hds : d' = [(i, nsOf i)] := by
        have h1 : ((YTy.ident py!"identityref" ids).cls rx d).yangType = py!"identityref" := rfl
        have h2 : (((YTy.ident py!"identityref" ids).cls rx d).ser (.str s)).idents.lookup (PyVal.str s).toStr = some i := hi
        simp only [xmlDecls, h1, and_self, if_true, h2, Except.ok.injEq] at hd'
        exact hd'.symm
      subst hds
      simp only [xleafText, leafJ, if_true, serIdentity, PyVal.toStr, hi]
      by_cases e : i = m.module_
      · subst e
        simp only [ne_eq, not_true, if_false, someText_ne hne']
        exact .identHere _ _ _ _ _ hi hm
      · have hns : startsWith s i = false := by
          have := hw2 i hi
          rw [Bool.eq_false_iff]
          simpa [startsWith, List.isPrefixOf_iff_prefix, PyVal.toStr] using this
        have hq : i ++ ':' :: s ≠ [] := by simp
        simp only [ne_eq, e, not_false_eq_true, if_true, hns, Bool.not_false]
        have e2 : i ++ py!":" ++ s = i ++ ':' :: s := by simp
        first
          | (rw [e2, someText_ne hq]; exact .ident _ _ _ _ _ _ hi (by simp))
          | (rw [someText_ne hq]; exact .ident _ _ _ _ _ _ hi (by simp))
  · intro hne own c
    obtain ⟨d', t', h1, h2⟩ := xleafBack_value (nsOf := nsOf) (m := m) (d := d) h hx hne
    rw [hl] at h1
    simp only [Except.ok.injEq, Xml.elem.injEq] at h1
    obtain ⟨_, _, _, rfl, _⟩ := h1
    exact h2 own c

example : ∃ y, xmlLeaf demoNs (inM py!"i") (tIdent.cls noRx) (.str py!"red") true = .ok y ∧
    Rfc7950 demoNs (inM py!"i") tIdent (.str py!"red") y.decls y.text := by
  obtain ⟨y, h1, h2, _⟩ := C71_encoding_partial noRx demoNs (inM py!"i") rfl tIdent none (.str py!"red")
    ⟨.ident _ _ _ (.inl rfl) (by decide) (by decide) (by decide), fun _ => rfl⟩
    ⟨by intro s e; simp at e; subst e; rfl, by intro n ids e; simp only [tIdent, YTy.ident.injEq] at e; obtain ⟨_, rfl⟩ := e; decide, by simp⟩
    ⟨rfl, by simp, by decide⟩
  exact ⟨y, h1, h2⟩

/-- C71 fails for an identity whose name starts with the name of its module: it has no
prefix, so it is an identity of the module of the leaf. -/
theorem C71_identity_name_refuted :
    xmlLeaf demoNs (inM py!"i") (tArea.cls noRx) (.str py!"ospf-area") true =
      .ok (.elem py!"urn:m" py!"i" [(py!"ospf", py!"urn:ospf")] (some py!"ospf-area") []) ∧
    ¬ Rfc7950 demoNs (inM py!"i") tArea (.str py!"ospf-area") [(py!"ospf", py!"urn:ospf")] (some py!"ospf-area") := by
  refine ⟨rfl, ?_⟩
  intro h
  generalize hj : (some py!"ospf-area") = j at h
  cases h with
  | ident _ _ _ i pre ds hl hp =>
    simp only [Option.some.injEq] at hj
    have : ':' ∈ py!"ospf-area" := by rw [hj]; simp
    revert this; decide
  | identHere _ _ _ i ds hl hn =>
    have : i = py!"ospf" := by simpa [List.lookup] using hl.symm
    subst this
    simp [demoNs, inM] at hn

/-- C71 fails for a typedef of an identityref: identities of other modules have no
prefix. -/
theorem C71_identity_typedef_refuted :
    xmlLeaf demoNs (inM py!"i") (tColourDef.cls noRx) (.str py!"red") true = .ok (.elem py!"urn:m" py!"i" [] (some py!"red") []) ∧
    ¬ Rfc7950 demoNs (inM py!"i") tColourDef (.str py!"red") [] (some py!"red") := by
  refine ⟨rfl, ?_⟩
  intro h
  generalize hj : (some py!"red") = j at h
  generalize hd : ([] : List (Str × Str)) = ds at h
  cases h with
  | ident _ _ _ i pre ds hl hp => subst hd; simp at hp
  | identHere _ _ _ i ds hl hn =>
    have : i = py!"n" := by simpa [List.lookup] using hl.symm
    subst this
    simp [demoNs, inM] at hn

/-- C71 fails for a typedef of `empty`: its text is `true`. -/
theorem C71_empty_typedef_refuted :
    xmlLeaf demoNs (inM py!"e") ((YTy.empty py!"flag").cls noRx) (.bool true) true = .ok (xLeaf py!"e" py!"true") ∧
    ∀ ds, ¬ Rfc7950 demoNs (inM py!"e") (.empty py!"flag") (.bool true) ds (some py!"true") := by
  refine ⟨rfl, ?_⟩
  intro ds h
  cases h

/-- C71 fails for the values of a leaf-list of booleans: the texts are `1` and `0`. -/
theorem C71_boolean_leaflist_refuted :
    xmlLeafList (inM py!"w") (tBool.llCls noRx) [.bool true, .bool false] = .ok [xLeaf py!"w" py!"1", xLeaf py!"w" py!"0"] ∧
    (∀ ds, ¬ Rfc7950 demoNs (inM py!"w") tBool (.bool true) ds (some py!"1")) ∧
    ∀ ds, ¬ Rfc7950 demoNs (inM py!"w") tBool (.bool false) ds (some py!"0") := by
  refine ⟨rfl, ?_, ?_⟩ <;>
  · intro ds h
    generalize hj : (some _) = j at h
    cases h <;> simp at hj

/-! ## C72: elements that are not in the schema -/

/-- C72: loading a document with an element that is not in the schema, at any depth, raises
an exception, whatever the object held before. -/
theorem C72_unknown_reported (infer : Str → PyVal) (kids : List (Meta × Schema)) (ns : List Inst) (doc : Xml)
    (h : XHasUnknown kids doc.kids) : (xmlLoad infer kids ns doc).2 ≠ none :=
  xunknown_err h

/-- C72: which one, at the top level: `AttributeError`, if what comes before is loaded
without exception. -/
theorem C72_attribute_error (infer : Str → PyVal) (kids : List (Meta × Schema)) (ns : List Inst) (ns0 name : Str)
    (ds : List (Str × Str)) (t : Option Str) (pre post : List Xml) (x : Xml) (hx : childNamed kids x.name = none)
    (hpre : (xmlLoad infer kids ns (.elem ns0 name ds t pre)).2 = none) :
    xmlLoad infer kids ns (.elem ns0 name ds t (pre ++ x :: post)) =
      ((xmlLoad infer kids ns (.elem ns0 name ds t pre)).1, some .attributeError) := by
  simp only [xmlLoad, Xml.kids] at hpre ⊢
  rw [xmembers_append, xmembers_stop hpre hx]

example : XHasUnknown jsonKids (xElem py!"m" [xElem py!"c" [xElem py!"l" [xLeaf py!"k" py!"x", xLeaf py!"zz" py!"1"]]]).kids :=
  .cont (x := xElem py!"c" [xElem py!"l" [xLeaf py!"k" py!"x", xLeaf py!"zz" py!"1"]]) (by simp [xElem, Xml.kids]) rfl
    (.list (x := xElem py!"l" [xLeaf py!"k" py!"x", xLeaf py!"zz" py!"1"]) (by simp [xElem, Xml.kids]) rfl
      (.here (x := xLeaf py!"zz" py!"1") (by simp [xElem, Xml.kids]) rfl))

example : XHasUnknown jsonKids (xElem py!"m" [xElem py!"c" [xElem py!"v" [xLeaf py!"zz" py!"1"]]]).kids :=
  .cont (x := xElem py!"c" [xElem py!"v" [xLeaf py!"zz" py!"1"]]) (by simp [xElem, Xml.kids]) rfl
    (.leafList (x := xElem py!"v" [xLeaf py!"zz" py!"1"]) (by simp [xElem, Xml.kids]) rfl (by simp [xElem, Xml.kids])
      (by simp [xElem, xLeaf, Xml.kids, Xml.name]))

/-- C72 fails for elements of another namespace: the namespace is not looked at. -/
theorem C72_namespace_refuted :
    xmlLoad demoInfer strKids (freshKids strKids) (xElem py!"m" [.elem py!"urn:other" py!"s" [] (some py!"x") []]) =
      ([.leaf (.str py!"x") true], none) := rfl

/-- C72 fails for names that only become the name of a child when they are made into
Python names. -/
theorem C72_alias_refuted :
    xmlLoad demoInfer [(inM py!"a-b", .leaf (tStr.cls noRx))] [.leaf (.str []) false] (xElem py!"m" [xLeaf py!"a.b" py!"x"]) =
      ([.leaf (.str py!"x") true], none) := rfl

/-- C72 fails for elements inside a leaf: they are ignored. -/
theorem C72_inside_leaf_refuted :
    xmlLoad demoInfer strKids (freshKids strKids) (xElem py!"m" [.elem py!"urn:m" py!"s" [] (some py!"x") [xElem py!"zz" []]]) =
      ([.leaf (.str py!"x") true], none) := rfl

/-! ## C73: loading over existing data -/

/-- C73, lists: an element for an entry whose keys have the texts under which an entry is
stored is loaded into this entry; otherwise a new entry is added at the end.  Other entries
are left as they are. -/
theorem C73_entry (infer : Str → PyVal) (kids : List (Meta × Schema)) (hn : GoodNames kids) (ns : List Inst) (i : Nat) (m : Meta)
    (info : ListInfo) (ek : List (Meta × Schema)) (ch : Bool) (es : List (PyVal × Inst)) (hk : kids[i]? = some (m, .list info ek))
    (hi : ns[i]? = some (.list ch es)) (x doc : Xml) (hx : x.name = m.name) (hd : doc.kids = [x]) (raws : List PyVal)
    (hraws : (keyNames info ek).map (fun k => (x.kids.find? fun y => y.ns == x.ns && y.name == k).map fun y => pyval infer y.text) = raws.map some)
    (ns' : List Inst) (h : xmlLoad infer kids ns doc = (ns', none)) :
    ∃ es', ns' = ns.set i (.list ch es') ∧
      ((∃ e, (.str (Spec.keyText raws), e) ∈ es) → ∃ l e e' r, es = l ++ (.str (Spec.keyText raws), e) :: r ∧
        es' = l ++ (.str (Spec.keyText raws), e') :: r) ∧
      ((¬ ∃ e, (.str (Spec.keyText raws), e) ∈ es) → ∃ e', es' = es ++ [(.str (Spec.keyText raws), e')]) := by
  simp only [xmlLoad, hd, Prod.mk.injEq] at h
  obtain ⟨h1, h2⟩ := h
  have hidx : kidIdx kids x.name = some i := by rw [hx]; exact kidIdx_self hn.2 hk
  rw [xmlMembers] at h1 h2
  obtain ⟨h3, -⟩ := xthen_ok h2
  have ho : (withKid false (rootCls kids) none (rootObj ns) x.name (fail (rootObj ns) .attributeError) fun i k c =>
      xmlChild infer k.2 k.1.choice (([] : List Nat).contains i) c x) =
      holdPut false false none kids false false ns i (xmlChild infer (.list info ek) m.choice (([] : List Nat).contains i) (.list ch es) x) := by
    simp only [withKid, hidx, hk, hi]
  rw [ho] at h1 h3
  rw [holdPut_err] at h3
  obtain ⟨es', e1, e2, e3⟩ := xlist_merge hraws h3
  refine ⟨es', ?_, e2, e3⟩
  rw [← h1]
  simp only [Out.andThen, holdPut_err, h3, xmlMembers, Out.same]
  simp only [holdPut, Bool.false_eq_true, if_false, Inst.kids, e1]

/-- C73, leaf-lists: the elements are added to the values that are there, each once.

Not covered: values that are stored as something else than what is read (strings that look
like numbers). -/
theorem C73_leaflist_partial (infer : Str → PyVal) (kids : List (Meta × Schema)) (hn : GoodNames kids) (ns : List Inst) (i : Nat)
    (m : Meta) (L : LLCls) (hu : L.uniq = true) (ch : Bool) (old : List PyVal) (hk : kids[i]? = some (m, .leafList L))
    (hi : ns[i]? = some (.leafList old ch)) (doc : Xml) (hd : ∀ x ∈ doc.kids, x.name = m.name ∧ x.kids = []) (ws : List PyVal)
    (hconv : doc.kids.map (fun x => L.conv (pyval infer x.text)) = ws.map some)
    (heq : ∀ (p : Nat) x w, doc.kids[p]? = some x → ws[p]? = some w → pyEq w (pyval infer x.text) = true) :
    ∃ ch', xmlLoad infer kids ns doc = (ns.set i (.leafList (union old ws) ch'), none) := by
  simp only [xmlLoad]
  generalize doc.kids = xs at hd hconv heq
  have hlt := (List.getElem?_eq_some_iff.1 hi).1
  induction xs generalizing ns old ch ws with
  | nil =>
    cases ws with
    | nil =>
      refine ⟨ch, ?_⟩
      simp only [xmlMembers, Out.same, Inst.kids, union, List.foldl_nil]
      congr 1
      refine List.ext_getElem? fun j => ?_
      rw [List.getElem?_set]
      split
      · rename_i e; subst e; exact hi
      · rfl
    | cons w ws => simp at hconv
  | cons x xs ih =>
    cases ws with
    | nil => simp at hconv
    | cons w ws =>
      simp only [List.map_cons, List.cons.injEq] at hconv
      have he := heq 0 x w rfl rfl
      obtain ⟨hx1, hx2⟩ := hd x (by simp)
      have hidx : kidIdx kids x.name = some i := by rw [hx1]; exact kidIdx_self hn.2 hk
      have hstep : xmlChild infer (.leafList L) m.choice (([] : List Nat).contains i) (.leafList old ch) x =
          ⟨.leafList (if old.any fun y => pyEq y w then old else old ++ [w]) true, [m.choice], none⟩ := by
        cases x with
        | elem ns0 nm ds t ks =>
          simp only [Xml.kids] at hx2
          subst hx2
          simp only [Xml.text] at he hconv
          have hany : (old.any fun y => pyEq y w) = pyIn (pyval infer t) old := by
            simp only [pyIn]
            congr 1
            funext y
            rw [pyEq_symm y w, pyEq_symm y, pyEq_trans he]
          simp only [xmlChild, List.isEmpty_nil, if_true]
          cases hin : pyIn (pyval infer t) old with
          | true =>
            rw [hany, hin]
            simp [xmlAppend, llApply, llStep, llMarks, tlAppend, hu, hin]
          | false =>
            rw [hany, hin, xmlAppend_ok hconv.1 hin]
            simp
      rw [xmlMembers]
      simp only [withKid, hidx, hk, hi, hstep, holdPut, Bool.false_eq_true, if_false, Out.andThen]
      obtain ⟨ch', e⟩ := ih (ns.set i (.leafList (if old.any fun y => pyEq y w then old else old ++ [w]) true)) true
        (if old.any fun y => pyEq y w then old else old ++ [w]) (List.getElem?_set_self hlt) ws (fun y hy => hd y (by simp [hy])) hconv.2
        (fun p y v h1 h2 => heq (p + 1) y v (by simpa using h1) (by simpa using h2)) (by simpa using hlt)
      refine ⟨ch', ?_⟩
      simp only [Prod.mk.injEq] at e
      simp only [e.1, e.2, List.set_set, union, List.foldl_cons]

/-- A list with an entry `x`, for loading over it, and a leaf-list. -/
def overKids : List (Meta × Schema) := [(inM py!"l", .list { keys := [0] } jsonL), (inM py!"v", .leafList (tU8.llCls noRx true))]

def overTree : List Inst :=
  [.list false [(.str py!"x", .cont true false [.leaf (.str py!"x") true, .leaf (.int 5) true])], .leafList [.int 5] true]

theorem overTree_reached : history overKids (freshKids overKids)
    [([.field 0], .add (.str py!"x")), ([.field 0, .key (.str py!"x"), .field 1], .set (.int 5) false),
     ([.field 1], .ll (.append (.int 5)))] = overTree := rfl

example : ∃ es', xmlLoad demoInfer overKids overTree (xElem py!"m" [xElem py!"l" [xLeaf py!"k" py!"x", xLeaf py!"z" py!"7"]]) =
    (overTree.set 0 (.list false es'), none) ∧ es' = [(.str py!"x", .cont true false [.leaf (.str py!"x") true, .leaf (.int 7) true])] :=
  ⟨_, rfl, rfl⟩

example : ∃ es' e', xmlLoad demoInfer overKids overTree (xElem py!"m" [xElem py!"l" [xLeaf py!"k" py!"y"]]) =
    (overTree.set 0 (.list false es'), none) ∧
    es' = [(.str py!"x", .cont true false [.leaf (.str py!"x") true, .leaf (.int 5) true]), (.str py!"y", e')] := by
  obtain ⟨es', h1, _, h3⟩ := C73_entry demoInfer overKids ⟨by decide, by decide⟩ overTree 0 (inM py!"l") { keys := [0] } jsonL false
    _ rfl rfl (xElem py!"l" [xLeaf py!"k" py!"y"]) (xElem py!"m" [xElem py!"l" [xLeaf py!"k" py!"y"]]) rfl rfl [.str py!"y"] rfl _ rfl
  obtain ⟨e', he⟩ := h3 (by simp [Spec.keyText, join, PyVal.toStr])
  exact ⟨es', e', by rw [← h1]; rfl, he⟩

example : ∃ ch', xmlLoad demoInfer overKids overTree (xElem py!"m" [xLeaf py!"v" py!"7", xLeaf py!"v" py!"5"]) =
    (overTree.set 1 (.leafList [.int 5, .int 7] ch'), none) :=
  C73_leaflist_partial demoInfer overKids ⟨by decide, by decide⟩ overTree 1 (inM py!"v") (tU8.llCls noRx true) rfl true [.int 5] rfl rfl
    (xElem py!"m" [xLeaf py!"v" py!"7", xLeaf py!"v" py!"5"]) (by simp [xElem, xLeaf, Xml.kids, Xml.name, inM]) [.int 7, .int 5] rfl (by
      intro p x w h1 h2
      match p with
      | 0 => simp [xElem, Xml.kids] at h1 h2; subst h1 h2; rfl
      | 1 => simp [xElem, Xml.kids] at h1 h2; subst h1 h2; rfl
      | p + 2 => simp at h2)

/-- C73 fails for an entry that was added with a number as the key: loading an element for
the same key adds a second entry with the same keys. -/
theorem C73_number_key_refuted :
    history numKids (freshKids numKids) [([.field 0], .add (.int 5))] = [.list false [(.int 5, .cont true false [.leaf (.int 5) true])]] ∧
    xmlLoad demoInfer numKids [.list false [(.int 5, .cont true false [.leaf (.int 5) true])]] (xElem py!"m" [xElem py!"l" [xLeaf py!"k" py!"5"]]) =
      ([.list false [(.int 5, .cont true false [.leaf (.int 5) true]), (.str py!"5", .cont true false [.leaf (.int 5) true])]], none) :=
  ⟨rfl, rfl⟩

end Pyb
