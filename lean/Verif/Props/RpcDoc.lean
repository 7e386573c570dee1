import Verif.Model.RpcDoc
import Verif.Props.Native

/-! # C107: documents of rpcs -/

namespace Pyb
open Py Spec

theorem rpcKids_names {mod : Str} (hm : '@' ∉ mod) (ns : Str) (i o : List (Meta × Schema)) : GoodNames (rpcKids ns mod i o) := by
  have h : safeName py!"input" ≠ safeName py!"output" := by decide
  exact ⟨by simp [rpcKids, hm], by simpa [rpcKids] using h⟩

/-- C107, in part: what any history leaves in the object of an rpc is the same after it was written
as JSON and read again, in both formats, with the conditions C38 and C39 have. -/
theorem C107_json_partial (rx : Str → Str → Bool) (g : LoadOpt) (hov : g.over = false) (hu : FreshUuid g.uuid)
    (ns mod : Str) (hm : '@' ∉ mod) (input output : List (Meta × Schema)) (hf : FlatRoot (rpcKids ns mod input output)) (ops : List (Path × Op)) (hops : ∀ x ∈ ops, Plain x.2) :
    (EveryKids (ValuesReady rx) (rpcKids ns mod input output) (history (rpcKids ns mod input output) (freshKids (rpcKids ns mod input output)) ops) →
      ∃ j ns', ietfDump {} (rpcKids ns mod input output) (history (rpcKids ns mod input output) (freshKids (rpcKids ns mod input output)) ops) = .ok j ∧
        ietfLoad g (rpcKids ns mod input output) (freshKids (rpcKids ns mod input output)) j = (ns', none) ∧
        SameKids (rpcKids ns mod input output) (history (rpcKids ns mod input output) (freshKids (rpcKids ns mod input output)) ops) ns') ∧
    (EveryKids (NativeValues rx) (rpcKids ns mod input output) (history (rpcKids ns mod input output) (freshKids (rpcKids ns mod input output)) ops) →
      ∃ j ns', nativeDump (rpcKids ns mod input output) (history (rpcKids ns mod input output) (freshKids (rpcKids ns mod input output)) ops) = .ok j ∧
        nativeLoad g (rpcKids ns mod input output) (freshKids (rpcKids ns mod input output)) j = (ns', none) ∧
        SameKids (rpcKids ns mod input output) (history (rpcKids ns mod input output) (freshKids (rpcKids ns mod input output)) ops) ns') :=
  ⟨fun h => C38_reachable_partial rx g hov hu _ hf (rpcKids_names hm ..) ops hops h,
   fun h => C39_reachable_partial rx g hov _ hf (rpcKids_names hm ..) ops hops h⟩

theorem kidIdx_mem {kids : List (Meta × Schema)} {name : Str} (h : name ∈ kids.map (·.1.name)) : ∃ i, kidIdx kids name = some i ∧ i < kids.length := by
  obtain ⟨k, hk, rfl⟩ := List.mem_map.1 h
  cases q : kidIdx kids k.1.name with
  | none =>
    have := List.findIdx?_eq_none_iff.1 q k hk
    simp at this
  | some i => exact ⟨i, rfl, (List.findIdx?_eq_some_iff_getElem.1 q).1⟩

theorem xmlKids_plain {nsOf : Str → Str} {flt : Bool} : ∀ {kids : List (Meta × Schema)} {ns : List Inst} {xs : List (List Xml)},
    (∀ k ∈ kids, ∃ p ks, k.2 = .cont p ks) → xmlKids nsOf flt kids ns = .ok xs → ∀ x ∈ xs.flatten, x.text = none ∧ x.name ∈ kids.map (·.1.name)
  | [], ns, xs, _, h, x, hx => by
    simp only [xmlKids, Except.ok.injEq] at h
    subst h; simp at hx
  | k :: ks, [], xs, _, h, x, hx => by
    simp only [xmlKids, Except.ok.injEq] at h
    subst h; simp at hx
  | k :: ks, n :: ns, xs, hk, h, x, hx => by
    have rest : ∀ ys, xmlKids nsOf flt ks ns = .ok ys → x ∈ ys.flatten → x.text = none ∧ x.name ∈ (k :: ks).map (·.1.name) := by
      intro ys hy hxy
      have := xmlKids_plain (fun k h => hk k (by simp [h])) hy x hxy
      exact ⟨this.1, List.mem_cons_of_mem _ this.2⟩
    have here : ∀ es, xmlNode nsOf flt k.1 k.2 n = .ok (some es) → x ∈ es → x.text = none ∧ x.name ∈ (k :: ks).map (·.1.name) := by
      intro es he hxe
      obtain ⟨p, ks', e⟩ := hk k (by simp)
      rw [e] at he
      cases n with
      | cont ch pr ns' =>
        simp only [xmlNode] at he
        split at he
        · split at he
          · cases he
          · simp only [Except.ok.injEq, Option.some.injEq] at he
            subst he
            rw [List.mem_singleton.1 hxe]
            simp [Xml.text, Xml.name]
        · cases he
      | leaf v ch => simp [xmlNode] at he
      | leafList v ch => simp [xmlNode] at he
      | list ch es => simp [xmlNode] at he
    cases q1 : xmlNode nsOf flt k.1 k.2 n with
    | error e => simp [xmlKids, q1] at h
    | ok o =>
      cases q2 : xmlKids nsOf flt ks ns with
      | error e => cases o <;> simp [xmlKids, q1, q2] at h
      | ok ys =>
        cases o with
        | none =>
          simp only [xmlKids, q1, q2, Except.ok.injEq] at h
          subst h
          exact rest ys q2 hx
        | some es =>
          simp only [xmlKids, q1, q2, Except.ok.injEq] at h
          subst h
          rcases List.mem_append.1 (by simpa only [List.flatten_cons] using hx) with hx | hx
          · exact here es q1 hx
          · exact rest ys q2 hx

theorem rpcXmlMembers_same {kids : List (Meta × Schema)} {ns : List Inst} (hl : ns.length = kids.length) : ∀ xs : List Xml,
    (∀ x ∈ xs, x.text = none ∧ x.name ∈ kids.map (·.1.name)) → rpcXmlMembers kids (.cont false false ns) xs = Out.same (.cont false false ns)
  | [], _ => rfl
  | x :: xs, h => by
    obtain ⟨h1, h2⟩ := h x (by simp)
    obtain ⟨i, hi, hlt⟩ := kidIdx_mem h2
    have e : withKid false (.cont false kids) none (.cont false false ns) x.name (fail (.cont false false ns) .attributeError) (fun _ _ c => rpcXmlChild c x) =
        Out.same (.cont false false ns) := by
      have hn : ns[i]? = some ns[i] := List.getElem?_eq_getElem (by omega)
      simp [withKid, hi, List.getElem?_eq_getElem hlt, hn, rpcXmlChild, h1, holdPut, Out.same]
    rw [rpcXmlMembers, e]
    simp only [Out.andThen, Out.same]
    rw [rpcXmlMembers_same hl xs fun x hx => h x (by simp [hx])]
    rfl

/-- C107 is false for XML: whatever the object of an rpc holds, loading the document it was written as
gives an empty object, without any exception.  So it is for the object with the rpcs of a module: what
is needed is only that all children are rpcs, inputs or outputs. -/
theorem C107_xml_refuted (nsOf : Str → Str) (flt : Bool) (name ns : Str) (kids : List (Meta × Schema)) (hk : ∀ k ∈ kids, ∃ p ks, k.2 = .cont p ks)
    (insts : List Inst) (doc : Xml) (hd : xmlDump nsOf flt name ns kids insts = .ok doc) :
    rpcXmlLoad kids (freshKids kids) doc = (freshKids kids, none) := by
  unfold xmlDump at hd
  cases hx : xmlKids nsOf flt kids insts with
  | error e => rw [hx] at hd; cases hd
  | ok xs =>
    rw [hx] at hd
    cases hd
    simp only [rpcXmlLoad, Xml.kids, rpcXmlMembers_same (freshKids_length kids) _ (xmlKids_plain hk hx), Out.same, Inst.kids]

/-! Examples: an rpc with the leaf `z` in its input. -/

def echoKids : List (Meta × Schema) := rpcKids [] py!"m" [({ name := py!"z" }, .leaf strLeaf)] [({ name := py!"z" }, .leaf strLeaf)]
def echoTree : List Inst := [.cont true false [.leaf (.str py!"hello") true], .cont false false [.leaf (.str []) false]]

example : history echoKids (freshKids echoKids) [([.field 0, .field 0], .set (.str py!"hello") false)] = echoTree := rfl
example : xmlDump (fun _ => []) true py!"echo" [] echoKids echoTree =
    .ok (.elem [] py!"echo" [] none [.elem [] py!"input" [] none [.elem [] py!"z" [] (some py!"hello") []]]) := rfl
example : ∀ k ∈ echoKids, ∃ p ks, k.2 = .cont p ks := by simp [echoKids, rpcKids]
example : freshKids echoKids ≠ echoTree := by simp [echoKids, rpcKids, echoTree, freshKids, fresh, strLeaf]
example : (xmlLoad PyVal.str echoKids (freshKids echoKids)
    (.elem [] py!"echo" [] none [.elem [] py!"input" [] none [.elem [] py!"z" [] (some py!"hello") []]])) = (echoTree, none) := rfl

/-- The module of `Props/Json`, its container made the input of an rpc. -/
def saveKids : List (Meta × Schema) := rpcKids py!"urn:m" py!"m" jsonC []

example : '@' ∉ py!"m" ∧ FlatRoot saveKids ∧ (∀ x ∈ jsonOps, Plain x.2) ∧
    EveryKids (ValuesReady noRx) saveKids (history saveKids (freshKids saveKids) jsonOps) ∧
    EveryKids (NativeValues noRx) saveKids (history saveKids (freshKids saveKids) jsonOps) := by
  have e : history saveKids (freshKids saveKids) jsonOps = jsonTree ++ [.cont false false []] := rfl
  refine ⟨by decide, ?_, by simp [jsonOps, Plain], ?_, ?_⟩
  · intro k hk
    simp only [saveKids, rpcKids, List.mem_cons, List.not_mem_nil, or_false] at hk
    rcases hk with rfl | rfl <;> simp [Choices, ChoicesKids, jsonC, jsonL, inM, choiceNames]
  · rw [e]
    have h := json_values
    simp only [jsonKids, jsonTree, EveryKids, Every, and_true] at h
    simp only [saveKids, rpcKids, jsonTree, List.cons_append, List.nil_append, EveryKids, Every, and_true]
    exact ⟨h, by simp [ValuesReady, GoodNames]⟩
  · rw [e]
    have h := json_native_values
    simp only [jsonKids, jsonTree, EveryKids, Every, and_true] at h
    simp only [saveKids, rpcKids, jsonTree, List.cons_append, List.nil_append, EveryKids, Every, and_true]
    exact ⟨h, by simp [NativeValues, GoodNames]⟩

end Pyb
