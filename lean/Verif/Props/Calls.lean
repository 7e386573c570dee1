import Verif.Lemmas.CallsFill
import Verif.Props.Reg

/-! # Documents and calls (C98) -/

namespace Pyb
open Py Spec

/-- C98: loading an IETF JSON document does exactly what making its calls one by one does.  None
of them raises, but for the last one if the document is refused.

Missing: `overwrite`. -/
theorem C98_ietf_partial (g : LoadOpt) (hg : g.over = false) (kids : List (Meta × Schema)) (hf : ApartRoot kids) (ns ns' : List Inst) (doc : J)
    (e : Option Err) (h : ietfLoad g kids ns doc = (ns', e)) :
    history kids ns (ietfCalls g kids ns doc) = ns' ∧ (e = none → raised kids ns (ietfCalls g kids ns doc) = []) ∧
    raised kids ns (ietfCalls g kids ns doc).dropLast = [] ∧ ∀ c ∈ ietfCalls g kids ns doc, Fills c.2 := by
  obtain ⟨h1, h2, h3⟩ := ietfLoad_follows (R := fun _ => False) hg hf ns doc
  rw [h] at h1 h3
  exact ⟨h1, fun he => List.eq_nil_iff_forall_not_mem.2 (h3 he), List.eq_nil_iff_forall_not_mem.2 h2, ietfCalls_fill⟩

/-- C98: the same for native JSON. -/
theorem C98_native_partial (g : LoadOpt) (hg : g.over = false) (kids : List (Meta × Schema)) (hf : ApartRoot kids)
    (hl : KeyLeaves (.cont false kids)) (ns ns' : List Inst) (doc : J) (e : Option Err) (h : nativeLoad g kids ns doc = (ns', e)) :
    history kids ns (nativeCalls g kids ns doc) = ns' ∧ (e = none → raised kids ns (nativeCalls g kids ns doc) = []) ∧
    raised kids ns (nativeCalls g kids ns doc).dropLast = [] ∧ ∀ c ∈ nativeCalls g kids ns doc, Fills c.2 := by
  obtain ⟨h1, h2, h3⟩ := nativeLoad_follows (R := fun _ => False) hg hf hl ns doc
  rw [h] at h1 h3
  exact ⟨h1, fun he => List.eq_nil_iff_forall_not_mem.2 (h3 he), List.eq_nil_iff_forall_not_mem.2 h2, nativeCalls_fill⟩

/-- C98: the same for XML, but here values that look like numbers may be refused by a leaf-list
of strings before their texts are appended. -/
theorem C98_xml_partial (infer : Str → PyVal) (kids : List (Meta × Schema)) (hf : ApartRoot kids) (ns ns' : List Inst) (doc : Xml)
    (e : Option Err) (h : xmlLoad infer kids ns doc = (ns', e)) :
    history kids ns (xmlCalls infer kids ns doc) = ns' ∧
    (e = none → ∀ op ∈ raised kids ns (xmlCalls infer kids ns doc), ∃ v, op = .ll (.append v)) ∧
    (∀ op ∈ raised kids ns (xmlCalls infer kids ns doc).dropLast, ∃ v, op = .ll (.append v)) ∧
    ∀ c ∈ xmlCalls infer kids ns doc, Fills c.2 := by
  obtain ⟨h1, h2, h3⟩ := xmlLoad_follows (infer := infer) hf ns doc
  rw [h] at h1 h3
  exact ⟨h1, h3, h2, xmlCalls_fill⟩

theorem actCalls_follow {kids : List (Meta × Schema)} (hf : ApartRoot kids) (hl : KeyLeaves (.cont false kids)) {ns : List Inst} {a : Act}
    (h : Plainly a) : history kids ns (actCalls kids ns a) = act kids ns a := by
  cases a with
  | api p op => rfl
  | ietf g doc => exact (ietfLoad_follows (R := fun _ => False) h hf ns doc).1
  | native g doc => exact (nativeLoad_follows (R := fun _ => False) h hf hl ns doc).1
  | xml infer doc => exact (xmlLoad_follows hf ns doc).1

/-- C98: whatever a program does with a binding, calls and documents in any order, whether they
raise or not, is a history of calls. -/
theorem C98_session_partial (kids : List (Meta × Schema)) (hf : ApartRoot kids) (hl : KeyLeaves (.cont false kids)) (acts : List Act)
    (h : ∀ a ∈ acts, Plainly a) : ∀ (ns : List Inst), session kids ns acts = history kids ns (sessionCalls kids ns acts) := by
  induction acts with
  | nil => intro ns; rfl
  | cons a as ih =>
    intro ns
    simp only [sessionCalls, history_append, actCalls_follow hf hl (h a (List.mem_cons_self ..))]
    exact ih (fun a ha => h a (List.mem_cons_of_mem _ ha)) _

/-! ## The path helper -/

theorem actCalls_ok {K : PyVal → Prop} {kids : List (Meta × Schema)} (hf : ApartRoot kids) (hl : KeyLeaves (.cont false kids)) {ns : List Inst} {a : Act}
    (h : Plainly a) (h1 : ∀ c ∈ actCalls kids ns a, ∀ S, clsAt kids c.1 = some S → OpOk K S c.2)
    (h2 : Loads kids ns a ∨ EndOk kids ns (actCalls kids ns a)) : HistOk K kids ns (actCalls kids ns a) := by
  rcases h2 with h2 | h2
  · cases a with
    | api p op => exact ⟨h1 (p, op) (List.mem_cons_self ..), .inl h2, trivial⟩
    | ietf g doc => exact histOk_of _ h1 ((ietfLoad_follows h hf ns doc).2.2 h2)
    | native g doc => exact histOk_of _ h1 ((nativeLoad_follows h hf hl ns doc).2.2 h2)
    | xml infer doc => exact histOk_of _ h1 ((xmlLoad_follows hf ns doc).2.2 h2)
  · refine histOk_last h1 ?_ h2
    cases a with
    | api p op => intro op hop; simp [actCalls, raised] at hop
    | ietf g doc => exact (ietfLoad_follows h hf ns doc).2.1
    | native g doc => exact (nativeLoad_follows h hf hl ns doc).2.1
    | xml infer doc => exact (xmlLoad_follows hf ns doc).2.1

theorem sessionCalls_ok {K : PyVal → Prop} {kids : List (Meta × Schema)} (hf : ApartRoot kids) (hl : KeyLeaves (.cont false kids)) (acts : List Act)
    (h : ∀ a ∈ acts, Plainly a) :
    ∀ (ns : List Inst), (∀ c ∈ sessionCalls kids ns acts, ∀ S, clsAt kids c.1 = some S → OpOk K S c.2) →
      (∀ before a after, acts = before ++ a :: after →
        Loads kids (session kids ns before) a ∨ EndOk kids (session kids ns before) (actCalls kids (session kids ns before) a)) →
      HistOk K kids ns (sessionCalls kids ns acts) := by
  induction acts with
  | nil => intro ns _ _; trivial
  | cons a as ih =>
    intro ns h1 h2
    have ha := h a (List.mem_cons_self ..)
    simp only [sessionCalls] at h1 ⊢
    refine histOk_append _ _ (actCalls_ok hf hl ha (fun c hc => h1 c (List.mem_append_left _ hc)) (h2 [] a as rfl)) ?_
    rw [actCalls_follow hf hl ha]
    exact ih (fun a ha => h a (List.mem_cons_of_mem _ ha)) _ (fun c hc => h1 c (List.mem_append_right _ hc))
      fun before b after e => h2 (a :: before) b after (by rw [e]; rfl)

theorem addressable_keyLeaves : ∀ {S : Schema}, Addressable S → KeyLeaves S := by
  intro S
  induction S using Schema.ind with
  | hleaf L => intro _ p info ks hp; cases p with
    | nil => simp [schemaAt] at hp
    | cons s p => cases s <;> simp [schemaAt] at hp
  | hll L => intro _ p info ks hp; cases p with
    | nil => simp [schemaAt] at hp
    | cons s p => cases s <;> simp [schemaAt] at hp
  | hcont pres kids ih =>
    intro h p info ks hp
    cases h with
    | cont _ _ _ hk =>
      cases p with
      | nil => simp [schemaAt] at hp
      | cons s p =>
        cases s with
        | key k => simp [schemaAt] at hp
        | field i =>
          simp only [schemaAt] at hp
          cases hi : kids[i]? with
          | none => simp [hi] at hp
          | some k =>
            simp only [hi] at hp
            have hm := List.mem_of_getElem? hi
            exact ih k hm (hk k hm) p info ks hp
  | hlist info kids ih =>
    intro h p info' ks hp
    cases h with
    | list _ _ _ hk _ _ hl =>
      cases p with
      | nil =>
        simp [schemaAt] at hp
        obtain ⟨rfl, rfl⟩ := hp
        intro j hj
        obtain ⟨m, L, e, _⟩ := hl j hj
        exact ⟨m, L, e⟩
      | cons s p =>
        cases s with
        | field i => simp [schemaAt] at hp
        | key k =>
          simp only [schemaAt] at hp
          cases p with
          | nil => simp [schemaAt] at hp
          | cons s p =>
            cases s with
            | key k => simp [schemaAt] at hp
            | field i =>
              simp only [schemaAt] at hp
              cases hi : kids[i]? with
              | none => simp [hi] at hp
              | some k =>
                simp only [hi] at hp
                have hm := List.mem_of_getElem? hi
                exact ih k hm (hk k hm) p info' ks hp

theorem keyLeaves_root {kids : List (Meta × Schema)} (ha : ∀ k ∈ kids, KeyLeaves k.2) : KeyLeaves (.cont false kids) := by
  intro p info ks hp
  cases p with
  | nil => simp [schemaAt] at hp
  | cons s p =>
    cases s with
    | key k => simp [schemaAt] at hp
    | field i =>
      simp only [schemaAt] at hp
      cases hi : kids[i]? with
      | none => simp [hi] at hp
      | some k =>
        simp only [hi] at hp
        exact ha k (List.mem_of_getElem? hi) p info ks hp

/-- C83: a lookup in the path helper also finds exactly what is in the tree when the tree was
filled by loading documents, or by documents and calls in any order.  The conditions are those of
`C83_lookup_partial`; those on keys concern the calls documents make as well.  Documents may be
refused, if the call that raises does not do so late. -/
theorem C83_documents_partial {K : PyVal → Prop} {eqv : XObj → XObj → Bool} {kids : List (Meta × Schema)} {acts : List Act}
    (hK : ToldApart K) (hok : Named kids) (ha : ∀ k ∈ kids, Addressable k.2) (hf : ApartRoot kids) (hs : ∀ a ∈ acts, Plainly a)
    (hops : ∀ c ∈ sessionCalls kids (freshKids kids) acts, ∀ S, clsAt kids c.1 = some S → OpOk K S c.2)
    (hlate : ∀ before a after, acts = before ++ a :: after → Loads kids (session kids (freshKids kids) before) a ∨
      EndOk kids (session kids (freshKids kids) before) (actCalls kids (session kids (freshKids kids) before) a))
    {q : List PStep} (hq : PathOk q kids) (hne : q ≠ []) (caller) :
    (regAt q kids (session kids (freshKids kids) acts) = none →
      (helperAfter eqv kids (sessionCalls kids (freshKids kids) acts)).get (q.map PStep.text) caller = .ok []) ∧
    (∀ o, regAt q kids (session kids (freshKids kids) acts) = some o →
      ∃ o', (helperAfter eqv kids (sessionCalls kids (freshKids kids) acts)).get (q.map PStep.text) caller = .ok [o'] ∧ (o' = o ∨ eqv o' o = true)) := by
  have hl := keyLeaves_root fun k hk => addressable_keyLeaves (ha k hk)
  rw [C98_session_partial kids hf hl acts hs]
  exact C83_lookup_partial hK hok ha hf (sessionCalls_ok hf hl acts hs _ hops hlate) hq hne caller

/-! ## Examples -/

def callOpt : LoadOpt := { repr := fun _ => [], uuid := fun _ => py!"u" }

/-- `{"c": {"a": "1", "p": {}, "l": [{"k": "e1", "z": "2"}], "v": ["s"]}}` -/
def callDoc : J := .obj [(py!"c", .obj [(py!"a", .str py!"1"), (py!"p", .obj []),
  (py!"l", .arr [.obj [(py!"k", .str py!"e1"), (py!"z", .str py!"2")]]), (py!"v", .arr [.str py!"s"])])]

example : ApartRoot demoM ∧ (ietfLoad callOpt demoM (freshKids demoM) callDoc).2 = none ∧
    ietfCalls callOpt demoM (freshKids demoM) callDoc =
      [([.field 0, .field 0], .set (.str py!"1") false), ([.field 0, .field 3], .present true),
       ([.field 0, .field 4], .add (.str py!"e1")), ([.field 0, .field 4, .key (.str py!"e1"), .field 1], .set (.str py!"2") false),
       ([.field 0, .field 5], .ll (.assign (.seq [.str py!"s"])))] := by
  refine ⟨demoM_flat.apart, by decide, rfl⟩

/-- The same in the native format. -/
def callDocN : J := .obj [(py!"c", .obj [(py!"a", .str py!"1"), (py!"p", .obj []),
  (py!"l", .obj [(py!"e1", .obj [(py!"k", .str py!"e1"), (py!"z", .str py!"2")])]), (py!"v", .arr [.str py!"s"])])]

theorem demoM_keyLeaves : KeyLeaves (.cont false demoM) := keyLeaves_root fun k hk => addressable_keyLeaves (demoM_addressable k hk)

example : ApartRoot demoM ∧ KeyLeaves (.cont false demoM) ∧ (nativeLoad callOpt demoM (freshKids demoM) callDocN).2 = none ∧
    nativeCalls callOpt demoM (freshKids demoM) callDocN =
      [([.field 0, .field 0], .set (.str py!"1") true), ([.field 0, .field 3], .present true),
       ([.field 0, .field 4], .add (.str py!"e1")), ([.field 0, .field 4, .key (.str py!"e1"), .field 0], .set (.str py!"e1") true),
       ([.field 0, .field 4, .key (.str py!"e1"), .field 1], .set (.str py!"2") true), ([.field 0, .field 5], .ll (.append (.str py!"s")))] := by
  refine ⟨demoM_flat.apart, demoM_keyLeaves, by decide, rfl⟩

def callEl (n : Str) (t : Option Str) (xs : List Xml) : Xml := .elem [] n [] t xs

/-- The same as XML, and a number in the leaf-list. -/
def callDocX : Xml := callEl py!"m" none [callEl py!"c" none [callEl py!"a" (some py!"1") [], callEl py!"p" none [],
  callEl py!"l" none [callEl py!"k" (some py!"e1") [], callEl py!"z" (some py!"2") []], callEl py!"v" (some py!"7") []]]

def callInfer (s : Str) : PyVal := if s = py!"7" then .int 7 else .str s

def llM : List (Meta × Schema) := [({ name := py!"v" }, .leafList { strLL with plainStr := true })]

example : ApartRoot llM ∧ (xmlLoad callInfer llM (freshKids llM) (callEl py!"m" none [callEl py!"v" (some py!"7") []])).2 = none ∧
    xmlCalls callInfer llM (freshKids llM) (callEl py!"m" none [callEl py!"v" (some py!"7") []]) =
      [([.field 0], .ll (.append (.int 7))), ([.field 0], .ll (.append (.str py!"7")))] := by
  refine ⟨fun k hk => ?_, by decide, rfl⟩
  simp [llM] at hk
  subst hk
  simp [Choices]

/-- `{"c": {"a": "1", "x": 3, "b": "2"}}` is refused half-way: the call that raises is the last
one, `a` is set and `b` is not. -/
def callDocBad : J := .obj [(py!"c", .obj [(py!"a", .str py!"1"), (py!"x", .num 3), (py!"b", .str py!"2")])]

example : ApartRoot demoM ∧ (ietfLoad callOpt demoM (freshKids demoM) callDocBad).2 = some .valueError ∧
    ietfCalls callOpt demoM (freshKids demoM) callDocBad =
      [([.field 0, .field 0], .set (.str py!"1") false), ([.field 0, .field 2], .set (.int 3) false)] ∧
    raised demoM (freshKids demoM) (ietfCalls callOpt demoM (freshKids demoM) callDocBad) = [.set (.int 3) false] := by
  refine ⟨demoM_flat.apart, by decide, rfl, rfl⟩

/-- A session: a document, a call, another document and one that is refused. -/
def callActs : List Act := [.ietf callOpt callDoc, .api [.field 0, .field 4] (.add (.str py!"e2")),
  .native callOpt (.obj [(py!"c", .obj [(py!"l", .obj [(py!"e2", .obj [(py!"z", .str py!"3")])])])]),
  .ietf callOpt callDocBad]

set_option maxRecDepth 8000 in
example : (∀ a ∈ callActs, Plainly a) ∧
    regAt (inC (entryE py!"e2") [⟨py!"z", []⟩]) demoM (session demoM (freshKids demoM) callActs) = some (leafObj (.str py!"3")) ∧
    (∀ c ∈ sessionCalls demoM (freshKids demoM) callActs, ∀ S, clsAt demoM c.1 = some S → OpOk demoKeys S c.2) ∧
    (∀ before a after, callActs = before ++ a :: after → Loads demoM (session demoM (freshKids demoM) before) a ∨
      EndOk demoM (session demoM (freshKids demoM) before) (actCalls demoM (session demoM (freshKids demoM) before) a)) := by
  refine ⟨?_, by decide, ?_, ?_⟩
  · intro a ha
    simp only [callActs, List.mem_cons, List.not_mem_nil, or_false] at ha
    rcases ha with rfl | rfl | rfl | rfl <;> first | rfl | trivial
  · intro c hc
    have e : sessionCalls demoM (freshKids demoM) callActs =
      [([.field 0, .field 0], .set (.str py!"1") false), ([.field 0, .field 3], .present true),
       ([.field 0, .field 4], .add (.str py!"e1")), ([.field 0, .field 4, .key (.str py!"e1"), .field 1], .set (.str py!"2") false),
       ([.field 0, .field 5], .ll (.assign (.seq [.str py!"s"]))), ([.field 0, .field 4], .add (.str py!"e2")),
       ([.field 0, .field 4, .key (.str py!"e2"), .field 1], .set (.str py!"3") true),
       ([.field 0, .field 0], .set (.str py!"1") false), ([.field 0, .field 2], .set (.int 3) false)] := rfl
    rw [e] at hc
    simp only [List.mem_cons, List.not_mem_nil, or_false] at hc
    rcases hc with rfl | rfl | rfl | rfl | rfl | rfl | rfl | rfl | rfl
    · exact opOk_of (S0 := .leaf strLeaf) rfl trivial
    · exact opOk_of rfl trivial
    · exact opOk_of (S0 := .list { keys := [0] } demoL) rfl ⟨.inl rfl, fun v hv => demoKeys_text v (List.mem_append_left _ hv)⟩
    · exact opOk_of (S0 := .leaf strLeaf) rfl trivial
    · exact opOk_of (S0 := .leafList strLL) rfl trivial
    · exact opOk_of (S0 := .list { keys := [0] } demoL) rfl ⟨.inr rfl, fun v hv => demoKeys_text v (List.mem_append_right _ hv)⟩
    · exact opOk_of (S0 := .leaf strLeaf) rfl trivial
    · exact opOk_of (S0 := .leaf strLeaf) rfl trivial
    · exact opOk_of (S0 := .leaf dfltLeaf) rfl trivial
  · intro before a after e
    rcases before with _ | ⟨a, _ | ⟨b, _ | ⟨c, _ | ⟨d, before⟩⟩⟩⟩ <;> simp [callActs] at e
    · obtain ⟨rfl, _⟩ := e; exact .inl (by rfl)
    · obtain ⟨rfl, rfl, _⟩ := e; exact .inl (by rfl)
    · obtain ⟨rfl, rfl, rfl, _⟩ := e; exact .inl (by rfl)
    · obtain ⟨rfl, rfl, rfl, rfl, _⟩ := e
      refine .inr fun before p op hb => .inr fun S n h1 h2 h => ?_
      have e : actCalls demoM (session demoM (freshKids demoM) (callActs.take 3)) (.ietf callOpt callDocBad) =
        [([.field 0, .field 0], .set (.str py!"1") false)] ++ [([.field 0, .field 2], .set (.int 3) false)] := rfl
      have hb := e.symm.trans hb
      obtain ⟨rfl, h⟩ := List.append_inj' hb rfl
      simp only [List.cons.injEq, Prod.mk.injEq, and_true] at h
      obtain ⟨rfl, rfl⟩ := h
      cases h1
      obtain ⟨e, he⟩ := h
      cases he

end Pyb
