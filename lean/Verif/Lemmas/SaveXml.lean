import Verif.Spec.SaveXml
import Verif.Lemmas.Save
import Verif.Lemmas.XmlTypes

namespace Pyb
open Py Spec

theorem safe_xml {rx : Str → Str → Bool} {t : YTy} (ht : SafeTy t) {v : PyVal} (h : Stored rx t v) (hs : ∀ s, v = .str s → s ≠ [] ∧ s.all xmlChar = true) :
    InXml t v ∧ xmlTextOf v ≠ [] := by
  obtain ⟨h, _⟩ := h
  cases h with
  | int => exact ⟨⟨by simp, by simp, by simp⟩, (intStr_xml _).2⟩
  | str => exact ⟨⟨fun s e => (hs s e).2, by simp, by simp⟩, (hs _ rfl).1⟩
  | bool _ b => exact ⟨⟨by simp, by simp, by simp⟩, by cases b <;> decide⟩
  | ident => cases ht
  | empty => cases ht
  | ext => cases ht

theorem xkey_leaf {rx : Str → Str → Bool} {infer : Str → PyVal} {ns : Str} {info : ListInfo} {kids : List (Meta × Schema)} {es : List (PyVal × Inst)} {i : Nat}
    (hi : i ∈ info.keys) (hns : ∀ k, kids[i]? = some k → k.1.ns = ns)
    (hs : ∃ mi t d, kids[i]? = some (mi, .leaf (YTy.cls rx t d)) ∧ SafeTy t ∧ ∀ q ∈ es, InXml t (valAt q.2.kids i) ∧ Untyped infer t (valAt q.2.kids i))
    (hk : ∀ q ∈ es, KeyAgrees info kids q.1 q.2) (hc : ∀ q ∈ es, KeyInv (.cont false kids) q.2) : XKeyLeaf rx infer ns kids es i := by
  obtain ⟨mi, t, d, h1, h2, h3⟩ := hs
  refine ⟨mi, t, d, h1, hns _ h1, ?_, ?_⟩
  · cases h2 <;> exact ⟨by simp, by simp⟩
  intro q hq
  obtain ⟨raws, hl, _, hr⟩ := hk q hq
  obtain ⟨p, hp⟩ := List.getElem?_of_mem hi
  have hlt : p < raws.length := by rw [hl]; exact (List.getElem?_eq_some_iff.1 hp).1
  obtain ⟨m', L, v, h4, h5, h6⟩ := hr p i raws[p] hp (List.getElem?_eq_getElem hlt)
  rw [h1] at h4
  simp at h4
  obtain ⟨_, rfl⟩ := h4
  have hkid : q.2.kids[i]? = some (.leaf v true) := by
    have := hc q hq
    generalize q.2 = e at this h5
    cases this with
    | cont _ _ ch pr ns =>
      simp only [nodeAt] at h5
      show ns[i]? = _
      cases hn : ns[i]? with
      | none => simp [hn] at h5
      | some c => simp [hn] at h5; rw [h5]
  have hv : valAt q.2.kids i = v := by rw [valAt, hkid]
  have := h3 q hq
  rw [hv] at this
  refine ⟨v, hkid, safe_set h2 h6, this.1, this.2, ?_⟩
  rintro ids rfl
  cases h2

theorem xml_ready {rx : Str → Str → Bool} {infer : Str → PyVal} : ∀ (S : Schema) (m : Meta) (n : Inst), ClsOk m S → (∀ p m' S', Attr [(m, S)] p m' S' → ClsOk m' S') →
    ObjInv fromClass S n → KeyInv S n → Every (XKept rx infer) m S n → Every (XmlValues rx infer) m S n := by
  intro S
  induction S using Schema.ind with
  | hleaf L =>
    intro m n _ _ ho _ hk
    cases ho with
    | leaf _ v ch h =>
      intro hch
      rcases hk hch with ⟨⟨t, d, rfl, ht⟩, hs⟩ | hk
      · obtain ⟨x, hx⟩ := h hch
        have h1 := safe_set ht hx
        obtain ⟨h2, h3⟩ := safe_xml ht h1 hs
        exact ⟨.inl ⟨t, d, rfl, h1, h2⟩, h3⟩
      · exact hk
  | hll L =>
    intro m n _ _ ho _ hk
    cases ho with
    | leafList _ vs ch h =>
      refine ⟨hk.1, fun hvs => ?_⟩
      obtain ⟨h1, h2⟩ := hk.2 hvs
      refine ⟨?_, h2⟩
      rcases h1 with ⟨t, u, tx, rfl, ht, h3⟩ | h1
      · refine .inl ⟨t, u, tx, rfl, fun v hv => ?_⟩
        obtain ⟨x, hx⟩ := h.2 v hv
        exact ⟨safe_conv ht hx, h3 v hv⟩
      · exact h1
  | hcont pres kids ih =>
    intro m n hQ hA ho hK hk
    cases ho with
    | cont _ _ ch pr ns hlen ho =>
      cases hK with
      | cont _ _ _ _ _ hK =>
        obtain ⟨_, hk⟩ := hk
        refine ⟨hQ, ?_⟩
        rw [everyKids_iff] at hk ⊢
        refine ⟨hk.1, fun i k c hi hc => ?_⟩
        have hm : k ∈ kids := List.mem_of_getElem? hi
        exact ih k hm k.1 c (hA _ _ _ (.cont (List.mem_singleton.2 rfl) (.here hm)))
          (fun p m' S' h => hA _ _ _ (.cont (List.mem_singleton.2 rfl) (attr_mono (by rintro x hx; rw [List.mem_singleton.1 hx]; exact hm) h)))
          (ho i k c hi hc) (hK i k c hi hc) (hk.2 i k c hi hc)
  | hlist info kids ih =>
    intro m n hQ hA ho hK hk
    cases ho with
    | list _ _ ch es ho hpd =>
      cases hK with
      | list _ _ _ _ h1 h2 =>
        obtain ⟨⟨k1, k2⟩, hk⟩ := hk
        obtain ⟨q1, q2, q3, q4⟩ := hQ
        refine ⟨⟨q1, fun _ => ⟨q2, q3.1, ?_, k2⟩⟩, ?_⟩
        · intro i hi
          rcases k1 i hi with h | h
          · exact xkey_leaf hi (q4 i hi) h (fun q hq => h1 q hq q2) h2
          · exact h
        · intro q hq
          have hk := hk q hq
          have ho := ho q hq
          have hK := h2 q hq
          generalize q.2 = e at hk ho hK
          cases ho with
          | cont _ _ ch pr ns hlen ho =>
            cases hK with
            | cont _ _ _ _ _ hK =>
              simp only [Inst.kids] at hk ⊢
              rw [everyKids_iff] at hk ⊢
              refine ⟨hk.1, fun i k c hi hc => ?_⟩
              have hm : k ∈ kids := List.mem_of_getElem? hi
              exact ih k hm k.1 c (hA _ _ _ (.list (List.mem_singleton.2 rfl) (.here hm)))
                (fun p m' S' h => hA _ _ _ (.list (List.mem_singleton.2 rfl) (attr_mono (by rintro x hx; rw [List.mem_singleton.1 hx]; exact hm) h)))
                (ho i k c hi hc) (hK i k c hi hc) (hk.2 i k c hi hc)

theorem session_xready {rx : Str → Str → Bool} {infer : Str → PyVal} {o : Bool} {f : List YNode} (H : Supported f) {acts : List Act} (hp : Proper (genModule o f) acts)
    (h : EveryKids (XKept rx infer) (genModule o f) (session (genModule o f) (freshKids (genModule o f)) acts)) :
    EveryKids (XmlValues rx infer) (genModule o f) (session (genModule o f) (freshKids (genModule o f)) acts) := by
  have h1 := session_obj fromClass_stable acts (rootObj_fresh fromClass_stable (genModule o f))
  have h2 := session_keys (genModule_flat o f H.nesting H.shadow).apart (gen_plain H) acts (fun p op h => (hp.1 p op h).2) hp.2
    (ns := freshKids (genModule o f)) ⟨freshKids_length _, by
      intro i k c hk hc
      rw [freshKids_get, hk] at hc
      simp at hc
      subst hc
      exact ⟨fresh_inv (st := true) stable_top _, keyInv_fresh _⟩⟩
  rw [everyKids_iff] at h ⊢
  refine ⟨h.1, fun i k c hk hc => ?_⟩
  have hm : k ∈ genModule o f := List.mem_of_getElem? hk
  exact xml_ready k.2 k.1 c (gen_clsOk H (.here hm))
    (fun p m' S' ha => gen_clsOk H (attr_mono (by rintro x hx; rw [List.mem_singleton.1 hx]; exact hm) ha))
    (h1.2 i k c hk hc) (h2.2 i k c hk hc).2 (h.2 i k c hk hc)

theorem xkept_leaves {rx : Str → Str → Bool} {infer : Str → PyVal} : ∀ (S : Schema) (m : Meta) (n : Inst), LeafOrCont rx S → (∀ p m' S', Attr [(m, S)] p m' S' → LeafOrCont rx S') →
    ObjInv fromClass S n → Every PlainTexts m S n → Every (XKept rx infer) m S n := by
  intro S
  induction S using Schema.ind with
  | hleaf L => intro m n h _ ho ht; cases ho; exact fun hc => .inl ⟨h, ht hc⟩
  | hll L => intro m n h; exact h.elim
  | hlist info kids ih => intro m n h; exact h.elim
  | hcont pres kids ih =>
    intro m n _ hA ho ht
    cases ho with
    | cont _ _ ch pr ns hlen ho =>
      refine ⟨trivial, everyKids_iff.2 ⟨hlen, fun i k c hi hc => ?_⟩⟩
      have hm : k ∈ kids := List.mem_of_getElem? hi
      exact ih k hm k.1 c (hA _ _ _ (.cont (List.mem_singleton.2 rfl) (.here hm)))
        (fun p m' S' h => hA _ _ _ (.cont (List.mem_singleton.2 rfl) (attr_mono (by rintro x hx; rw [List.mem_singleton.1 hx]; exact hm) h)))
        (ho i k c hi hc) ((everyKids_iff.1 ht.2).2 i k c hi hc)

theorem leaf_or_cont {rx : Str → Str → Bool} {o : Bool} {f : List YNode} (H : Supported f) (hl : SafeLeaves rx f) {p m S} (ha : Attr (genModule o f) p m S) :
    LeafOrCont rx S := by
  obtain ⟨d, n, c, h1, h2, h3, _⟩ := attr_gen ha f none H.nesting (.inl rfl) rfl
  have := hl d h1
  cases d with
  | leaf s L => simp [genNode] at h3; obtain ⟨rfl, rfl⟩ := h3; exact this
  | cont s pres kids =>
    simp only [genNode] at h3
    split at h3
    · simp at h3
    · simp at h3; obtain ⟨rfl, rfl⟩ := h3; trivial
  | leafList s L => exact this.elim
  | list s keys ord kids => exact this.elim
  | choice n cs => simp [dataName] at h2
  | case n cs => simp [dataName] at h2

theorem session_xleaves {rx : Str → Str → Bool} {infer : Str → PyVal} {o : Bool} {f : List YNode} (H : Supported f) (hl : SafeLeaves rx f) (acts : List Act)
    (ht : EveryKids PlainTexts (genModule o f) (session (genModule o f) (freshKids (genModule o f)) acts)) :
    EveryKids (XKept rx infer) (genModule o f) (session (genModule o f) (freshKids (genModule o f)) acts) := by
  have h1 := session_obj fromClass_stable acts (rootObj_fresh fromClass_stable (genModule o f))
  refine everyKids_iff.2 ⟨h1.1, fun i k c hk hc => ?_⟩
  have hm : k ∈ genModule o f := List.mem_of_getElem? hk
  exact xkept_leaves k.2 k.1 c (leaf_or_cont H hl (.here hm))
    (fun p m' S' ha => leaf_or_cont H hl (attr_mono (by rintro x hx; rw [List.mem_singleton.1 hx]; exact hm) ha)) (h1.2 i k c hk hc)
    ((everyKids_iff.1 ht).2 i k c hk hc)

/-! ## Names -/

theorem xmlNamesAll_iff {nsOf kids} : XmlNamesAll nsOf kids ↔ ∀ k ∈ kids, XmlNames nsOf k.1 k.2 := by
  induction kids with
  | nil => simp [XmlNamesAll]
  | cons k ks ih => simp [XmlNamesAll, ih]

mutual
theorem xnames_node {nsOf o} : ∀ c d, (∀ e, e = d ∨ Inside e (stmts d) → ∀ s, srcOf e = some s → (Identifier s.name ∧ Uri s.ns) ∧
    ∀ L, e = .leaf s L → ∀ v y i, (L.ser v).idents.lookup y = some i → Identifier i ∧ Uri (nsOf i)) → XmlNamesAll nsOf (genNode o c d)
  | c, .leaf s L, h => by
    obtain ⟨h1, h2⟩ := h _ (.inl rfl) s rfl
    simp only [genNode, XmlNamesAll, XmlNames, Src.meta, and_true]
    exact ⟨h1.1, h1.2, h2 L rfl⟩
  | c, .leafList s L, h => by
    obtain ⟨h1, h2⟩ := h _ (.inl rfl) s rfl
    simp only [genNode, XmlNamesAll, XmlNames, Src.meta, and_true]
    exact h1
  | c, .cont s pres kids, h => by
    obtain ⟨h1, h2⟩ := h _ (.inl rfl) s rfl
    simp only [genNode]
    split
    · trivial
    · simp only [XmlNamesAll, XmlNames, Src.meta, and_true]
      exact ⟨h1.1, h1.2, xnames_nodes c kids fun e he => h e (.inr he)⟩
  | c, .list s keys ord kids, h => by
    obtain ⟨h1, h2⟩ := h _ (.inl rfl) s rfl
    simp only [genNode]
    split
    · trivial
    · simp only [XmlNamesAll, XmlNames, Src.meta, and_true]
      exact ⟨h1.1, h1.2, xnames_nodes c kids fun e he => h e (.inr he)⟩
  | c, .choice n cs, h => by
    simp only [genNode]
    exact xnames_cases n cs fun e he => h e (.inr he)
  | c, .case n kids, h => by simp [genNode, XmlNamesAll]
theorem xnames_nodes {nsOf o} : ∀ c f, (∀ e, Inside e f → ∀ s, srcOf e = some s → (Identifier s.name ∧ Uri s.ns) ∧
    ∀ L, e = .leaf s L → ∀ v y i, (L.ser v).idents.lookup y = some i → Identifier i ∧ Uri (nsOf i)) → XmlNamesAll nsOf (genNodes o c f)
  | c, [], h => by simp [genNodes, XmlNamesAll]
  | c, d :: ds, h => by
    have h1 := xnames_node (nsOf := nsOf) (o := o) c d fun e he => h e (he.elim (fun e' => e' ▸ .here (List.mem_cons_self ..)) (fun h => .deep (List.mem_cons_self ..) h))
    have h2 := xnames_nodes (nsOf := nsOf) (o := o) c ds fun e he => h e (by
      cases he with
      | here a => exact .here (List.mem_cons_of_mem _ a)
      | deep a b => exact .deep (List.mem_cons_of_mem _ a) b)
    rw [xmlNamesAll_iff] at h1 h2 ⊢
    simp only [genNodes]
    intro k hk
    rcases List.mem_append.1 hk with hk | hk
    · exact h1 k hk
    · exact h2 k hk
theorem xnames_case {nsOf o} : ∀ n d, (∀ e, e = d ∨ Inside e (stmts d) → ∀ s, srcOf e = some s → (Identifier s.name ∧ Uri s.ns) ∧
    ∀ L, e = .leaf s L → ∀ v y i, (L.ser v).idents.lookup y = some i → Identifier i ∧ Uri (nsOf i)) → XmlNamesAll nsOf (genCase o n d)
  | n, .case c kids, h => by simp only [genCase]; exact xnames_nodes _ kids fun e he => h e (.inr he)
  | n, .leaf s L, h => by simp [genCase, XmlNamesAll]
  | n, .leafList s L, h => by simp [genCase, XmlNamesAll]
  | n, .cont s pres kids, h => by simp [genCase, XmlNamesAll]
  | n, .list s keys ord kids, h => by simp [genCase, XmlNamesAll]
  | n, .choice m cs, h => by simp [genCase, XmlNamesAll]
theorem xnames_cases {nsOf o} : ∀ n f, (∀ e, Inside e f → ∀ s, srcOf e = some s → (Identifier s.name ∧ Uri s.ns) ∧
    ∀ L, e = .leaf s L → ∀ v y i, (L.ser v).idents.lookup y = some i → Identifier i ∧ Uri (nsOf i)) → XmlNamesAll nsOf (genCases o n f)
  | n, [], h => by simp [genCases, XmlNamesAll]
  | n, d :: ds, h => by
    have h1 := xnames_case (nsOf := nsOf) (o := o) n d fun e he => h e (he.elim (fun e' => e' ▸ .here (List.mem_cons_self ..)) (fun h => .deep (List.mem_cons_self ..) h))
    have h2 := xnames_cases (nsOf := nsOf) (o := o) n ds fun e he => h e (by
      cases he with
      | here a => exact .here (List.mem_cons_of_mem _ a)
      | deep a b => exact .deep (List.mem_cons_of_mem _ a) b)
    rw [xmlNamesAll_iff] at h1 h2 ⊢
    simp only [genCases]
    intro k hk
    rcases List.mem_append.1 hk with hk | hk
    · exact h1 k hk
    · exact h2 k hk
end

end Pyb
