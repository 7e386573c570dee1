import Verif.Lemmas.Loaded
import Verif.Lemmas.Xml
import Verif.Spec.XmlLoaded

namespace Pyb
open Py Spec

variable {st : Bool}

theorem Xml.ind {P : Xml → Prop} (h : ∀ ns n d t xs, (∀ x ∈ xs, P x) → P (.elem ns n d t xs)) : ∀ x, P x
  | .elem ns n d t xs => h ns n d t xs (go xs)
where
  go : ∀ (xs : List Xml), ∀ x ∈ xs, P x
    | [], _, hx => by simp at hx
    | y :: ys, x, hx => by
      rcases List.mem_cons.1 hx with e | hx
      · rw [e]; exact Xml.ind h y
      · exact go ys x hx

theorem xmlChild_good {infer : Str → PyVal} {x : Xml} {a : List Str} {w : Option Choice} {S : Schema} {b : Bool} {c : Inst} (hf : Choices st a w S) :
    GoodSigs st a w (xmlChild infer S w b c x).sigs :=
  xmlChild_step goodStep (fun _ _ => trivial) infer (by simp) x hf

theorem guess_eq (infer : Str → PyVal) (t : Option Str) : pyval infer t = guess infer t := by cases t <;> rfl

/-! ## Which child, which entry -/

theorem xIsFor_idx {kids : List (Meta × Schema)} (hn : GoodNames kids) {x : Xml} {i : Nat} (h : XIsFor kids x i) : kidIdx kids x.name = some i := by
  obtain ⟨k, hk, e⟩ := h
  exact kidIdx_name hn.2 hk e.symm

theorem xIsFor_of_idx {kids : List (Meta × Schema)} {x : Xml} {i : Nat} (h : kidIdx kids x.name = some i) : XIsFor kids x i := by
  simp only [kidIdx, List.findIdx?_eq_some_iff_getElem] at h
  obtain ⟨h1, h2, _⟩ := h
  exact ⟨kids[i], List.getElem?_eq_getElem h1, by simpa using h2⟩

theorem xmlKeys_docKey {infer : Str → PyVal} {info : ListInfo} {kids : List (Meta × Schema)} {ns : Str} {xs : List Xml}
    (hk : ∀ i ∈ info.keys, ∃ m L, kids[i]? = some (m, .leaf L)) {rs : List PyVal} (h : xmlKeys infer ns (keyNames info kids) xs = .ok rs) :
    (info.keys.mapM fun i => kids[i]?.bind fun k => (xs.find? fun y => y.ns == ns && y.name == k.1.name).map fun y => guess infer y.text) = some rs := by
  unfold xmlKeys keyNames at h
  generalize info.keys = keys at h hk
  induction keys generalizing rs with
  | nil => simp [pure, Except.pure] at h; subst h; rfl
  | cons i keys ih =>
    obtain ⟨m, L, hi⟩ := hk i (by simp)
    simp only [List.map_cons, List.mapM_cons, bind_ok] at h
    obtain ⟨x, h1, r, h2, h3⟩ := h
    rw [List.mapM_cons, hi]
    simp only [hi, xmlFind] at h1
    simp only [Option.bind_some]
    cases hl : xs.find? (fun y => y.ns == ns && y.name == m.name) with
    | none => simp [hl, Except.map] at h1
    | some y =>
      simp only [hl, Except.map, Except.ok.injEq, guess_eq] at h1
      subst h1
      rw [ih h2 (fun i hi => hk i (by simp [hi]))]
      simpa [pure, Except.pure] using h3

theorem xmlEntry_frame {infer : Str → PyVal} {info : ListInfo} {kids : List (Meta × Schema)} {ch : Bool} {es : Members Inst} {ns : Str} {xs : List Xml}
    {k' : PyVal} {p : Path} {m : Inst} (hm : nodeAt (.list ch es) (.key k' :: p) = some m) :
    nodeAt (xmlEntry infer info kids ch es ns xs).1.inst (.key k' :: p) = some m := by
  unfold xmlEntry
  split
  · exact hm
  · cases hr : xmlKeys infer ns (keyNames info kids) xs with
    | error e => exact hm
    | ok raws =>
      simp only
      split
      · exact hm
      · simp only [nodeOp]
        split
        · exact hm
        · cases ha : ylAddNamed (entryCls info kids) es (raws.map some) none with
          | error e => exact hm
          | ok es' =>
            obtain ⟨rs, e, _, _, _, rfl⟩ := ylAddNamed_ok ha
            exact nodeAt_new hm

theorem xmlEntry_key {infer : Str → PyVal} {info : ListInfo} {kids : List (Meta × Schema)} {ch : Bool} {es : Members Inst} {ns nm : Str}
    {d : List (Str × Str)} {t : Option Str} {xs : List Xml}
    (hkl : ∀ i ∈ info.keys, ∃ m L, kids[i]? = some (m, .leaf L)) (h : (xmlEntry infer info kids ch es ns xs).1.err = none) :
    xDocKey infer info kids (.elem ns nm d t xs) = some (xmlEntry infer info kids ch es ns xs).2 := by
  unfold xmlEntry at h ⊢
  split at h
  · simp [fail] at h
  · rename_i hne
    rw [if_neg hne]
    cases hr : xmlKeys infer ns (keyNames info kids) xs with
    | error e => simp [hr, fail] at h
    | ok raws =>
      simp only [hr] at h ⊢
      have hd : xDocKey infer info kids (.elem ns nm d t xs) = some (namedKey raws) := by
        have := congrArg (Option.map fun rs => PyVal.str (Spec.keyText rs)) (xmlKeys_docKey hkl hr)
        exact this
      split <;> exact hd

/-! ## What a document does not concern stays -/

theorem nodeAt_field (n : Inst) (i : Nat) (p : Path) : nodeAt n (.field i :: p) = (nodeAt n [.field i]).bind (nodeAt · p) := by
  cases n with
  | cont ch pr ns => rw [nodeAt_cont, nodeAt_cont]; cases ns[i]? <;> simp
  | _ => rfl

/-- A step on a child keeps what it keeps of that child. -/
theorem withKid_keep {wrapped pres : Bool} {own po : Option Choice} {above : List Str} {kids : List (Meta × Schema)} {n : Inst}
    {name : Str} {u : Out} {f : Nat → Meta × Schema → Inst → Out} {j : Nat} {k' : Meta × Schema} {Q : Inst → Prop}
    (hf : wrapped = true → ChoicesKids st above own (choiceNames kids ++ above) kids)
    (hg : wrapped = true → ∀ i k c, kids[i]? = some k → GoodSigs st (choiceNames kids ++ above) k.1.choice (f i k c).sigs)
    (hu : u.inst = n) (hk' : kids[j]? = some k')
    (hr : ∀ i k, kidIdx kids name = some i → kids[i]? = some k → ¬ Rivals k.1 k'.1)
    (hin : ∀ c, kidIdx kids name = some j → Q c → Q (f j k' c).inst)
    (hm : ∃ c, nodeAt n [.field j] = some c ∧ Q c) :
    ∃ c, nodeAt (withKid wrapped (.cont pres kids) po n name u f).inst [.field j] = some c ∧ Q c := by
  simp only [withKid]
  split
  · rw [hu]; exact hm
  · rename_i i hi
    split
    · rename_i k ch pr ns hk
      split
      · rename_i c hc
        obtain ⟨ch', pr', ns', h1, h2, h3⟩ := holdPut_flat (pres := pres) (po := po) (ch := ch) (pr := pr) (o := f i k c) hk hc hf
          fun hw => hg hw i k c hk
        obtain ⟨c0, hm, hq⟩ := hm
        rw [nodeAt_cont] at hm
        rw [h1, nodeAt_cont]
        by_cases e : j = i
        · subst e
          rw [hc] at hm
          rw [hk] at hk'
          obtain rfl := Option.some.inj hk'
          simp only [Option.bind_some, nodeAt_nil, Option.some.injEq] at hm
          subst hm
          rw [h2]
          exact ⟨_, by simp, hin c hi hq⟩
        · rw [h3 j k' hk' e (hr i k hi hk)]
          exact ⟨c0, hm, hq⟩
      · exact hm
    · exact hm

section
variable {infer : Str → PyVal} {kids : List (Meta × Schema)} {above : List Str} {own po : Option Choice} {wrapped pres : Bool} {keys : List Nat}

theorem xGood (hf : wrapped = true → ChoicesKids st above own (choiceNames kids ++ above) kids) {x : Xml} :
    wrapped = true → ∀ i k c, kids[i]? = some k → GoodSigs st (choiceNames kids ++ above) k.1.choice
      (xmlChild infer k.2 k.1.choice (keys.contains i) c x).sigs :=
  fun hw _ _ _ hk => xmlChild_good (flatKids_mem (hf hw) (List.mem_of_getElem? hk)).2.2

theorem xmlMembers_keep (hf : wrapped = true → ChoicesKids st above own (choiceNames kids ++ above) kids)
    {j : Nat} {k' : Meta × Schema} {Q : Inst → Prop} (hk' : kids[j]? = some k') : ∀ {xs : List Xml} {n : Inst},
    (∀ y ∈ xs, XIsFor kids y j → ∀ b c, Q c → Q (xmlChild infer k'.2 k'.1.choice b c y).inst) →
    (∀ y ∈ xs, ∀ i k, XIsFor kids y i → kids[i]? = some k → ¬ Rivals k.1 k'.1) →
    (∃ c, nodeAt n [.field j] = some c ∧ Q c) →
    ∃ c, nodeAt (xmlMembers infer wrapped (.cont pres kids) keys po n xs).inst [.field j] = some c ∧ Q c := by
  intro xs
  induction xs with
  | nil => intro n _ _ hm; rw [xmembers_nil]; exact hm
  | cons x xs ih =>
    intro n hin hr hm
    rw [xmembers_cons]
    have h1 := withKid_keep (pres := pres) (po := po) (name := x.name) (u := fail n .attributeError) hf (xGood (infer := infer) (keys := keys) (x := x) hf) rfl hk'
      (fun i k hi hk => hr x (by simp) i k (xIsFor_of_idx hi) hk) (fun c hi hc => hin x (by simp) (xIsFor_of_idx hi) _ c hc) hm
    unfold Out.andThen
    split
    · exact h1
    · exact ih (fun y hy => hin y (by simp [hy])) (fun y hy => hr y (by simp [hy])) h1

theorem xmlMembers_frame (hf : wrapped = true → ChoicesKids st above own (choiceNames kids ++ above) kids)
    {j : Nat} {k' : Meta × Schema} {p : Path} {m : Inst} (hk' : kids[j]? = some k') {xs : List Xml} {n : Inst}
    (hin : ∀ y ∈ xs, XIsFor kids y j → ∀ b c, nodeAt c p = some m → nodeAt (xmlChild infer k'.2 k'.1.choice b c y).inst p = some m)
    (hr : ∀ y ∈ xs, ∀ i k, XIsFor kids y i → kids[i]? = some k → ¬ Rivals k.1 k'.1)
    (hm : nodeAt n (.field j :: p) = some m) :
    nodeAt (xmlMembers infer wrapped (.cont pres kids) keys po n xs).inst (.field j :: p) = some m := by
  rw [nodeAt_field] at hm ⊢
  obtain ⟨c, h1, h2⟩ := xmlMembers_keep (pres := pres) (keys := keys) (po := po) (Q := fun c => nodeAt c p = some m) (n := n) hf hk' hin hr (by
    cases hc : nodeAt n [.field j] with
    | none => simp [hc] at hm
    | some c => exact ⟨c, rfl, by simpa [hc] using hm⟩)
  rw [h1]
  exact h2

end

theorem xml_frame (infer : Str → PyVal) (x : Xml) :
    ∀ a w S b c p m T, Choices st a w S → Orderly S → schemaAt S p = some T → ¬ XConcerns infer S x p →
      nodeAt c p = some m → nodeAt (xmlChild infer S w b c x).inst p = some m := by
  induction x using Xml.ind with
  | h ns nm d t xs ih =>
    have key : ∀ a w pres kids keys po c i p m T, ChoicesKids st a w (choiceNames kids ++ a) kids → Orderly (.cont pres kids) →
        schemaAt (.cont pres kids) (.field i :: p) = some T → ¬ XConcerns infer (.cont pres kids) (.elem ns nm d t xs) (.field i :: p) →
        nodeAt c (.field i :: p) = some m →
        nodeAt (xmlMembers infer true (.cont pres kids) keys po c xs).inst (.field i :: p) = some m := by
      intro a w pres kids keys po c i p m T hf hO hT hc hm
      rw [schemaAt_cont] at hT
      cases hk : kids[i]? with
      | none => simp [hk] at hT
      | some k =>
        rw [hk] at hT
        have hmem := List.mem_of_getElem? hk
        refine xmlMembers_frame (own := w) (above := a) (fun _ => hf) hk (fun y hy hfor b c h3 => ?_) (fun y hy i' k' h1 h2 h3 => ?_) hm
        · exact ih y hy _ _ k.2 b c p m T (flatKids_mem hf hmem).2.2 (orderly_kid hO.2 hmem) hT (fun h => hc (.field hy hfor hk h)) h3
        · exact hc (.rival hy h1 h2 hk h3)
    intro a w S b c p m T hf hO hT hc hm
    cases p with
    | nil => exact absurd .here hc
    | cons s p =>
    cases S with
    | leaf L => cases s <;> simp [schemaAt] at hT
    | leafList L => cases s <;> simp [schemaAt] at hT
    | cont pres kids =>
      simp only [xmlChild]
      refine andThen_frame (by rw [markPresent_nodeAt]; exact hm) fun hm => ?_
      cases s with
      | key k => simp [schemaAt] at hT
      | field i => exact key a w pres kids [] w _ i p m T hf hO hT hc hm
    | list info kids =>
      cases s with
      | field i => simp [schemaAt] at hT
      | key k =>
        cases c with
        | list ch es =>
          simp only [xmlChild]
          have h1 := xmlEntry_frame (infer := infer) (info := info) (kids := kids) (ns := ns) (xs := xs) hm
          cases he : (xmlEntry infer info kids ch es ns xs).1.err with
          | some e => simp only [Out.andThen, he]; exact h1
          | none =>
            refine andThen_frame h1 fun h1 => withEntry_frame (fun e c hcm => ?_) h1
            have hk := xmlEntry_key (nm := nm) (d := d) (t := t) hO.2.1 he
            have hc' : ¬ XConcerns infer (.cont false kids) (.elem ns nm d t xs) p := fun h => hc (.entry hk e h)
            cases p with
            | nil => exact absurd .here hc'
            | cons s p =>
              have hT' : schemaAt (.cont false kids) (s :: p) = some T := hT
              cases s with
              | key k => simp [schemaAt] at hT'
              | field i => exact key a w false kids info.keys none c i p m T hf ⟨hO.1, hO.2.2⟩ hT' hc' hcm
        | _ => simp only [xmlChild, fail]; exact hm

/-! ## What a document says is there -/

theorem xmlSet_post {infer : Str → PyVal} {L : LeafCls} {w : Option Choice} {c : Inst} {t : Option Str} (hi : ¬ XIgnored (.leaf L) t)
    (h : (xmlSet L w false c t).err = none) : XHolds infer (.leaf L) t (xmlSet L w false c t).inst := by
  simp only [xmlSet, Bool.false_eq_true, if_false] at h ⊢
  by_cases h1 : L.yangType = py!"empty"
  · rw [if_pos h1] at h ⊢
    cases t with
    | some s => simp [fail] at h
    | none =>
      simp only at h ⊢
      obtain ⟨u, h3, h4⟩ := leafSet_done h
      exact ⟨_, u, by rw [h1]; exact .empty, h3, h4⟩
  · rw [if_neg h1] at h ⊢
    by_cases h2 : L.yangType = py!"identityref"
    · rw [if_pos h2] at h ⊢
      cases t with
      | none => simp [fail] at h
      | some s =>
        simp only at h ⊢
        obtain ⟨u, h3, h4⟩ := leafSet_done h
        refine ⟨_, u, ?_, h3, h4⟩
        rw [h2]
        have := (ietfVal_sent (repr := fun _ => []) (yt := py!"identityref") (x := .str s) (j := .str (if ':' ∈ s then (s.dropWhile (· ≠ ':')).tail else s))
          (by simp [ietfVal]) (by simp [Ignored])).1
        generalize hz : J.str s = z at this
        generalize hy : jPy (fun _ => []) (J.str (if ':' ∈ s then (s.dropWhile (· ≠ ':')).tail else s)) = y at this
        simp only [jPy] at hy
        rw [hy]
        cases this with
        | plain a b => exact absurd rfl b
        | empty a => exact absurd a (by decide)
        | name a b => simp only [J.str.injEq] at hz; subst hz; exact .name b
        | qualified a b => simp only [J.str.injEq] at hz; subst hz; exact .qualified b
        | array => simp at hz
    · rw [if_neg h2] at h ⊢
      cases t with
      | none => exact absurd ⟨rfl, h1⟩ hi
      | some s =>
        simp only at h ⊢
        obtain ⟨u, h3, h4⟩ := leafSet_done h
        exact ⟨_, u, .plain h1 h2, h3, h4⟩

theorem llAppend_shape (L : LLCls) (own : Option Choice) (xs : List PyVal) (ch : Bool) (v : PyVal) :
    ∃ ys ch', (llApply L own xs ch (.append v)).inst = .leafList ys ch' ∧ (∀ x ∈ xs, x ∈ ys) ∧
      ((llApply L own xs ch (.append v)).err = none → ∃ w ∈ ys, L.conv v = some w ∨ pyEq w v = true) := by
  have key : ∀ x ∈ xs, x ∈ (tlAppend L.conv L.uniq xs v).1 := by
    intro x hx
    unfold tlAppend
    split
    · split <;> simp [hx]
    · exact hx
  have post : (tlAppend L.conv L.uniq xs v).2 = none → ∃ w ∈ (tlAppend L.conv L.uniq xs v).1, L.conv v = some w ∨ pyEq w v = true := by
    intro h
    unfold tlAppend at h ⊢
    split
    · rename_i hu
      rw [if_pos hu] at h
      cases hc : tlCheck L.conv L.uniq xs v with
      | error e => simp [hc] at h
      | ok w =>
        refine ⟨w, by simp, .inl ?_⟩
        unfold tlCheck at hc
        split at hc
        · simp at hc
        · split at hc
          · rename_i w' hw
            simp only [Except.ok.injEq] at hc
            rw [hw, hc]
          · simp at hc
    · rename_i hu
      simp only [Bool.or_eq_true, Bool.not_eq_true', not_or, Bool.not_eq_false] at hu
      obtain ⟨w, hw, h2⟩ := List.any_eq_true.1 hu.2
      exact ⟨w, hw, .inr h2⟩
  simp only [llApply, llStep]
  split <;> exact ⟨_, _, rfl, key, post⟩

theorem xmlAppend_shape (infer : Str → PyVal) (L : LLCls) (own : Option Choice) (xs : List PyVal) (ch : Bool) (t : Option Str) :
    ∃ ys ch', (xmlAppend infer L own xs ch t).inst = .leafList ys ch' ∧ (∀ x ∈ xs, x ∈ ys) ∧
      ((xmlAppend infer L own xs ch t).err = none → XHolds infer (.leafList L) t (.leafList ys ch')) := by
  obtain ⟨ys, ch', h1, h2, h3⟩ := llAppend_shape L own xs ch (pyval infer t)
  obtain ⟨zs, ch2, g1, g2, g3⟩ := llAppend_shape L own xs true (.str (pyval infer t).toStr)
  unfold xmlAppend
  simp only
  split
  · rename_i hv
    refine ⟨zs, ch2, g1, g2, fun h => ?_⟩
    obtain ⟨w, h4, h5⟩ := g3 h
    exact ⟨zs, ch2, _, w, rfl, h4, .inr ⟨hv.2, by rw [← guess_eq]⟩, h5⟩
  · refine ⟨ys, ch', h1, h2, fun h => ?_⟩
    obtain ⟨w, h4, h5⟩ := h3 h
    exact ⟨ys, ch', _, w, rfl, h4, .inl (guess_eq ..), h5⟩

/-- Later elements for the same leaf-list keep its values. -/
theorem xHolds_keep {infer : Str → PyVal} {L : LLCls} {own : Option Choice} {b : Bool} {t : Option Str} {c : Inst} (x : Xml)
    (h : XHolds infer (.leafList L) t c) : XHolds infer (.leafList L) t (xmlChild infer (.leafList L) own b c x).inst := by
  obtain ⟨ws, ch, u, w, rfl, h1, h2, h3⟩ := h
  obtain ⟨ns, nm, d, s, xs⟩ := x
  simp only [xmlChild]
  split
  · obtain ⟨ys, ch', g1, g2, _⟩ := xmlAppend_shape infer L own ws ch s
    rw [g1]
    exact ⟨ys, ch', u, w, rfl, g2 w h1, h2, h3⟩
  · exact ⟨ws, ch, u, w, rfl, h1, h2, h3⟩

/-- The object at the path holds the value. -/
def XLanded (infer : Str → PyVal) (S : Schema) (p : Path) (t : Option Str) (n : Inst) : Prop :=
  ∃ T m, schemaAt S p = some T ∧ nodeAt n p = some m ∧ XHolds infer T t m

theorem xSays_schema {infer : Str → PyVal} {S : Schema} {x : Xml} {p : Path} {t : Option Str} (h : XSays infer S x p t) : ∃ T, schemaAt S p = some T := by
  induction h with
  | leaf => exact ⟨_, schemaAt_nil _⟩
  | leafList => exact ⟨_, schemaAt_nil _⟩
  | field _ _ hk _ ih =>
    obtain ⟨T, hT⟩ := ih
    exact ⟨T, by rw [schemaAt_cont, hk]; exact hT⟩
  | entry _ _ _ ih =>
    obtain ⟨T, hT⟩ := ih
    exact ⟨T, hT⟩

section
variable {infer : Str → PyVal} {kids : List (Meta × Schema)} {above : List Str} {own po : Option Choice} {wrapped pres : Bool} {keys : List Nat}

theorem xmlMembers_post (hO : Orderly (.cont pres kids)) (hfk : ∀ k ∈ kids, ∃ a, Choices st a k.1.choice k.2)
    (hf : wrapped = true → ChoicesKids st above own (choiceNames kids ++ above) kids)
    {i : Nat} {k : Meta × Schema} {p : Path} {t : Option Str} {x y : Xml} {n : Inst} (hk : kids[i]? = some k)
    (hc : ¬ XContradicts infer (.cont pres kids) x) (hy : y ∈ x.kids) (hfor : XIsFor kids y i) (hi : i ∉ keys) (hs : XSays infer k.2 y p t)
    (hin : ∀ c, (xmlChild infer k.2 k.1.choice false c y).err = none → XLanded infer k.2 p t (xmlChild infer k.2 k.1.choice false c y).inst)
    (h : (xmlMembers infer wrapped (.cont pres kids) keys po n x.kids).err = none) :
    XLanded infer (.cont pres kids) (.field i :: p) t (xmlMembers infer wrapped (.cont pres kids) keys po n x.kids).inst := by
  obtain ⟨pre, post, e⟩ := mem_parts hy
  rw [e] at h ⊢
  rw [xmembers_append] at h ⊢
  obtain ⟨_, h2, h3⟩ := then_ok h
  rw [h3]
  generalize (xmlMembers infer wrapped (.cont pres kids) keys po n pre).inst = n1 at h2 h3 ⊢
  rw [xmembers_cons] at h2 ⊢
  obtain ⟨h4, h5, h6⟩ := then_ok h2
  rw [h6]
  obtain ⟨c, _, h7, h8⟩ := withKid_post hf (xGood (x := y) hf) (xIsFor_idx hO.1 hfor) hk h4
  have hb : keys.contains i = false := by simpa using hi
  rw [hb] at h7
  simp only [hb] at h8
  have hland := hin c h7
  have later : ∀ z ∈ post, ∃ b, pre.length < b ∧ x.kids[b]? = some z := by
    intro z hz
    obtain ⟨b, hb', hb⟩ := List.getElem_of_mem hz
    refine ⟨pre.length + (b + 1), by omega, ?_⟩
    rw [e, List.getElem?_append_right (by omega)]
    simp [List.getElem?_eq_getElem hb', hb]
  have hat : x.kids[pre.length]? = some y := by rw [e]; simp
  have hr : ∀ z ∈ post, ∀ i' k', XIsFor kids z i' → kids[i']? = some k' → ¬ Rivals k'.1 k.1 := by
    intro z hz i' k' g1 g2 g3
    exact hc (.rivals (by rw [e]; simp [hz]) hy g1 hfor g2 hk g3)
  have hmem := List.mem_of_getElem? hk
  obtain ⟨c', g1, g2⟩ := xmlMembers_keep (keys := keys) (po := po) (pres := pres) (Q := fun c => XLanded infer k.2 p t c) hf hk (xs := post)
    (n := (withKid wrapped (.cont pres kids) po n1 y.name (fail n1 .attributeError) fun i k c => xmlChild infer k.2 k.1.choice (keys.contains i) c y).inst)
    (by
      rintro z hz hforz b c ⟨T, m, f1, f2, f3⟩
      obtain ⟨b', hb1, hb2⟩ := later z hz
      by_cases hrep : Repeats k.2
      · obtain ⟨mt, S⟩ := k
        cases S with
        | list info ks =>
          have hkz : ¬ XConcerns infer (.list info ks) z p := by
            intro hcz
            cases hs with
            | entry s1 s2 s3 =>
              cases hcz with
              | entry z1 z2 z3 => exact hc (.sameKey hb1 hat hb2 hfor hforz hk s1 z1 (by rw [pyEq_symm]; exact z2))
          obtain ⟨a, hfl⟩ := hfk _ hmem
          exact ⟨T, m, f1, xml_frame infer z _ _ _ b c p m T hfl (orderly_kid hO.2 hmem) f1 hkz f2, f3⟩
        | leafList L =>
          cases hs with
          | leafList =>
            rw [nodeAt_nil] at f2
            rw [schemaAt_nil] at f1
            obtain rfl := Option.some.inj f1
            obtain rfl := Option.some.inj f2
            exact ⟨_, _, schemaAt_nil _, nodeAt_nil _, xHolds_keep z f3⟩
        | leaf L => exact absurd hrep id
        | cont _ _ => exact absurd hrep id
      · exact absurd (.twice hb1 hat hb2 hfor hforz hk hrep) hc)
    hr (by
      refine ⟨(xmlChild infer k.2 k.1.choice false c y).inst, ?_, hland⟩
      rw [h8 []]
      simp)
  obtain ⟨T, m, f1, f2, f3⟩ := g2
  refine ⟨T, m, by rw [schemaAt_cont, hk]; exact f1, ?_, f3⟩
  rw [nodeAt_field, g1]
  exact f2

end

theorem xml_post (infer : Str → PyVal) (x : Xml) :
    ∀ a w S c p t, Choices st a w S → Orderly S → ¬ XContradicts infer S x → XSays infer S x p t → (∀ T, schemaAt S p = some T → ¬ XIgnored T t) →
      (xmlChild infer S w false c x).err = none → XLanded infer S p t (xmlChild infer S w false c x).inst := by
  induction x using Xml.ind with
  | h ns nm d t0 xs ih =>
    have key : ∀ a w pres kids keys po c i p t, ChoicesKids st a w (choiceNames kids ++ a) kids → Orderly (.cont pres kids) →
        ¬ XContradicts infer (.cont pres kids) (.elem ns nm d t0 xs) → XSays infer (.cont pres kids) (.elem ns nm d t0 xs) (.field i :: p) t →
        (∀ T, schemaAt (.cont pres kids) (.field i :: p) = some T → ¬ XIgnored T t) → i ∉ keys →
        (xmlMembers infer true (.cont pres kids) keys po c xs).err = none →
        XLanded infer (.cont pres kids) (.field i :: p) t (xmlMembers infer true (.cont pres kids) keys po c xs).inst := by
      intro a w pres kids keys po c i p t hf hO hc hs hx hi h
      cases hs with
      | @field _ _ _ y _ k _ _ h1 h2 h3 h4 =>
        have hmem := List.mem_of_getElem? h3
        refine xmlMembers_post (own := w) (above := a) (x := .elem ns nm d t0 xs) hO (fun k hk => ⟨_, (flatKids_mem hf hk).2.2⟩) (fun _ => hf) h3 hc h1 h2 hi h4
          (fun c h5 => ?_) h
        refine ih y h1 _ _ k.2 c p t (flatKids_mem hf hmem).2.2 (orderly_kid hO.2 hmem) (fun h => hc (.inside h1 h2 h3 h)) h4 (fun T hT => hx T ?_) h5
        rw [schemaAt_cont, h3]; exact hT
    intro a w S c p t hf hO hc hs hx h
    cases hs with
    | leaf =>
      simp only [xmlChild] at h ⊢
      exact ⟨_, _, schemaAt_nil _, nodeAt_nil _, xmlSet_post (hx _ (schemaAt_nil _)) h⟩
    | @leafList L =>
      cases c with
      | leafList vs ch =>
        simp only [xmlChild] at h ⊢
        split at h
        · rename_i he
          rw [if_pos he]
          obtain ⟨ys, ch', g1, g2, g3⟩ := xmlAppend_shape infer L w vs ch t0
          rw [g1]
          exact ⟨_, _, schemaAt_nil _, nodeAt_nil _, g3 h⟩
        · simp [fail] at h
      | _ => simp [xmlChild, fail] at h
    | @field pres kids _ y i k p _ h1 h2 h3 h4 =>
      simp only [xmlChild] at h ⊢
      obtain ⟨_, g2, g3⟩ := then_ok h
      rw [g3]
      exact key a w pres kids [] w _ i p t hf hO hc (.field h1 h2 h3 h4) hx (by simp) g2
    | @entry info kids _ k i p _ h1 h2 h3 =>
      cases c with
      | list ch es =>
        simp only [xmlChild] at h ⊢
        obtain ⟨g1, g2, g3⟩ := then_ok h
        have hk := xmlEntry_key (nm := nm) (d := d) (t := t0) hO.2.1 g1
        rw [h1] at hk
        obtain ⟨c, g4, g5⟩ := withEntry_post g2
        obtain ⟨T, m, g6, g7, g8⟩ := key a w false kids info.keys none c i p t hf ⟨hO.1, hO.2.2⟩ (fun h => hc (.entry h)) h3 (fun T hT => hx T hT) h2 g4
        refine ⟨T, m, g6, ?_, g8⟩
        rw [g3, Option.some.inj hk, g5]
        exact g7
      | _ => simp [xmlChild, fail] at h

end Pyb
