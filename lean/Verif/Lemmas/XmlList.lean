import Verif.Lemmas.Xml

namespace Pyb
open Py Spec

variable {st : Bool}

section
variable {nsOf : Str → Str} {infer : Str → PyVal} {mns : Str} {info : ListInfo} {kids : List (Meta × Schema)} {ns : List Inst}

/-! ## Looking up elements -/

theorem mapM_all {α β : Type} {f : α → Except Err β} {P : β → Prop} (hf : ∀ a b, f a = .ok b → P b) :
    ∀ {l : List α} {r : List β}, l.mapM f = .ok r → ∀ x ∈ r, P x := by
  intro l
  induction l with
  | nil => intro r h; simp [pure, Except.pure] at h; subst h; simp
  | cons v vs ih =>
    intro r h x hx
    rw [List.mapM_cons] at h
    simp only [bind_ok] at h
    obtain ⟨b, h1, bs, h2, h3⟩ := h
    simp only [pure, Except.pure, Except.ok.injEq] at h3
    subst h3
    rcases List.mem_cons.1 hx with rfl | hx
    · exact hf _ _ h1
    · exact ih h2 x hx

theorem xmlNode_names {m : Meta} {S : Schema} {n : Inst} {xs : List Xml}
    (h : xmlNode nsOf true m S n = .ok (some xs)) {x : Xml} (hx : x ∈ xs) : x.ns = m.ns ∧ x.name = m.name := by
  cases S <;> cases n <;> simp only [xmlNode] at h <;> try (simp at h; done)
  · rename_i L v ch
    split at h
    · simp only [Except.map] at h
      split at h
      · simp at h
      · rename_i y hy
        simp only [Except.ok.injEq, Option.some.injEq] at h
        subst h
        simp only [List.mem_singleton] at hx
        subst hx
        simp only [xmlLeaf, bind, Except.bind, pure, Except.pure] at hy
        split at hy
        · simp at hy
        · split at hy
          · simp at hy
          · split at hy
            · simp at hy
            · simp only [Except.ok.injEq] at hy
              subst hy
              exact ⟨rfl, rfl⟩
    · simp at h
  · rename_i L vs ch
    simp only [bind, Except.bind] at h
    split at h
    · simp at h
    · split at h
      · simp only [Except.map] at h
        split at h
        · simp at h
        · rename_i ys hy
          simp only [Except.ok.injEq, Option.some.injEq] at h
          subst h
          simp only [xmlLeafList] at hy
          refine mapM_all (P := fun x => x.ns = m.ns ∧ x.name = m.name) ?_ hy x hx
          intro a b hb
          rw [bind_ok] at hb
          obtain ⟨j, -, hb⟩ := hb
          rw [bind_ok] at hb
          obtain ⟨t, -, hb⟩ := hb
          simp only [pure, Except.pure, Except.ok.injEq] at hb
          subst hb
          exact ⟨rfl, rfl⟩
      · simp at h
  · rename_i pres kids ch pr ns
    cases hy : xmlKids nsOf true kids ns with
    | error e => simp [hy] at h
    | ok ys =>
      simp only [hy] at h
      split at h
      · simp at h
      · simp only [Except.ok.injEq, Option.some.injEq] at h
        subst h
        simp only [List.mem_singleton] at hx
        subst hx
        exact ⟨rfl, rfl⟩
  · rename_i info kids ch es
    cases hy : (es.mapM fun q => (xmlKids nsOf true kids q.2.kids).map fun xs => Xml.elem m.ns m.name [] none xs.flatten) with
    | error e => simp [hy] at h
    | ok ys =>
      simp only [hy] at h
      split at h
      · simp at h
      · simp only [Except.ok.injEq, Option.some.injEq] at h
        subst h
        refine mapM_all (P := fun x => x.ns = m.ns ∧ x.name = m.name) ?_ hy x hx
        intro a b hb
        cases hk : xmlKids nsOf true kids a.2.kids with
        | error e => simp [hk, Except.map] at hb
        | ok z => simp [hk, Except.map] at hb; subst hb; exact ⟨rfl, rfl⟩

theorem names_nodup (h : GoodNames kids) : (kids.map fun k => k.1.name).Nodup := by
  have e : (kids.map fun k => safeName k.1.name) = (kids.map fun k => k.1.name).map safeName := by simp
  have h2 := h.2
  rw [e] at h2
  exact List.Pairwise.of_map _ (fun _ _ h1 h2 => h1 (by rw [h2])) h2

theorem find_none_of_names {ns0 name : Str} {xs : List Xml} (h : ∀ x ∈ xs, x.name ≠ name) :
    xs.find? (fun x => x.ns == ns0 && x.name == name) = none := by
  rw [List.find?_eq_none]
  intro x hx
  simp [h x hx]

theorem xmlKids_find {ks : List (Meta × Schema)} {ns : List Inst} {xss : List (List Xml)}
    (h : xmlKids nsOf true ks ns = .ok xss) (hd : (ks.map fun k => k.1.name).Nodup) {i : Nat} {k : Meta × Schema} {n : Inst} {x : Xml}
    (hk : ks[i]? = some k) (hn : ns[i]? = some n) (hx : xmlNode nsOf true k.1 k.2 n = .ok (some [x])) :
    xmlFind k.1.ns k.1.name xss.flatten = .ok x := by
  induction ks generalizing ns xss i with
  | nil => simp at hk
  | cons k' ks ih =>
    cases ns with
    | nil => simp at hn
    | cons n' ns =>
      simp only [xmlKids] at h
      simp only [List.map_cons, List.nodup_cons] at hd
      cases h1 : xmlNode nsOf true k'.1 k'.2 n' with
      | error e => simp [h1] at h
      | ok r =>
        cases h2 : xmlKids nsOf true ks ns with
        | error e => cases r <;> simp [h1, h2] at h
        | ok ms' =>
          cases i with
          | zero =>
            simp at hk hn; subst hk hn
            rw [h1] at hx; simp at hx; subst hx
            simp [h1, h2] at h; subst h
            have := xmlNode_names h1 (x := x) (by simp)
            simp [xmlFind, this.1, this.2]
          | succ i =>
            have hk' : ks[i]? = some k := by simpa using hk
            have hne : k'.1.name ≠ k.1.name := by
              intro e; exact hd.1 (e ▸ List.mem_map.2 ⟨k, List.mem_of_getElem? hk', rfl⟩)
            have hi := ih h2 hd.2 hk' (by simpa using hn)
            cases r with
            | none => simp [h1, h2] at h; subst h; exact hi
            | some j' =>
              simp [h1, h2] at h
              subst h
              simp only [xmlFind, List.flatten_cons, List.find?_append] at hi ⊢
              rw [find_none_of_names (fun y hy => by rw [(xmlNode_names h1 hy).2]; exact hne)]
              exact hi

/-! ## The key leaves of an entry -/

theorem xkey_known {i : Nat} (hb : XKeyBack nsOf infer mns kids ns i) :
    ∃ m L v x, kids[i]? = some (m, .leaf L) ∧ ns[i]? = some (.leaf v true) ∧ m.ns = mns ∧
      xmlNode nsOf true m (.leaf L) (.leaf v true) = .ok (some [x]) ∧ xkeyRaw nsOf infer kids ns i = pyval infer x.text ∧
      L.set (pyval infer x.text) = .ok v ∧ ∀ c own, xmlChild infer (.leaf L) own true c x = Out.same c := by
  obtain ⟨m, L, v, h1, h2, h3, ⟨x, h4⟩, h5⟩ := hb
  have hraw : xkeyRaw nsOf infer kids ns i = pyval infer x.text := by simp [xkeyRaw, h1, h2, h4]
  refine ⟨m, L, v, x, h1, h2, h3, by simp [xmlNode, h4, Except.map], hraw, by rw [← hraw]; exact h5, ?_⟩
  intro c own
  cases x
  unfold xmlChild
  simp [xmlSet]

theorem xmlKeys_ok (hnames : GoodNames kids) {xss : List (List Xml)}
    (hm : xmlKids nsOf true kids ns = .ok xss) : ∀ (is : List Nat), (∀ i ∈ is, XKeyBack nsOf infer mns kids ns i) →
    xmlKeys infer mns (keyNames ⟨is, info.ordered⟩ kids) xss.flatten = .ok (is.map (xkeyRaw nsOf infer kids ns)) := by
  intro is
  induction is with
  | nil => intro _; rfl
  | cons i is ih =>
    intro h
    have e1 := ih fun i hi => h i (by simp [hi])
    obtain ⟨m, L, v, x, h1, h2, h3, h4, h5, h6, _⟩ := xkey_known (h i (by simp))
    have hl := xmlKids_find hm (names_nodup hnames) h1 h2 h4
    simp only [h3] at hl
    simp only [xmlKeys, keyNames] at e1 ⊢
    rw [List.map_cons, List.mapM_cons, e1]
    simp only [h1, hl, List.map_cons, h5]
    rfl

theorem xsetKeys_rt {above : List Str} {own : Option Choice} (hf : ChoicesKids st above own (choiceNames kids ++ above) kids)
    (hn : ns.length = kids.length) (hone : OneCase kids ns) :
    ∀ (is : List Nat) (p : Nat) (ch : Bool) (cs : List Inst), info.keys.drop p = is →
      (∀ i ∈ is, XKeyBack nsOf infer mns kids ns i) → cs.length = kids.length →
      (∀ (j : Nat) kj cj nj, kids[j]? = some kj → cs[j]? = some cj → ns[j]? = some nj → cj = fresh kj.2 ∨ Has true nj) →
      ∃ ch' cs', setKeys (entryCls info kids) p (is.map (xkeyRaw nsOf infer kids ns)) (.cont ch false cs) = .ok (.cont ch' false cs') ∧
        cs'.length = kids.length ∧ ∀ j : Nat, cs'[j]? = if j ∈ is then ns[j]? else cs[j]? := by
  intro is
  induction is with
  | nil => intro p ch cs _ _ hl _; exact ⟨ch, cs, rfl, hl, by simp⟩
  | cons i is ih =>
    intro p ch cs hp hk hl hcs
    obtain ⟨m, L, v, x, h1, h2, h3, h4, h5, h6, -⟩ := xkey_known (hk i (by simp))
    have hp0 : info.keys[p]? = some i := by
      have : (info.keys.drop p)[0]? = some i := by rw [hp]; rfl
      simpa using this
    have hp1 : info.keys.drop (p + 1) = is := by
      have := congrArg (List.drop 1) hp
      simpa [List.drop_drop, Nat.add_comm] using this
    have hic : i < cs.length := hl ▸ (List.getElem?_eq_some_iff.1 h1).1
    have hhas : Has true (.leaf v true) := (has_leaf ..).2 rfl
    obtain ⟨ch1, pr1, q1, q2, _⟩ := hold_step (st := st) (above := above) (wrapped := true) (pres := false) (po := none) (ch := ch) (pr := false)
      (o := leafSet L m.choice (cs.getD i (fresh (.leaf L))) (pyval infer x.text)) (fun _ => rfl) h1 hl hn (fun _ => hone) hcs
      (leafSet_good ..) (by intro x hx hnot; rw [h2] at hx; simp at hx; subst hx; exact absurd hhas hnot)
    have q2 := q2 (.inl rfl)
    subst q2
    have hset : leafSet L m.choice (cs.getD i (fresh (.leaf L))) (pyval infer x.text) = ⟨.leaf v true, [m.choice, none], none⟩ := by
      simp [leafSet, h6]
    simp only [holdPut, if_true, hset] at q1
    have hkey : (entryCls info kids).setKey (.cont ch false cs) p (xkeyRaw nsOf infer kids ns i) =
        .ok (.cont ch1 false (cs.set i (.leaf v true))) := by
      simp only [entryCls, hp0, keySet, h1, h5, Out.toExcept, hset]
      rw [q1]
      rfl
    obtain ⟨ch', cs', r1, r2, r3⟩ := ih (p + 1) ch1 (cs.set i (.leaf v true)) hp1 (fun i hi => hk i (by simp [hi])) (by simpa using hl) (by
      intro j kj cj nj a b c
      by_cases e : j = i
      · subst e; rw [h2] at c; simp at c; subst c; exact .inr hhas
      · rw [List.getElem?_set_ne (Ne.symm e)] at b; exact hcs j kj cj nj a b c)
    refine ⟨ch', cs', ?_, r2, ?_⟩
    · simp only [List.map_cons, setKeys, hkey]
      exact r1
    · intro j
      rw [r3 j]
      by_cases e : j = i
      · subst e
        rw [List.getElem?_set_self hic, h2]
        simp
      · rw [List.getElem?_set_ne (Ne.symm e)]
        simp [e]

/-- A new entry with its key leaves set. -/
theorem xnewEntry_rt {above : List Str} {own : Option Choice} (hf : ChoicesKids st above own (choiceNames kids ++ above) kids)
    (hn : ns.length = kids.length) (hone : OneCase kids ns)
    (hk : ∀ i ∈ info.keys, XKeyBack nsOf infer mns kids ns i) :
    ∃ ch cs, mkEntry (entryCls info kids) false none (info.keys.map (xkeyRaw nsOf infer kids ns)) = .ok (.cont ch false cs) ∧
      cs.length = kids.length ∧ ∀ j : Nat, cs[j]? = if j ∈ info.keys then ns[j]? else (freshKids kids)[j]? := by
  obtain ⟨ch, cs, h1, h2, h3⟩ := xsetKeys_rt (info := info) (mns := mns) (infer := infer) hf hn hone info.keys 0 false (freshKids kids) rfl hk
    (freshKids_length _) (by intro j kj cj nj a b _; rw [freshKids_get, a] at b; simp at b; exact .inl b.symm)
  exact ⟨ch, cs, h1, h2, h3⟩

/-- Reading an entry into a new one with its key leaves set. -/
theorem xentry_rt {above : List Str} {own : Option Choice} (hf : ChoicesKids st above own (choiceNames kids ++ above) kids)
    (hnames : GoodNames kids) (hn : ns.length = kids.length) (hone : OneCase kids ns)
    (hk : ∀ i ∈ info.keys, XKeyBack nsOf infer mns kids ns i)
    (hrt : ∀ (j : Nat) k n, kids[j]? = some k → ns[j]? = some n → XKidRT st nsOf infer (choiceNames kids ++ above) k.1 k.2 n)
    {ch : Bool} {cs : List Inst} (hl : cs.length = kids.length)
    (hcs : ∀ j : Nat, cs[j]? = if j ∈ info.keys then ns[j]? else (freshKids kids)[j]?) :
    ∃ xss e sg, xmlKids nsOf true kids ns = .ok xss ∧
      xmlMembers infer true (.cont false kids) info.keys none (.cont ch false cs) xss.flatten = ⟨e, sg, none⟩ ∧ SameKids kids ns e.kids ∧
      GoodSigs st above own sg := by
  obtain ⟨xss, ch', pr', cs', sg, e1, e2, e3, e4, -⟩ := xmembers_rt (nsOf := nsOf) (infer := infer) (wrapped := true) (pres := false) (po := none)
    (keys := info.keys) (fun _ => hf) (fun _ => rfl) (.inr rfl)
    hnames hn (fun _ => hone) hrt kids ns 0 cs ch false rfl rfl hl
    (by
      intro j kj cj nj a b c
      rw [hcs j] at b
      split at b
      · rename_i hj
        obtain ⟨m, L, v, _, h1, h2, _⟩ := xkey_known (hk j hj)
        rw [h2] at c; simp at c; subst c
        exact .inr ((has_leaf ..).2 rfl)
      · rw [freshKids_get, a] at b; simp at b; exact .inl b.symm)
    (by intro j kj cj nj a; omega)
    (by
      intro j kj cj nj _ a b c
      rw [hcs j] at b
      split at b
      · rename_i hj
        rw [if_pos hj]
        obtain ⟨m, L, v, x, h1, h2, h3, h4, h5, h6, h7⟩ := xkey_known (hk j hj)
        rw [h2] at c b; rw [h1] at a
        simp at a b c; subst a b c
        obtain ⟨n1, n2⟩ := xmlNode_names h4 (x := x) (by simp)
        exact ⟨sameData_leaf, (has_leaf ..).2 rfl, x, h4, n1, n2, h7 _ _⟩
      · rename_i hj
        rw [if_neg hj]
        rw [freshKids_get, a] at b; simp at b; exact b.symm)
  exact ⟨xss, .cont ch' pr' cs', sg, e1, e2, e3, e4⟩

/-! ## The entries of a list -/

/-- The key an entry is stored under. -/
def xstoredKey (nsOf : Str → Str) (infer : Str → PyVal) (info : ListInfo) (kids : List (Meta × Schema)) (ns : List Inst) : PyVal :=
  (.str (Spec.keyText (info.keys.map (xkeyRaw nsOf infer kids ns))))

/-- The entry for one element. -/
theorem xmlEntry_rt {above : List Str} {own : Option Choice} (hf : ChoicesKids st above own (choiceNames kids ++ above) kids) {ch : Bool}
    {acc : Members Inst} (hnames : GoodNames kids) (hn : ns.length = kids.length) (hone : OneCase kids ns)
    (hne : info.keys ≠ []) (hk : ∀ i ∈ info.keys, XKeyBack nsOf infer mns kids ns i)
    (hacc : ∀ a ∈ acc, pyEq a.1 (xstoredKey nsOf infer info kids ns) = false)
    {xss : List (List Xml)} (hm : xmlKids nsOf true kids ns = .ok xss) :
    ∃ ch' cs sg, xmlEntry infer info kids ch acc mns xss.flatten =
        (⟨.list ch (acc ++ [(xstoredKey nsOf infer info kids ns, .cont ch' false cs)]), sg, none⟩, xstoredKey nsOf infer info kids ns) ∧
      GoodSigs st above own sg ∧ cs.length = kids.length ∧
      ∀ j : Nat, cs[j]? = if j ∈ info.keys then ns[j]? else (freshKids kids)[j]? := by
  obtain ⟨ce, cs, n1, n2, n3⟩ := xnewEntry_rt (info := info) hf hn hone hk
  have e1 : xmlKeys infer mns (keyNames info kids) xss.flatten = .ok (info.keys.map (xkeyRaw nsOf infer kids ns)) :=
    xmlKeys_ok (info := info) hnames hm info.keys hk
  have hnm : namedKey (info.keys.map (xkeyRaw nsOf infer kids ns)) = xstoredKey nsOf infer info kids ns := rfl
  have hmem := mem_false.2 hacc
  have hgood := nodeOp_good (S := .list info kids) hf (.list ch acc) (.addNamed ((info.keys.map (xkeyRaw nsOf infer kids ns)).map some))
  generalize xstoredKey nsOf infer info kids ns = K at *
  generalize hraw : info.keys.map (xkeyRaw nsOf infer kids ns) = raws at *
  have hlen : raws.length = info.keys.length := by simp [← hraw]
  have hgiven : allGiven (raws.map some) = .ok raws := by
    clear hraw hlen n1 e1 hnm hgood
    induction raws with
    | nil => rfl
    | cons r rs ih => simp [allGiven, ih, Except.map]
  have hadd : ylAddNamed (entryCls info kids) acc (raws.map some) none = .ok (acc ++ [(K, .cont ce false cs)]) := by
    simp only [ylAddNamed, hgiven, bind, Except.bind, hnm, hmem, Bool.false_eq_true, if_false, Option.isSome_none, n1, asKeyError, pure, Except.pure, store_new hmem]
  refine ⟨ce, cs, addNamedSigs info kids acc (raws.map some), ?_, ?_, n2, n3⟩
  · have hop : nodeOp (.list info kids) none (.list ch acc) (.addNamed (raws.map some)) =
        ⟨.list ch (acc ++ [(K, .cont ce false cs)]), addNamedSigs info kids acc (raws.map some), none⟩ := by
      simp only [nodeOp, hne, List.length_map, hlen, ne_eq, not_true_eq_false, or_self, if_false, hadd, listOut]
    simp only [xmlEntry, hne, if_false, e1, hnm, hmem, Bool.false_eq_true, hop]
  · simpa only [nodeOp, hne, if_false, List.length_map, hlen, ne_eq, not_true_eq_false, or_self, listOut_sigs] using hgood

end

section
variable {nsOf : Str → Str} {infer : Str → PyVal} {info : ListInfo} {kids : List (Meta × Schema)} {above : List Str} {own : Option Choice}

/-- Writing and reading the entries of a list. -/
theorem xelems_rt {m : Meta} (hown : own = m.choice) (hf : ChoicesKids st above own (choiceNames kids ++ above) kids)
    (hnames : GoodNames kids) (hrt : ∀ k ∈ kids, ∀ n above, Choices st above k.1.choice k.2 →
      Every (XmlReady nsOf infer) k.1 k.2 n → XKidRT st nsOf infer above k.1 k.2 n) {ch : Bool} (hne : info.keys ≠ []) :
    ∀ (es : List (PyVal × Inst)) (acc : Members Inst),
      (∀ q ∈ es, EveryKids (XmlReady nsOf infer) kids q.2.kids) → (∀ q ∈ es, OneCase kids q.2.kids) →
      (∀ q ∈ es, ∀ i ∈ info.keys, XKeyBack nsOf infer m.ns kids q.2.kids i) →
      (∀ a ∈ acc, ∀ q ∈ es, pyEq a.1 (xstoredKey nsOf infer info kids q.2.kids) = false) →
      (es.Pairwise fun a b => pyEq (xstoredKey nsOf infer info kids a.2.kids) (xstoredKey nsOf infer info kids b.2.kids) = false) →
      ∃ xs new sg, (es.mapM fun q => (xmlKids nsOf true kids q.2.kids).map fun xs => Xml.elem m.ns m.name [] none xs.flatten) = .ok xs ∧
        xs.length = es.length ∧ (∀ x ∈ xs, x.ns = m.ns ∧ x.name = m.name) ∧
        Steps st infer (.list info kids) own false above (.list ch acc) xs (.list ch (acc ++ new)) sg ∧
        (es.length = new.length ∧ ∀ (i : Nat) x y, es[i]? = some x → new[i]? = some y → SameKids kids x.2.kids y.2.kids) := by
  intro es
  induction es with
  | nil =>
    intro acc _ _ _ _ _
    exact ⟨[], [], [], rfl, rfl, by simp, by simpa using Steps.nil, by simp⟩
  | cons q es ih =>
    intro acc hev hone hkb hacc hpw
    have hevq := everyKids_iff.1 (hev q (by simp))
    have hkid : ∀ (j : Nat) k n, kids[j]? = some k → q.2.kids[j]? = some n → XKidRT st nsOf infer (choiceNames kids ++ above) k.1 k.2 n :=
      fun j k n a b => hrt k (List.mem_of_getElem? a) n _ (flatKids_mem hf (List.mem_of_getElem? a)).2.2 (hevq.2 j k n a b)
    -- what is written
    obtain ⟨ce, cs0, _, l0, hcs0⟩ := xnewEntry_rt (info := info) hf hevq.1 (hone q (by simp)) (hkb q (by simp))
    obtain ⟨xss, -, -, hm, -⟩ := xentry_rt (ch := ce) hf hnames hevq.1 (hone q (by simp)) (hkb q (by simp)) hkid l0 hcs0
    have hacc1 : ∀ a ∈ acc, pyEq a.1 (xstoredKey nsOf infer info kids q.2.kids) = false := fun a ha => hacc a ha q (by simp)
    obtain ⟨ch', cs, sg1, b1, b4, b5, b6⟩ := xmlEntry_rt (ch := ch) (acc := acc) hf hnames hevq.1 (hone q (by simp)) hne
      (hkb q (by simp)) hacc1 hm
    obtain ⟨xss', e, sg2, c1, c2, c3, c4⟩ := xentry_rt (ch := ch') hf hnames hevq.1 (hone q (by simp)) (hkb q (by simp)) hkid b5 b6
    rw [hm] at c1
    simp only [Except.ok.injEq] at c1
    subst c1
    obtain ⟨xs, new, sg3, d1, d2, d3, d4, d5⟩ := ih (acc ++ [(xstoredKey nsOf infer info kids q.2.kids, e)])
      (fun q hq => hev q (by simp [hq])) (fun q hq => hone q (by simp [hq]))
      (fun q hq => hkb q (by simp [hq]))
      (by
        intro a ha q' hq'
        rcases List.mem_append.1 ha with ha | ha
        · exact hacc a ha q' (by simp [hq'])
        · simp at ha
          subst ha
          exact (List.pairwise_cons.1 hpw).1 q' hq')
      (List.pairwise_cons.1 hpw).2
    refine ⟨.elem m.ns m.name [] none xss.flatten :: xs, (xstoredKey nsOf infer info kids q.2.kids, e) :: new, sg1 ++ sg2 ++ sg3,
      ?_, by simp [d2], ?_, ?_, sameLists_cons c3 d5⟩
    · rw [List.mapM_cons, d1, hm]
      rfl
    · intro x hx
      rcases List.mem_cons.1 hx with rfl | hx
      · exact ⟨rfl, rfl⟩
      · exact d3 x hx
    · refine Steps.cons (c1 := .list ch (acc ++ [(xstoredKey nsOf infer info kids q.2.kids, e)])) ?_ (good_append b4 c4) (by simpa using d4)
      unfold xmlChild
      simp only [b1, Out.andThen, withEntry_last hacc1, c2]

theorem xlist_rt {m : Meta} {n : Inst} (hf : Choices st above m.choice (.list info kids))
    (h : Every (XmlReady nsOf infer) m (.list info kids) n)
    (hrt : ∀ k ∈ kids, ∀ n above, Choices st above k.1.choice k.2 → Every (XmlReady nsOf infer) k.1 k.2 n → XKidRT st nsOf infer above k.1 k.2 n) :
    XKidRT st nsOf infer above m (.list info kids) n := by
  cases n <;> simp only [Every, XmlReady] at h
  rename_i ch es
  obtain ⟨⟨hnames, hone, hg⟩, hev⟩ := h
  simp only [Choices] at hf
  by_cases he : es = []
  · subst he
    exact ⟨none, _, [], rfl, by simp, .nil, by simp [SameData, fresh], by simp, by simp [has_list]⟩
  · obtain ⟨hne, hnd, hkb, hap⟩ := hg he
    have hpw : es.Pairwise fun a b => pyEq (xstoredKey nsOf infer info kids a.2.kids) (xstoredKey nsOf infer info kids b.2.kids) = false := by
      refine hap.imp ?_
      intro a b hab
      cases hp : pyEq (xstoredKey nsOf infer info kids a.2.kids) (xstoredKey nsOf infer info kids b.2.kids) with
      | false => rfl
      | true => exact absurd (PyVal.str.inj (pyEq_str hp)).symm hab
    obtain ⟨xs, new, sg, d1, d2, d3, d4, d5⟩ := xelems_rt (ch := false) (m := m) rfl hf hnames hrt hne es [] hev hone hkb (by simp) hpw
    have hx : xs ≠ [] := by
      rintro rfl; exact he (List.length_eq_zero_iff.1 d2.symm)
    refine ⟨some xs, .list false new, sg, ?_, d3, d4, ?_, ?_, by simp⟩
    · simp only [xmlNode]
      rw [d1]
      simp [hx]
    · simp only [SameData]; exact d5
    · intro hh; exact absurd ((has_list ..).2 (.inl ⟨rfl, he⟩)) hh

theorem xnode_rt : ∀ (S : Schema) (m : Meta) (n : Inst) (above : List Str),
    Choices st above m.choice S → Every (XmlReady nsOf infer) m S n → XKidRT st nsOf infer above m S n := by
  intro S
  induction S using Schema.ind with
  | hleaf L => intro m n above _ h; exact xleaf_rt above (every_self h)
  | hll L => intro m n above _ h; exact xleafList_rt above (every_self h)
  | hcont pres kids ih => intro m n above hf h; exact xcont_rt hf h (fun k hk n ab => ih k hk k.1 n ab)
  | hlist info kids ih => intro m n above hf h; exact xlist_rt hf h (fun k hk n ab => ih k hk k.1 n ab)

/-- A whole binding. -/
theorem xml_roundtrip (name mns : Str) (hf : ChoicesRoot st kids) (hnames : GoodNames kids) {ns : List Inst}
    (h : EveryKids (XmlReady nsOf infer) kids ns) :
    ∃ x ns', xmlDump nsOf true name mns kids ns = .ok x ∧ xmlLoad infer kids (freshKids kids) x = (ns', none) ∧ SameKids kids ns ns' := by
  have he := everyKids_iff.1 h
  obtain ⟨xss, ch', pr', cs', sg, e1, e2, e3, -⟩ := xmembers_rt (nsOf := nsOf) (infer := infer) (wrapped := false) (pres := false) (po := none) (own := none)
    (above := []) (ab := []) (keys := []) (by simp) (by simp) (.inl rfl) hnames he.1 (by simp)
    (fun j k n a b => xnode_rt k.2 k.1 n [] (hf k (List.mem_of_getElem? a)) (he.2 j k n a b)) kids ns 0 (freshKids kids) false false rfl rfl
    (freshKids_length _)
    (by intro j kj cj nj a b _; rw [freshKids_get, a] at b; simp at b; exact .inl b.symm)
    (by intro j kj cj nj a; omega)
    (by intro j kj cj nj _ a b _; rw [freshKids_get, a] at b; simp at b ⊢; exact b.symm)
  refine ⟨.elem mns name [] none xss.flatten, cs', by simp [xmlDump, e1, Except.map], ?_, e3⟩
  simp only [xmlLoad, Xml.kids, e2, Inst.kids]

end

end Pyb
