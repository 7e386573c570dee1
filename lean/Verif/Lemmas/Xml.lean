import Verif.Lemmas.IetfList
import Verif.Spec.Xml

namespace Pyb
open Py Spec

variable {st : Bool}

/-! # Writing and reading XML -/

section
variable {nsOf : Str → Str} {infer : Str → PyVal}

theorem xmembers_cons {wrapped : Bool} {S : Schema} {keys : List Nat} {own : Option Choice} {n : Inst}
    {x : Xml} {xs : List Xml} : xmlMembers infer wrapped S keys own n (x :: xs) =
    (withKid wrapped S own n x.name (fail n .attributeError) fun i k c =>
        xmlChild infer k.2 k.1.choice (keys.contains i) c x).andThen fun n => xmlMembers infer wrapped S keys own n xs := by
  conv => lhs; unfold xmlMembers

theorem xmembers_nil {wrapped : Bool} {S : Schema} {keys : List Nat} {own : Option Choice} {n : Inst} :
    xmlMembers infer wrapped S keys own n [] = Out.same n := by
  unfold xmlMembers; rfl

theorem xmembers_append {wrapped : Bool} {S : Schema} {keys : List Nat} {own : Option Choice} (xs ys : List Xml) : ∀ (n : Inst),
    xmlMembers infer wrapped S keys own n (xs ++ ys) =
      (xmlMembers infer wrapped S keys own n xs).andThen fun n => xmlMembers infer wrapped S keys own n ys := by
  induction xs with
  | nil => intro n; simp [xmembers_nil, Out.same, Out.andThen]
  | cons x xs ih =>
    intro n
    simp only [List.cons_append, xmembers_cons]
    generalize withKid wrapped S own n x.name (fail n .attributeError) (fun i k c =>
        xmlChild infer k.2 k.1.choice (keys.contains i) c x) = o
    obtain ⟨i, sg, e⟩ := o
    cases e with
    | some e => rfl
    | none =>
      simp only [Out.andThen, ih]
      generalize xmlMembers infer wrapped S keys own i xs = o
      obtain ⟨i', sg', e'⟩ := o
      cases e' <;> simp

/-- Elements of one child read one after the other. -/
inductive Steps (st : Bool) (infer : Str → PyVal) (S : Schema) (own : Option Choice) (isKey : Bool) (ab : List Str) :
    Inst → List Xml → Inst → List (Option Choice) → Prop where
  | nil {c} : Steps st infer S own isKey ab c [] c []
  | cons {c c1 c2 x xs sg1 sg2} : xmlChild infer S own isKey c x = ⟨c1, sg1, none⟩ → GoodSigs st ab own sg1 →
      Steps st infer S own isKey ab c1 xs c2 sg2 → Steps st infer S own isKey ab c (x :: xs) c2 (sg1 ++ sg2)

theorem steps_one {S : Schema} {own : Option Choice} {isKey : Bool} {ab : List Str} {c c1 : Inst} {x : Xml} {sg : List (Option Choice)}
    (h : xmlChild infer S own isKey c x = ⟨c1, sg, none⟩) (hg : GoodSigs st ab own sg) : Steps st infer S own isKey ab c [x] c1 sg := by
  have := Steps.cons h hg .nil
  simpa using this

theorem steps_good {S : Schema} {own : Option Choice} {isKey : Bool} {ab : List Str} {c c' : Inst} {xs : List Xml}
    {sg : List (Option Choice)} (h : Steps st infer S own isKey ab c xs c' sg) : GoodSigs st ab own sg := by
  induction h with
  | nil => exact good_nil ..
  | cons _ hg _ ih => exact good_append hg ih

/-- Writing a child and reading it into a new object. -/
def XKidRT (st : Bool) (nsOf : Str → Str) (infer : Str → PyVal) (ab : List Str) (m : Meta) (S : Schema) (n : Inst) : Prop :=
  ∃ os n' sg, xmlNode nsOf true m S n = .ok os ∧ (∀ x ∈ os.getD [], x.ns = m.ns ∧ x.name = m.name) ∧
    Steps st infer S m.choice false ab (fresh S) (os.getD []) n' sg ∧ SameData S n n' ∧
    (¬ Has true n → (os.getD []).length ≤ 1 ∧ sg = [] ∧ n' = fresh S) ∧ (os = none → ¬ Has true n)

/-- A key leaf of an entry, whose value the entry has already. -/
def XKeyDone (nsOf : Str → Str) (infer : Str → PyVal) (k : Meta × Schema) (n c : Inst) : Prop :=
  SameData k.2 n c ∧ Has true n ∧ ∃ x, xmlNode nsOf true k.1 k.2 n = .ok (some [x]) ∧ x.ns = k.1.ns ∧ x.name = k.1.name ∧
    xmlChild infer k.2 k.1.choice true c x = Out.same c

/-- The elements of one child, read into its parent. -/
theorem group_rt {wrapped pres : Bool} {po own : Option Choice} {kids : List (Meta × Schema)}
    {above ab : List Str} {keys : List Nat} {ns : List Inst} {b : Bool} {i : Nat} {k : Meta × Schema}
    (hf : wrapped = true → ChoicesKids st above own (choiceNames kids ++ above) kids)
    (hab : wrapped = true → ab = choiceNames kids ++ above) (hpo : po = own ∨ po = none)
    (hnames : GoodNames kids) (hn : ns.length = kids.length) (hone : wrapped = true → OneCase kids ns)
    (hk : kids[i]? = some k) (hb : keys.contains i = b) {n : Inst} (hnn : ns[i]? = some n) {c n' : Inst} {els : List Xml}
    {sg : List (Option Choice)} (hst : Steps st infer k.2 k.1.choice b ab c els n' sg) :
    ∀ (cs : List Inst) (ch pr : Bool), (∀ x ∈ els, x.ns = k.1.ns ∧ x.name = k.1.name) → cs[i]? = some c → cs.length = kids.length →
      (∀ (j : Nat) kj cj nj, kids[j]? = some kj → cs[j]? = some cj → ns[j]? = some nj → cj = fresh kj.2 ∨ Has true nj) →
      (¬ Has true n → els.length ≤ 1 ∧ sg = []) →
      ∃ ch' pr' sg', xmlMembers infer wrapped (.cont pres kids) keys po (.cont ch pr cs) els = ⟨.cont ch' pr' (cs.set i n'), sg', none⟩ ∧
        GoodSigs st above own sg' ∧ (pres = false ∨ pr = true → pr' = pr) ∧ (sg = [] → sg' = [] ∧ ch' = ch ∧ pr' = pr) := by
  induction hst with
  | @nil c =>
    intro cs ch pr _ hc hlen _ _
    refine ⟨ch, pr, [], ?_, good_nil .., fun _ => rfl, fun _ => ⟨rfl, rfl, rfl⟩⟩
    rw [xmembers_nil]
    rw [List.getElem?_eq_some_iff] at hc
    obtain ⟨h, rfl⟩ := hc
    rw [List.set_getElem_self]
    rfl
  | @cons c c1 c2 x xs sg1 sg2 h1 hg hst ih =>
    intro cs ch pr hname hc hlen hcs hq
    have hic : i < cs.length := (List.getElem?_eq_some_iff.1 hc).1
    have hq1 : ∀ y, ns[i]? = some y → ¬ Has true y → sg1 = [] := by
      intro y hy hnot
      rw [hnn] at hy; simp at hy; subst hy
      exact (List.append_eq_nil_iff.1 (hq hnot).2).1
    obtain ⟨ch1, pr1, e1, e2, e3⟩ := hold_step (wrapped := wrapped) (pres := pres) (po := po) (ch := ch) (pr := pr)
      (o := ⟨c1, sg1, none⟩) hab hk hlen hn hone hcs hg hq1
    obtain ⟨hs1, hs2⟩ := hold_sigs (wrapped := wrapped) (pres := pres) (ch := ch) (pr := pr) (cs := cs)
      (o := ⟨c1, sg1, none⟩) hf hab hpo hk hg
    have hkid : ∀ (f : Nat → Meta × Schema → Inst → Out) u,
        withKid wrapped (.cont pres kids) po (.cont ch pr cs) x.name u f = holdPut wrapped pres po kids ch pr cs i (f i k c) := by
      intro f u
      simp only [withKid, (hname x (by simp)).2, kidIdx_self hnames.2 hk, hk, hc]
    have step : ∀ ch' pr' cs' sg', xmlMembers infer wrapped (.cont pres kids) keys po (.cont ch1 pr1 (cs.set i c1)) xs = ⟨.cont ch' pr' cs', sg', none⟩ →
        xmlMembers infer wrapped (.cont pres kids) keys po (.cont ch pr cs) (x :: xs) =
          ⟨.cont ch' pr' cs', (holdPut wrapped pres po kids ch pr cs i ⟨c1, sg1, none⟩).sigs ++ sg', none⟩ := by
      intro ch' pr' cs' sg' h
      rw [xmembers_cons]
      simp only [hkid, hb, h1, Out.andThen, hold_err]
      rw [e1]
      simp only [h]
    by_cases hh : Has true n
    · obtain ⟨ch', pr', sg', r1, r2, r3, r4⟩ := ih (cs.set i c1) ch1 pr1 (fun y hy => hname y (by simp [hy]))
        (List.getElem?_set_self hic) (by simpa using hlen)
        (by
          intro j kj cj nj a b' d
          by_cases e : j = i
          · subst e; rw [hnn] at d; simp at d; subst d; exact .inr hh
          · rw [List.getElem?_set_ne (Ne.symm e)] at b'; exact hcs j kj cj nj a b' d)
        (fun h => absurd hh h)
      rw [List.set_set] at r1
      refine ⟨ch', pr', _, step _ _ _ _ r1, good_append hs1 r2, ?_, ?_⟩
      · intro hp
        have := e2 hp
        rw [r3 (hp.imp id fun h => by rw [this, h]), this]
      · intro h0
        obtain ⟨z1, z2⟩ := List.append_eq_nil_iff.1 h0
        obtain ⟨q1, q2, q3⟩ := r4 z2
        obtain ⟨q4, q5⟩ := e3 z1
        exact ⟨by rw [q1, hs2 z1]; rfl, by rw [q2, q4], by rw [q3, q5]⟩
    · have hlen' := (hq hh).1
      have hxs : xs = [] := by simpa using hlen'
      subst hxs
      cases hst
      refine ⟨ch1, pr1, _, step ch1 pr1 (cs.set i c1) [] (by rw [xmembers_nil]; rfl), by simpa using hs1, e2, ?_⟩
      intro h0
      simp only [List.append_nil] at h0
      exact ⟨by simp [hs2 h0], (e3 h0).1, (e3 h0).2⟩

theorem xmembers_rt {wrapped pres : Bool} {po own : Option Choice} {kids : List (Meta × Schema)}
    {above ab : List Str} {keys : List Nat} {ns : List Inst}
    (hf : wrapped = true → ChoicesKids st above own (choiceNames kids ++ above) kids)
    (hab : wrapped = true → ab = choiceNames kids ++ above) (hpo : po = own ∨ po = none)
    (hnames : GoodNames kids) (hn : ns.length = kids.length) (hone : wrapped = true → OneCase kids ns)
    (hrt : ∀ (j : Nat) k n, kids[j]? = some k → ns[j]? = some n → XKidRT st nsOf infer ab k.1 k.2 n) :
    ∀ (ks : List (Meta × Schema)) (rest : List Inst) (i : Nat) (cs : List Inst) (ch pr : Bool),
      kids.drop i = ks → ns.drop i = rest → cs.length = kids.length →
      (∀ (j : Nat) kj cj nj, kids[j]? = some kj → cs[j]? = some cj → ns[j]? = some nj → cj = fresh kj.2 ∨ Has true nj) →
      (∀ (j : Nat) kj cj nj, j < i → kids[j]? = some kj → cs[j]? = some cj → ns[j]? = some nj → SameData kj.2 nj cj) →
      (∀ (j : Nat) kj cj nj, i ≤ j → kids[j]? = some kj → cs[j]? = some cj → ns[j]? = some nj →
        if j ∈ keys then XKeyDone nsOf infer kj nj cj else cj = fresh kj.2) →
      ∃ xss ch' pr' cs' sg, xmlKids nsOf true ks rest = .ok xss ∧
        xmlMembers infer wrapped (.cont pres kids) keys po (.cont ch pr cs) xss.flatten = ⟨.cont ch' pr' cs', sg, none⟩ ∧
        SameKids kids ns cs' ∧ GoodSigs st above own sg ∧ (pres = false ∨ pr = true → pr' = pr) ∧
        ((∀ n ∈ ns, ¬ Has true n) → sg = [] ∧ ch' = ch ∧ pr' = pr ∧ cs' = cs) := by
  intro ks
  induction ks with
  | nil =>
    intro rest i cs ch pr hks hrest hlen hcs hlt hge
    refine ⟨[], ch, pr, cs, [], by simp [xmlKids], xmembers_nil, ?_, good_nil .., fun _ => rfl, fun _ => ⟨rfl, rfl, rfl, rfl⟩⟩
    rw [sameKids_iff]
    refine ⟨hn, hlen, fun j k n m a b c => hlt j k m n ?_ a c b⟩
    have := List.drop_eq_nil_iff.1 hks
    have := (List.getElem?_eq_some_iff.1 a).1
    omega
  | cons k ks ih =>
    intro rest i cs ch pr hks hrest hlen hcs hlt hge
    have hk : kids[i]? = some k := by
      have : (kids.drop i)[0]? = some k := by rw [hks]; rfl
      simpa using this
    have hks' : kids.drop (i + 1) = ks := by
      have := congrArg (List.drop 1) hks
      simpa [List.drop_drop, Nat.add_comm] using this
    have hi := (List.getElem?_eq_some_iff.1 hk).1
    have hin : i < ns.length := by omega
    have hic : i < cs.length := by omega
    have hnn : ns[i]? = some ns[i] := List.getElem?_eq_getElem hin
    have hcc : cs[i]? = some cs[i] := List.getElem?_eq_getElem hic
    have hrest' : rest = ns[i] :: ns.drop (i + 1) := by rw [← hrest]; exact List.drop_eq_getElem_cons hin
    generalize ns[i] = n at hnn hrest'
    generalize cs[i] = c at hcc
    subst hrest'
    -- the next state, given what the child becomes
    have next : ∀ (n' : Inst), SameData k.2 n n' → (n' = fresh k.2 ∨ Has true n) → ∀ ch pr,
        ∃ xss ch' pr' cs' sg, xmlKids nsOf true ks (ns.drop (i + 1)) = .ok xss ∧
        xmlMembers infer wrapped (.cont pres kids) keys po (.cont ch pr (cs.set i n')) xss.flatten = ⟨.cont ch' pr' cs', sg, none⟩ ∧
        SameKids kids ns cs' ∧ GoodSigs st above own sg ∧ (pres = false ∨ pr = true → pr' = pr) ∧
        ((∀ n ∈ ns, ¬ Has true n) → sg = [] ∧ ch' = ch ∧ pr' = pr ∧ cs' = cs.set i n') := by
      intro n' hs hf' ch pr
      refine ih _ (i + 1) (cs.set i n') ch pr hks' rfl (by simpa using hlen) ?_ ?_ ?_
      · intro j kj cj nj a b d
        by_cases e : j = i
        · subst e
          rw [List.getElem?_set_self hic] at b
          rw [hk] at a; rw [hnn] at d
          simp at a b d; subst a b d; exact hf'
        · rw [List.getElem?_set_ne (Ne.symm e)] at b
          exact hcs j kj cj nj a b d
      · intro j kj cj nj hj a b d
        by_cases e : j = i
        · subst e
          rw [List.getElem?_set_self hic] at b
          rw [hk] at a; rw [hnn] at d
          simp at a b d; subst a b d; exact hs
        · rw [List.getElem?_set_ne (Ne.symm e)] at b
          exact hlt j kj cj nj (by omega) a b d
      · intro j kj cj nj hj a b d
        rw [List.getElem?_set_ne (by omega)] at b
        exact hge j kj cj nj (by omega) a b d
    have hci := hge i k c n (Nat.le_refl _) hk hcc hnn
    -- the elements of the child, and what they make of it
    have hchild : ∃ os n' sg1 b, keys.contains i = b ∧ xmlNode nsOf true k.1 k.2 n = .ok os ∧ (∀ x ∈ os.getD [], x.ns = k.1.ns ∧ x.name = k.1.name) ∧
        Steps st infer k.2 k.1.choice b ab c (os.getD []) n' sg1 ∧ SameData k.2 n n' ∧
        (¬ Has true n → (os.getD []).length ≤ 1 ∧ sg1 = [] ∧ n' = c) ∧ (n' = fresh k.2 ∨ Has true n) := by
      by_cases hkey : i ∈ keys
      · rw [if_pos hkey] at hci
        obtain ⟨hsame, hhas, x, hx, hns, hnm, hch⟩ := hci
        exact ⟨some [x], c, [], true, by simp [hkey], hx, by simp [hns, hnm], steps_one hch (good_nil ..), hsame,
          fun h => absurd hhas h, .inr hhas⟩
      · rw [if_neg hkey] at hci
        subst hci
        obtain ⟨os, n', sg1, h1, h2, h3, h4, h5, -⟩ := hrt i k n hk hnn
        refine ⟨os, n', sg1, false, by simp [hkey], h1, h2, h3, h4, h5, ?_⟩
        by_cases h : Has true n
        · exact .inr h
        · exact .inl (h5 h).2.2
    obtain ⟨os, n', sg1, b, hb, hx, hnm, hst, hsame, hquiet, hfr⟩ := hchild
    obtain ⟨ch1, pr1, sg', e1, e2, e3, e4⟩ := group_rt (keys := keys) (pres := pres) hf hab hpo hnames hn hone hk hb hnn hst cs ch pr hnm hcc hlen hcs
      (fun h => ⟨(hquiet h).1, (hquiet h).2.1⟩)
    obtain ⟨xss, ch', pr', cs', sg, f1, f2, f3, f4, f5, f6⟩ := next n' hsame hfr ch1 pr1
    refine ⟨os.toList ++ xss, ch', pr', cs', sg' ++ sg, ?_, ?_, f3, good_append e2 f4, ?_, ?_⟩
    · cases os <;> simp [xmlKids, hx, f1]
    · have : (os.toList ++ xss).flatten = os.getD [] ++ xss.flatten := by cases os <;> simp
      rw [this, xmembers_append, e1]
      simp only [Out.andThen, f2]
    · intro hp
      have := e3 hp
      rw [f5 (hp.imp id fun h => by rw [this, h]), this]
    · intro hq'
      obtain ⟨q1, q2, q3, q4⟩ := f6 hq'
      obtain ⟨-, q5, q6⟩ := hquiet (hq' n (List.mem_of_getElem? hnn))
      obtain ⟨q7, q8, q9⟩ := e4 q5
      have self : cs.set i c = cs := by
        rw [List.getElem?_eq_some_iff] at hcc
        obtain ⟨_, rfl⟩ := hcc
        exact List.set_getElem_self hic
      exact ⟨by rw [q1, q7]; rfl, by rw [q2, q8], by rw [q3, q9], by rw [q4, q6, self]⟩

/-! ## Leaves and leaf-lists -/

theorem xleaf_rt {m : Meta} {L : LeafCls} {n : Inst} (ab : List Str)
    (h : XmlReady nsOf infer m (.leaf L) n) : XKidRT st nsOf infer ab m (.leaf L) n := by
  cases n <;> simp only [XmlReady] at h
  rename_i v ch
  cases ch with
  | false =>
    exact ⟨none, _, [], by simp [xmlNode], by simp, .nil, by simp [SameData, fresh], by simp, by simp [has_leaf]⟩
  | true =>
    obtain ⟨d, t, h1, h2⟩ := h rfl
    refine ⟨some [.elem m.ns m.name d t []], .leaf v true, [m.choice, none], by simp [xmlNode, h1, Except.map], by simp [Xml.name, Xml.ns], ?_,
      by simp [SameData], by simp [has_leaf], by simp⟩
    refine steps_one ?_ (good_own_none ..)
    unfold xmlChild
    exact h2 _ _

theorem xleafList_steps {m : Meta} {L : LLCls} {vs : List PyVal} (ab : List Str) (h : XLeafListBack infer m L vs) :
    ∀ (s p : List PyVal) (ch : Bool), vs = p ++ s → ∃ xs sg ch', xmlLeafList m L s = .ok xs ∧ (∀ x ∈ xs, x.ns = m.ns ∧ x.name = m.name) ∧
      Steps st infer (.leafList L) m.choice false ab (.leafList p ch) xs (.leafList vs ch') sg := by
  intro s
  induction s with
  | nil => intro p ch e; simp at e; subst e; exact ⟨[], [], ch, rfl, by simp, .nil⟩
  | cons v s ih =>
    intro p ch e
    obtain ⟨j, t, h1, h2, h3⟩ := h p v s e
    obtain ⟨sg1, h4, h5⟩ := h3 m.choice ch
    obtain ⟨xs, sg, ch', i1, i2, i3⟩ := ih (p ++ [v]) true (by simp [e])
    refine ⟨.elem m.ns m.name [] t [] :: xs, m.choice :: sg1 ++ sg, ch', ?_, ?_, Steps.cons (sg1 := m.choice :: sg1) ?_ (good_cons ?_) i3⟩
    · simp only [xmlLeafList] at i1 ⊢
      rw [List.mapM_cons, i1]
      simp [h1, h2, bind, Except.bind, pure, Except.pure]
    · intro x hx
      rcases List.mem_cons.1 hx with rfl | hx
      · exact ⟨rfl, rfl⟩
      · exact i2 x hx
    · unfold xmlChild
      simpa using h4
    · intro x hx
      exact .inr (.inl (h5 x hx))

theorem xleafList_rt {m : Meta} {L : LLCls} {n : Inst} (ab : List Str)
    (h : XmlReady nsOf infer m (.leafList L) n) : XKidRT st nsOf infer ab m (.leafList L) n := by
  cases n <;> simp only [XmlReady] at h
  rename_i vs ch
  obtain ⟨hid, h⟩ := h
  have hdec : xmlLLDecls L ch = .ok () := by
    simp only [xmlLLDecls]
    rw [if_neg]
    rintro ⟨h1, h2⟩
    exact hid h2 h1
  by_cases hv : vs = []
  · subst hv
    have hno : ¬ Has true (.leafList [] ch) := by simp [has_leafList]
    cases ch with
    | false => exact ⟨none, _, [], by simp [xmlNode, hdec, bind, Except.bind], by simp, .nil, by simp [SameData, fresh], by simp, fun _ => hno⟩
    | true =>
      exact ⟨some [], .leafList [] false, [], by simp [xmlNode, hdec, bind, Except.bind, xmlLeafList, pure, Except.pure, Except.map], by simp, .nil,
        by simp [SameData], by simp [fresh], by simp⟩
  · obtain ⟨rfl, hb⟩ := h hv
    obtain ⟨xs, sg, ch', h1, h2, h3⟩ := xleafList_steps ab hb vs [] false rfl
    refine ⟨some xs, _, sg, by simp [xmlNode, hdec, bind, Except.bind, h1, Except.map], h2, h3, by simp [SameData], ?_, by simp⟩
    intro hh; exact absurd ((has_leafList _ _ _).2 ⟨rfl, hv⟩) hh

/-! ## Containers -/

theorem xuntouched_node {m : Meta} : ∀ {S : Schema} {n : Inst}, Untouched n → xmlNode nsOf true m S n = .ok none := by
  intro S
  induction S using Schema.ind generalizing m with
  | hleaf L =>
    intro n h
    cases n <;> try rfl
    have := h _ .here
    simp at this
    simp [xmlNode, this]
  | hll L =>
    intro n h
    cases n <;> try rfl
    have := h _ .here
    simp at this
    simp [xmlNode, this, xmlLLDecls, bind, Except.bind]
  | hcont pres kids ih =>
    intro n h
    cases n <;> try rfl
    rename_i ch pr ns
    have hp := h _ .here
    simp at hp
    have hk : ∀ (ks : List (Meta × Schema)) (ns : List Inst), (∀ k ∈ ks, k ∈ kids) → (∀ n ∈ ns, Untouched n) →
        xmlKids nsOf true ks ns = .ok [] := by
      intro ks
      induction ks with
      | nil => intro ns _ _; simp [xmlKids]
      | cons k ks ihk =>
        intro ns h1 h2
        cases ns with
        | nil => simp [xmlKids]
        | cons n ns =>
          simp [xmlKids, ih k (h1 k (by simp)) (h2 n (by simp)), ihk ns (fun k hk => h1 k (by simp [hk])) (fun n hn => h2 n (by simp [hn]))]
    simp only [xmlNode, hk kids ns (fun _ h => h) (fun n hn x hx => h x (.field hn hx)), hp]
    rfl
  | hlist info kids ih =>
    intro n h
    cases n <;> try rfl
    have hp := h _ .here
    simp at hp
    subst hp
    rfl

theorem xmlKids_nil {ks : List (Meta × Schema)} {ns : List Inst}
    (h : xmlKids nsOf true ks ns = .ok []) {i : Nat} {k : Meta × Schema} {n : Inst} (hk : ks[i]? = some k)
    (hn : ns[i]? = some n) : xmlNode nsOf true k.1 k.2 n = .ok none := by
  induction ks generalizing ns i with
  | nil => simp at hk
  | cons k' ks ih =>
    cases ns with
    | nil => simp at hn
    | cons n' ns =>
      simp only [xmlKids] at h
      cases h1 : xmlNode nsOf true k'.1 k'.2 n' with
      | error e => simp [h1] at h
      | ok r =>
        cases h2 : xmlKids nsOf true ks ns with
        | error e => cases r <;> simp [h1, h2] at h
        | ok ms =>
          cases r with
          | some j => simp [h1, h2] at h
          | none =>
            simp [h1, h2] at h
            subst h
            cases i with
            | zero => simp at hk hn; subst hk hn; exact h1
            | succ i => exact ih h2 (by simpa using hk) (by simpa using hn)

theorem xcont_rt {m : Meta} {pres : Bool} {kids : List (Meta × Schema)} {n : Inst} {above : List Str}
    (hf : Choices st above m.choice (.cont pres kids)) (h : Every (XmlReady nsOf infer) m (.cont pres kids) n)
    (hrt : ∀ k ∈ kids, ∀ n above, Choices st above k.1.choice k.2 → Every (XmlReady nsOf infer) k.1 k.2 n → XKidRT st nsOf infer above k.1 k.2 n) :
    XKidRT st nsOf infer above m (.cont pres kids) n := by
  cases n <;> simp only [Every, XmlReady] at h
  rename_i ch pr ns
  obtain ⟨⟨hone, hnames, hpres⟩, hev⟩ := h
  rw [everyKids_iff] at hev
  simp only [Choices] at hf
  have hkid : ∀ (j : Nat) k n, kids[j]? = some k → ns[j]? = some n → XKidRT st nsOf infer (choiceNames kids ++ above) k.1 k.2 n :=
    fun j k n a b => hrt k (List.mem_of_getElem? a) n _ (flatKids_mem hf (List.mem_of_getElem? a)).2.2 (hev.2 j k n a b)
  have main := fun (ch0 pr0 : Bool) => xmembers_rt (nsOf := nsOf) (infer := infer) (wrapped := true) (pres := pres) (keys := [])
    (fun _ => hf) (fun _ => rfl) (.inl rfl)
    hnames hev.1 (fun _ => hone) hkid kids ns 0 (freshKids kids) ch0 pr0 rfl rfl (freshKids_length _)
    (by intro j kj cj nj a b _; rw [freshKids_get, a] at b; simp at b; exact .inl b.symm)
    (by intro j kj cj nj a; omega)
    (by intro j kj cj nj _ a b _; rw [freshKids_get, a] at b; simp at b ⊢; exact b.symm)
  cases hm : (xmlKids nsOf true kids ns) with
  | error e =>
    obtain ⟨ms, _, _, _, _, e1, _⟩ := main false false
    rw [hm] at e1; simp at e1
  | ok ms =>
    by_cases hnone : ms = [] ∧ pr = false
    · obtain ⟨rfl, rfl⟩ := hnone
      obtain ⟨ms, ch', pr', cs', sg, e1, e2, e3, e4, e5, e6⟩ := main false false
      rw [hm] at e1
      simp only [Except.ok.injEq] at e1
      subst e1
      rw [List.flatten_nil, xmembers_nil] at e2
      simp only [Out.same, Out.mk.injEq, Inst.cont.injEq] at e2
      obtain ⟨⟨rfl, rfl, rfl⟩, rfl, -⟩ := e2
      refine ⟨none, _, [], by simp [xmlNode, hm], by simp, .nil, by simp only [SameData, fresh]; exact ⟨by simp, e3⟩, by simp, ?_⟩
      intro _
      rw [has_cont]
      rintro (h | ⟨c, hc, hd⟩)
      · simp at h
      · obtain ⟨i, hi, rfl⟩ := List.getElem_of_mem hc
        have hi' : i < kids.length := by omega
        have hnil := xmlKids_nil hm (List.getElem?_eq_getElem hi') (List.getElem?_eq_getElem hi)
        obtain ⟨os, n', sg, h1, -, -, -, -, h2⟩ := hkid i kids[i] ns[i] (List.getElem?_eq_getElem hi') (List.getElem?_eq_getElem hi)
        rw [hnil] at h1
        simp only [Except.ok.injEq] at h1
        exact h2 h1.symm hd
    · have hw : xmlNode nsOf true m (.cont pres kids) (.cont ch pr ns) = .ok (some [.elem m.ns m.name [] none ms.flatten]) := by
        simp only [xmlNode, hm]
        by_cases h : ms = []
        · subst h
          simp only [true_and, Bool.not_eq_false] at hnone
          subst hnone; rfl
        · simp [h]
      -- presence
      have hpr : pres = true → pr = true := by
        intro hp
        cases hpr : pr with
        | true => rfl
        | false =>
          exfalso
          have hun := hpres hp hpr
          have : xmlNode nsOf true m (.cont pres kids) (.cont ch pr ns) = .ok none := by
            have hnil : ∀ (ks : List (Meta × Schema)) (ns : List Inst), (∀ n ∈ ns, Untouched n) →
                xmlKids nsOf true ks ns = .ok [] := by
              intro ks
              induction ks with
              | nil => intro ns _; simp [xmlKids]
              | cons k ks ihk =>
                intro ns h2
                cases ns with
                | nil => simp [xmlKids]
                | cons n ns => simp [xmlKids, xuntouched_node (h2 n (by simp)), ihk ns (fun n hn => h2 n (by simp [hn]))]
            simp [xmlNode, hnil kids ns hun, hpr]
          rw [hw] at this; simp at this
      cases pres with
      | true =>
        have := hpr rfl
        subst this
        obtain ⟨ms', ch', pr', cs', sg, e1, e2, e3, e4, e5, e6⟩ := main true true
        rw [hm] at e1
        simp only [Except.ok.injEq] at e1
        subst e1
        refine ⟨some [_], .cont ch' pr' cs', m.choice :: sg, hw, by simp [Xml.name, Xml.ns], steps_one ?_ ?_, ?_, ?_, by simp⟩
        · unfold xmlChild
          simp only [markPresent, fresh, Out.andThen, e2, List.singleton_append]
        · exact good_append (good_own ..) e4
        · simp only [SameData]
          exact ⟨fun _ => (e5 (.inr rfl)).symm, e3⟩
        · intro hh; exact absurd ((has_cont ..).2 (.inl ⟨rfl, rfl⟩)) hh
      | false =>
        obtain ⟨ms', ch', pr', cs', sg, e1, e2, e3, e4, e5, e6⟩ := main false false
        rw [hm] at e1
        simp only [Except.ok.injEq] at e1
        subst e1
        refine ⟨some [_], .cont ch' pr' cs', sg, hw, by simp [Xml.name, Xml.ns], steps_one ?_ e4, ?_, ?_, by simp⟩
        · unfold xmlChild
          simp only [markPresent, Out.same, fresh, Out.andThen, e2, List.nil_append]
        · simp only [SameData]
          exact ⟨by simp, e3⟩
        · intro hh
          obtain ⟨q1, q2, q3, q4⟩ := e6 (fun n hn h => hh ((has_cont ..).2 (.inr ⟨n, hn, h⟩)))
          exact ⟨by simp, q1, by rw [q2, q3, q4]; rfl⟩

end

end Pyb
