import Verif.Spec.Native
import Verif.Lemmas.IetfList
import Verif.Lemmas.JsonUnknown

namespace Pyb
open Py Spec

variable {st : Bool}

/-! # Writing and reading native JSON -/

theorem nMembers_cons {g : LoadOpt} {over wrapped ordered : Bool} {S : Schema} {own : Option Choice} {n : Inst}
    {m : Str × J} {ms : List (Str × J)} : nativeMembers g over wrapped ordered S own n (m :: ms) =
    (if ordered && m.1 == yangOrder then Out.same n
      else withKid wrapped S own n m.1 (nativeUnknown g.skip n) fun _ k c => nativeChild g over k.2 k.1.choice c m.2).andThen
        fun n => nativeMembers g over wrapped ordered S own n ms := by
  conv => lhs; unfold nativeMembers

theorem nMembers_nil {g : LoadOpt} {over wrapped ordered : Bool} {S : Schema} {own : Option Choice} {n : Inst} :
    nativeMembers g over wrapped ordered S own n [] = Out.same n := by
  unfold nativeMembers; rfl

/-- Writing a child and reading it into the object `c`. -/
def KidRTN (st : Bool) (g : LoadOpt) (ab : List Str) (m : Meta) (S : Schema) (n c : Inst) : Prop :=
  (nativeNode S n = .ok none ∧ SameData S n c) ∨
  ∃ j n' sg, nativeNode S n = .ok (some j) ∧ nativeChild g false S m.choice c j = ⟨n', sg, none⟩ ∧
    SameData S n n' ∧ GoodSigs st ab m.choice sg ∧ (¬ Has true n → sg = [] ∧ n' = c)

/-- What is read into: a new object, or a key leaf that is set. -/
def StartOk (k : Meta × Schema) (n c : Inst) : Prop :=
  c = fresh k.2 ∨ ∃ L v w, k.2 = .leaf L ∧ n = .leaf v true ∧ c = .leaf w true

theorem startOk_has {k : Meta × Schema} {n c : Inst} (h : StartOk k n c) : c = fresh k.2 ∨ Has true n := by
  rcases h with h | ⟨_, _, _, _, rfl, _⟩
  · exact .inl h
  · exact .inr ((has_leaf ..).2 rfl)

theorem nMembers_rt {g : LoadOpt} {wrapped pres ordered : Bool} {po own : Option Choice} {kids : List (Meta × Schema)}
    {above ab : List Str} {ns : List Inst} {tail : List (Str × J)}
    (hf : wrapped = true → ChoicesKids st above own (choiceNames kids ++ above) kids)
    (hab : wrapped = true → ab = choiceNames kids ++ above) (hpo : po = own ∨ po = none)
    (hnames : GoodNames kids) (hord : ordered = true → ∀ k ∈ kids, k.1.name ≠ yangOrder)
    (hn : ns.length = kids.length) (hone : wrapped = true → OneCase kids ns)
    (hrt : ∀ (j : Nat) k n c, kids[j]? = some k → ns[j]? = some n → StartOk k n c → KidRTN st g ab k.1 k.2 n c)
    (htail : ∀ n, nativeMembers g false wrapped ordered (.cont pres kids) po n tail = Out.same n) :
    ∀ (ks : List (Meta × Schema)) (rest : List Inst) (i : Nat) (cs : List Inst) (ch pr : Bool),
      kids.drop i = ks → ns.drop i = rest → cs.length = kids.length →
      (∀ (j : Nat) kj cj nj, kids[j]? = some kj → cs[j]? = some cj → ns[j]? = some nj → cj = fresh kj.2 ∨ Has true nj) →
      (∀ (j : Nat) kj cj nj, j < i → kids[j]? = some kj → cs[j]? = some cj → ns[j]? = some nj → SameData kj.2 nj cj) →
      (∀ (j : Nat) kj cj nj, i ≤ j → kids[j]? = some kj → cs[j]? = some cj → ns[j]? = some nj → StartOk kj nj cj) →
      ∃ ms ch' pr' cs' sg, nativeKids ks rest = .ok ms ∧
        nativeMembers g false wrapped ordered (.cont pres kids) po (.cont ch pr cs) (ms ++ tail) = ⟨.cont ch' pr' cs', sg, none⟩ ∧
        SameKids kids ns cs' ∧ GoodSigs st above own sg ∧ (pres = false ∨ pr = true → pr' = pr) ∧
        ((∀ n ∈ ns, ¬ Has true n) → sg = [] ∧ ch' = ch ∧ pr' = pr ∧ cs' = cs) := by
  intro ks
  induction ks with
  | nil =>
    intro rest i cs ch pr hks hrest hlen hcs hlt hge
    refine ⟨[], ch, pr, cs, [], by simp [nativeKids], htail _, ?_, good_nil .., fun _ => rfl, fun _ => ⟨rfl, rfl, rfl, rfl⟩⟩
    rw [sameKids_iff]
    refine ⟨hn, hlen, fun j k n m a b c => hlt j k m n ?_ a c b⟩
    have := List.drop_eq_nil_iff.1 hks
    have := (List.getElem?_eq_some_iff.1 a).1
    omega
  | cons k ks ih =>
    intro rest i cs ch pr hks hrest hlen hcs hlt hge
    have hk : kids[i]? = some k := by
      have : (kids.drop i)[0]? = some k := by rw [hks]; rfl
      simpa using this
    have hks' : kids.drop (i + 1) = ks := by
      have := congrArg (List.drop 1) hks
      simpa [List.drop_drop, Nat.add_comm] using this
    have hi := (List.getElem?_eq_some_iff.1 hk).1
    have hin : i < ns.length := by omega
    have hic : i < cs.length := by omega
    have hnn : ns[i]? = some ns[i] := List.getElem?_eq_getElem hin
    have hcc : cs[i]? = some cs[i] := List.getElem?_eq_getElem hic
    have hrest' : rest = ns[i] :: ns.drop (i + 1) := by rw [← hrest]; exact List.drop_eq_getElem_cons hin
    generalize ns[i] = n at hnn hrest'
    generalize cs[i] = c at hcc
    subst hrest'
    obtain ⟨hnm, hat, hatm⟩ := hnames.1 k (List.mem_of_getElem? hk)
    -- the next state, given what the child becomes
    have next : ∀ (n' : Inst), SameData k.2 n n' → (n' = fresh k.2 ∨ Has true n) → ∀ ch pr,
        ∃ ms ch' pr' cs' sg, nativeKids ks (ns.drop (i + 1)) = .ok ms ∧
        nativeMembers g false wrapped ordered (.cont pres kids) po (.cont ch pr (cs.set i n')) (ms ++ tail) = ⟨.cont ch' pr' cs', sg, none⟩ ∧
        SameKids kids ns cs' ∧ GoodSigs st above own sg ∧ (pres = false ∨ pr = true → pr' = pr) ∧
        ((∀ n ∈ ns, ¬ Has true n) → sg = [] ∧ ch' = ch ∧ pr' = pr ∧ cs' = cs.set i n') := by
      intro n' hs hf' ch pr
      refine ih _ (i + 1) (cs.set i n') ch pr hks' rfl (by simpa using hlen) ?_ ?_ ?_
      · intro j kj cj nj a b d
        by_cases e : j = i
        · subst e
          rw [List.getElem?_set_self hic] at b
          rw [hk] at a; rw [hnn] at d
          simp at a b d; subst a b d; exact hf'
        · rw [List.getElem?_set_ne (Ne.symm e)] at b
          exact hcs j kj cj nj a b d
      · intro j kj cj nj hj a b d
        by_cases e : j = i
        · subst e
          rw [List.getElem?_set_self hic] at b
          rw [hk] at a; rw [hnn] at d
          simp at a b d; subst a b d; exact hs
        · rw [List.getElem?_set_ne (Ne.symm e)] at b
          exact hlt j kj cj nj (by omega) a b d
      · intro j kj cj nj hj a b d
        rw [List.getElem?_set_ne (by omega)] at b
        exact hge j kj cj nj (by omega) a b d
    have hci := hge i k c n (Nat.le_refl _) hk hcc hnn
    have self : cs.set i c = cs := by
      rw [List.getElem?_eq_some_iff] at hcc
      obtain ⟨_, rfl⟩ := hcc
      exact List.set_getElem_self hic
    -- the member is known
    have hkid : ∀ (f : Nat → Meta × Schema → Inst → Out) u,
        withKid wrapped (.cont pres kids) po (.cont ch pr cs) k.1.name u f =
        holdPut wrapped pres po kids ch pr cs i (f i k c) := by
      intro f u
      simp only [withKid, kidIdx_self hnames.2 hk, hk, hcc]
    have hno : (ordered && k.1.name == yangOrder) = false := by
      cases ordered with
      | false => rfl
      | true => simpa using hord rfl k (List.mem_of_getElem? hk)
    rcases hrt i k n c hk hnn hci with ⟨hj, hsame⟩ | ⟨j, n', sg1, hj, hch, hsame, hgood, hquiet⟩
    · obtain ⟨ms, ch', pr', cs', sg, e1, e2, e3, e4, e5, e6⟩ := next c hsame (startOk_has hci) ch pr
      rw [self] at e2 e6
      exact ⟨ms, ch', pr', cs', sg, by simp [nativeKids, hj, e1], e2, e3, e4, e5, e6⟩
    · have hq : ∀ x, ns[i]? = some x → ¬ Has true x → sg1 = [] := by
        intro x hx hnot; rw [hnn] at hx; simp at hx; subst hx; exact (hquiet hnot).1
      obtain ⟨ch1, pr1, h1, h2, h3⟩ := hold_step (wrapped := wrapped) (pres := pres) (po := po) (ch := ch) (pr := pr)
        (o := ⟨n', sg1, none⟩) hab hk hlen hn hone hcs hgood hq
      obtain ⟨hs1, hs2⟩ := hold_sigs (wrapped := wrapped) (pres := pres) (ch := ch) (pr := pr) (cs := cs)
        (o := ⟨n', sg1, none⟩) hf hab hpo hk hgood
      have hfr : n' = fresh k.2 ∨ Has true n := by
        by_cases h : Has true n
        · exact .inr h
        · rw [(hquiet h).2]; exact startOk_has hci
      obtain ⟨ms, ch', pr', cs', sg, e1, e2, e3, e4, e5, e6⟩ := next n' hsame hfr ch1 pr1
      refine ⟨(k.1.name, j) :: ms, ch', pr', cs',
        (holdPut wrapped pres po kids ch pr cs i ⟨n', sg1, none⟩).sigs ++ sg, by simp [nativeKids, hj, e1], ?_, e3,
        good_append hs1 e4, ?_, ?_⟩
      · rw [List.cons_append, nMembers_cons]
        simp only [hno, Bool.false_eq_true, if_false, hkid, hch]
        simp only [Out.andThen, hold_err]
        rw [h1]
        simp only [e2]
      · intro hp
        have := h2 hp
        rw [e5 (hp.imp id fun h => by rw [this, h]), this]
      · intro hq'
        obtain ⟨q1, q2, q3, q4⟩ := e6 hq'
        obtain ⟨q5, q6⟩ := hquiet (hq' n (List.mem_of_getElem? hnn))
        obtain ⟨q7, q8⟩ := h3 q5
        refine ⟨by rw [q1, hs2 q5]; rfl, by rw [q2, q7], by rw [q3, q8], ?_⟩
        rw [q4, q6, self]

/-! ## Leaves and leaf-lists -/

theorem nLeaf_rt {g : LoadOpt} {m : Meta} {L : LeafCls} {n c : Inst} (ab : List Str)
    (h : NativeReady g.repr m (.leaf L) n) (hs : StartOk (m, .leaf L) n c) : KidRTN st g ab m (.leaf L) n c := by
  cases n <;> simp only [NativeReady] at h
  rename_i v ch
  cases ch with
  | false =>
    left
    rcases hs with rfl | ⟨_, _, _, _, h, _⟩
    · exact ⟨by simp [nativeNode], by simp [SameData, fresh]⟩
    · simp at h
  | true =>
    right
    obtain ⟨j, h1, h2⟩ := h rfl
    refine ⟨j, .leaf v true, [m.choice, none], by simp [nativeNode, h1, Except.map], ?_, by simp [SameData], good_own_none .., ?_⟩
    · cases j <;> unfold nativeChild <;> simp [jsonSet, leafSet, h2]
    · simp [has_leaf]

theorem pyIn_false {v : PyVal} {xs : List PyVal} (h : ∀ x ∈ xs, pyEq x v = false) : pyIn v xs = false := by
  simp only [pyIn, List.any_eq_false]
  intro x hx; simp [h x hx]

theorem pyIn_true {v x : PyVal} {xs : List PyVal} (hx : x ∈ xs) (h : pyEq x v = true) : pyIn v xs = true := by
  simp only [pyIn, List.any_eq_true]
  exact ⟨x, hx, h⟩

theorem mergeAdd_rt {L : LLCls} {own : Option Choice} {ab : List Str} : ∀ (vs ps acc : List PyVal) (ch : Bool),
    vs.length = ps.length → (∀ (i : Nat) v p, vs[i]? = some v → ps[i]? = some p → L.conv p = some v ∧ pyEq v p = true) →
    (acc ++ vs).Pairwise (fun a b => pyEq a b = false) →
    ∃ sg, mergeAdd L own ps (.leafList acc ch) = ⟨.leafList (acc ++ vs) (ch || !vs.isEmpty), sg, none⟩ ∧ GoodSigs st ab own sg := by
  intro vs
  induction vs with
  | nil =>
    intro ps acc ch hl _ _
    have : ps = [] := List.length_eq_zero_iff.1 hl.symm
    subst this
    exact ⟨[], by simp [mergeAdd, Out.same], good_nil ..⟩
  | cons v vs ih =>
    intro ps acc ch hl hb hpw
    cases ps with
    | nil => simp at hl
    | cons p ps =>
      obtain ⟨hc, he⟩ := hb 0 v p rfl rfl
      have hnew : ∀ a ∈ acc, pyEq a p = false := by
        intro a ha
        have := (List.pairwise_append.1 hpw).2.2 a ha v (by simp)
        cases h : pyEq a p with
        | false => rfl
        | true =>
          rw [pyEq_trans h, pyEq_symm, he] at this
          exact absurd this (by simp)
      obtain ⟨sg, e1, e2⟩ := ih ps (acc ++ [v]) true (by simpa using hl)
        (fun i v' p' a b => hb (i + 1) v' p' (by simpa using a) (by simpa using b)) (by simpa using hpw)
      have hin := pyIn_false hnew
      refine ⟨own :: sg, ?_, good_append (good_own ..) e2⟩
      simp only [mergeAdd, hin, Bool.false_eq_true, if_false, llApply, llStep, llMarks, if_true, tlAppend, Bool.not_false, Bool.or_true,
        tlCheck, Bool.and_false, hc, Out.andThen, e1, List.append_assoc, List.singleton_append]
      simp

theorem mergeDrop_all {L : LLCls} {own : Option Choice} {items : List PyVal} {xs : List PyVal} {ch : Bool} : ∀ (es : List PyVal),
    (∀ e ∈ es, pyIn e items = true) → mergeDrop L own items es (.leafList xs ch) = Out.same (.leafList xs ch) := by
  intro es
  induction es with
  | nil => intro _; rfl
  | cons e es ih =>
    intro h
    simp only [mergeDrop, h e (by simp), if_true, same_then, ih fun e he => h e (by simp [he])]

theorem nLeafList_rt {g : LoadOpt} {m : Meta} {L : LLCls} {n : Inst} (ab : List Str)
    (h : NativeReady g.repr m (.leafList L) n) : KidRTN st g ab m (.leafList L) n (fresh (.leafList L)) := by
  cases n <;> simp only [NativeReady] at h
  rename_i vs ch
  by_cases hv : vs = []
  · subst hv
    left
    exact ⟨by simp [nativeNode], by simp [SameData, fresh]⟩
  · right
    obtain ⟨hb, hpw⟩ := h
    have hser : ∀ vs : List PyVal, (∀ v ∈ vs, NativeElemBack g.repr L v) → ∃ xs, vs.mapM (serElem false [] L) = .ok xs ∧
        vs.length = xs.length ∧
        ∀ (i : Nat) v p, vs[i]? = some v → (xs.map (jPy g.repr))[i]? = some p → L.conv p = some v ∧ pyEq v p = true := by
      intro vs
      induction vs with
      | nil => intro _; exact ⟨[], rfl, rfl, by simp⟩
      | cons v vs ih =>
        intro hb
        obtain ⟨xs, e1, e2, e3⟩ := ih fun v hv => hb v (by simp [hv])
        obtain ⟨x, f1, f2, f3⟩ := hb v (by simp)
        refine ⟨x :: xs, by simp [List.mapM_cons, f1, e1, bind, Except.bind, pure, Except.pure], by simp [e2], ?_⟩
        intro i v' p' a b
        cases i with
        | zero => simp at a b; subst a b; exact ⟨f2, f3⟩
        | succ i => exact e3 i v' p' (by simpa using a) (by simpa using b)
    obtain ⟨xs, e1, e2, e3⟩ := hser vs hb
    obtain ⟨sg, f1, f2⟩ := mergeAdd_rt (L := L) (own := m.choice) (ab := ab) vs (xs.map (jPy g.repr)) [] false (by simpa using e2) e3 (by simpa using hpw)
    refine ⟨.arr xs, .leafList vs true, sg, by simp [nativeNode, hv, e1, Except.map], ?_, by simp [SameData], f2, ?_⟩
    · unfold nativeChild
      simp only [Bool.false_eq_true, if_false, nativeMerge, fresh, f1]
      have hdrop : mergeDrop L m.choice (xs.map (jPy g.repr)) vs (.leafList vs true) = Out.same (.leafList vs true) := by
        apply mergeDrop_all
        intro e he
        obtain ⟨i, hi, rfl⟩ := List.getElem_of_mem he
        have hi' : i < (xs.map (jPy g.repr)).length := by simp; omega
        obtain ⟨_, h⟩ := e3 i _ _ (List.getElem?_eq_getElem hi) (List.getElem?_eq_getElem hi')
        exact pyIn_true (List.getElem_mem hi') (by rw [pyEq_symm]; exact h)
      have hne : vs.isEmpty = false := by simpa using hv
      simp only [Out.andThen, List.nil_append, hne, Bool.not_false, Bool.or_true, hdrop, Out.same, List.append_nil]
    · intro hh; exact absurd ((has_leafList true vs ch).2 ⟨rfl, hv⟩) hh

end Pyb
