import Verif.Lemmas.TreeInv
import Verif.Lemmas.YList
import Verif.Lemmas.Names
import Verif.Spec.Json

namespace Pyb
open Py Spec

variable {st : Bool}

/-! # Writing and reading IETF JSON -/

theorem sameKids_iff {ks : List (Meta × Schema)} {ns ms : List Inst} :
    SameKids ks ns ms ↔ ns.length = ks.length ∧ ms.length = ks.length ∧
      ∀ (i : Nat) k n m, ks[i]? = some k → ns[i]? = some n → ms[i]? = some m → SameData k.2 n m := by
  induction ks generalizing ns ms with
  | nil => cases ns <;> cases ms <;> simp [SameKids]
  | cons k ks ih =>
    cases ns with
    | nil => simp [SameKids]
    | cons n ns =>
      cases ms with
      | nil => simp [SameKids]
      | cons m ms =>
        simp only [SameKids, ih, List.length_cons, Nat.add_right_cancel_iff]
        constructor
        · rintro ⟨h, h1, h2, h3⟩
          refine ⟨h1, h2, ?_⟩
          intro i k' n' m' a b c
          cases i with
          | zero => simp at a b c; subst a b c; exact h
          | succ i => exact h3 i k' n' m' (by simpa using a) (by simpa using b) (by simpa using c)
        · rintro ⟨h1, h2, h3⟩
          exact ⟨h3 0 k n m rfl rfl rfl, h1, h2, fun i k' n' m' a b c => h3 (i + 1) k' n' m' (by simpa using a) (by simpa using b) (by simpa using c)⟩

theorem everyKids_iff {F : Meta → Schema → Inst → Prop} {ks : List (Meta × Schema)} {ns : List Inst} :
    EveryKids F ks ns ↔ ns.length = ks.length ∧
      ∀ (i : Nat) k n, ks[i]? = some k → ns[i]? = some n → Every F k.1 k.2 n := by
  induction ks generalizing ns with
  | nil => cases ns <;> simp [EveryKids]
  | cons k ks ih =>
    cases ns with
    | nil => simp [EveryKids]
    | cons n ns =>
      simp only [EveryKids, ih, List.length_cons, Nat.add_right_cancel_iff]
      constructor
      · rintro ⟨h, h1, h3⟩
        refine ⟨h1, ?_⟩
        intro i k' n' a b
        cases i with
        | zero => simp at a b; subst a b; exact h
        | succ i => exact h3 i k' n' (by simpa using a) (by simpa using b)
      · rintro ⟨h1, h3⟩
        exact ⟨h3 0 k n rfl rfl, h1, fun i k' n' a b => h3 (i + 1) k' n' (by simpa using a) (by simpa using b)⟩

theorem every_self {F : Meta → Schema → Inst → Prop} {m : Meta} {S : Schema} {n : Inst} (h : Every F m S n) : F m S n := by
  cases S <;> cases n <;> simp only [Every] at h <;> first | exact h.1 | exact h

/-! ## Names -/

theorem localKey_plain {s : Str} (h : ':' ∉ s) : localKey s = s := by simp [localKey, h]

theorem splitOn_last (c : Char) (a b : Str) (h : c ∉ b) : (splitOn c (a ++ c :: b)).getLastD [] = b := by
  rw [List.getLastD_eq_getLast?, getLast?_splitOn_append, splitOn_of_not_mem h]
  rfl

theorem localKey_qual {m s : Str} (h : ':' ∉ s) : localKey (m ++ py!":" ++ s) = s := by
  simp only [localKey]
  rw [if_pos (by simp)]
  have : m ++ py!":" ++ s = m ++ ':' :: s := by simp
  rw [this, splitOn_last _ _ _ h]

theorem localKey_name {pns : Option Str} {m : Meta} (h : ':' ∉ m.name) : localKey (ietfName pns m) = m.name := by
  simp only [ietfName]
  split
  · exact localKey_plain h
  · exact localKey_qual h

theorem at_name {pns : Option Str} {m : Meta} (h : '@' ∉ m.name) (h' : '@' ∉ m.module_) : '@' ∉ ietfName pns m := by
  simp only [ietfName]
  split
  · exact h
  · simp [h, h']

theorem kidIdx_self {kids : List (Meta × Schema)} {i : Nat} {k : Meta × Schema}
    (hn : (kids.map fun k => safeName k.1.name).Nodup) (hk : kids[i]? = some k) : kidIdx kids k.1.name = some i := by
  induction kids generalizing i with
  | nil => simp at hk
  | cons k' ks ih =>
    simp only [kidIdx, List.findIdx?_cons]
    simp only [List.map_cons, List.nodup_cons] at hn
    cases i with
    | zero => simp at hk; subst hk; simp
    | succ i =>
      simp only [List.getElem?_cons_succ] at hk
      have hne : safeName k'.1.name ≠ safeName k.1.name := by
        intro e
        exact hn.1 (e ▸ List.mem_map.2 ⟨k, List.mem_of_getElem? hk, rfl⟩)
      have := ih hn.2 hk
      simp only [kidIdx] at this
      simp [hne, this]

/-! ## One child -/

/-- Writing a child and reading it into a new object. -/
def KidRT (st : Bool) (g : LoadOpt) (ab : List Str) (m : Meta) (S : Schema) (n : Inst) : Prop :=
  (ietfNode {} m S n = .ok none ∧ SameData S n (fresh S) ∧ ¬ Has true n) ∨
  ∃ j n' sg, ietfNode {} m S n = .ok (some j) ∧ ietfChild g S m.choice false (fresh S) j = ⟨n', sg, none⟩ ∧
    SameData S n n' ∧ GoodSigs st ab m.choice sg ∧ (¬ Has true n → sg = [] ∧ n' = fresh S)

theorem hold_step {wrapped pres : Bool} {po : Option Choice} {kids : List (Meta × Schema)} {above ab : List Str}
    {cs ns : List Inst} {ch pr : Bool} {i : Nat} {k : Meta × Schema} {o : Out}
    (hab : wrapped = true → ab = choiceNames kids ++ above) (hk : kids[i]? = some k)
    (hlen : cs.length = kids.length) (hn : ns.length = kids.length) (hone : wrapped = true → OneCase kids ns)
    (hcs : ∀ (j : Nat) kj cj nj, kids[j]? = some kj → cs[j]? = some cj → ns[j]? = some nj → cj = fresh kj.2 ∨ Has true nj)
    (hg : GoodSigs st ab k.1.choice o.sigs) (hq : ∀ n, ns[i]? = some n → ¬ Has true n → o.sigs = []) :
    ∃ ch' pr', (holdPut wrapped pres po kids ch pr cs i o).inst = .cont ch' pr' (cs.set i o.inst) ∧
      (pres = false ∨ pr = true → pr' = pr) ∧ (o.sigs = [] → ch' = ch ∧ pr' = pr) := by
  cases wrapped with
  | false => exact ⟨ch, pr, rfl, fun _ => rfl, fun _ => ⟨rfl, rfl⟩⟩
  | true =>
    have hone := hone rfl
    have hab := hab rfl
    obtain ⟨ns', h1, h2⟩ := contPut_spec pres po kids ch pr cs i o
    have hi : i < ns.length := hn ▸ (List.getElem?_eq_some_iff.1 hk).1
    have e : ns' = cs.set i o.inst := by
      apply List.ext_getElem?
      intro j
      rw [h2 j]
      cases hkj : kids[j]? with
      | none => rfl
      | some kj =>
        cases hc : (cs.set i o.inst)[j]? with
        | none => rfl
        | some c =>
          simp only [clr]
          split
          · rename_i hcl
            have hr := clearsBy_rival (List.mem_of_getElem? hkj) (hab ▸ hg) hcl
            have hne : j ≠ i := by
              rintro rfl; rw [hk] at hkj; simp at hkj; subst hkj; exact rivals_irrefl _ hr
            rw [List.getElem?_set_ne (Ne.symm hne)] at hc
            have hj : j < ns.length := hn ▸ (List.getElem?_eq_some_iff.1 hkj).1
            have hni : ns[i]? = some ns[i] := List.getElem?_eq_getElem hi
            have hnj : ns[j]? = some ns[j] := List.getElem?_eq_getElem hj
            rcases hcs j kj c _ hkj hc hnj with h | h
            · rw [h]
            · exfalso
              have hni' : ¬ Has true ns[i] := fun h' =>
                hone i j k kj _ _ hk hkj hni hnj hr ⟨(hasData_iff _).2 h', (hasData_iff _).2 h⟩
              have := hq _ hni hni'
              simp [this, clearsBy] at hcl
          · rfl
    refine ⟨_, _, by simp only [holdPut, if_true]; rw [h1, e], ?_, ?_⟩
    · rintro (h | h) <;> simp [h]
    · intro h; simp [h]

theorem hold_err {wrapped pres : Bool} {po : Option Choice} {kids : List (Meta × Schema)} {ch pr : Bool}
    {cs : List Inst} {i : Nat} {o : Out} : (holdPut wrapped pres po kids ch pr cs i o).err = o.err := by
  cases wrapped <;> rfl

/-- The sigs passed on by an operation on a child. -/
theorem hold_sigs {wrapped pres : Bool} {po own : Option Choice} {kids : List (Meta × Schema)} {above ab : List Str}
    {ch pr : Bool} {cs : List Inst} {i : Nat} {k : Meta × Schema} {o : Out}
    (hf : wrapped = true → ChoicesKids st above own (choiceNames kids ++ above) kids)
    (hab : wrapped = true → ab = choiceNames kids ++ above) (hpo : po = own ∨ po = none)
    (hk : kids[i]? = some k) (hg : GoodSigs st ab k.1.choice o.sigs) :
    GoodSigs st above own (holdPut wrapped pres po kids ch pr cs i o).sigs ∧
    (o.sigs = [] → (holdPut wrapped pres po kids ch pr cs i o).sigs = []) := by
  cases wrapped with
  | false => exact ⟨good_nil .., fun _ => rfl⟩
  | true =>
    refine ⟨good_pass (hf rfl) (List.mem_of_getElem? hk) hpo (hab rfl ▸ hg), ?_⟩
    intro h; simp [holdPut, contPut, h]

/-! ## The members of an object -/

theorem members_cons {g : LoadOpt} {wrapped : Bool} {S : Schema} {keys : List Nat} {own : Option Choice} {n : Inst}
    {m : Str × J} {ms : List (Str × J)} : ietfMembers g wrapped S keys own n (m :: ms) =
    (if '@' ∈ m.1 then Out.same n
      else withKid wrapped S own n (localKey m.1) (ietfUnknown g.skip n m.2) fun i k c =>
        ietfChild g k.2 k.1.choice (keys.contains i) c m.2).andThen fun n => ietfMembers g wrapped S keys own n ms := by
  conv => lhs; unfold ietfMembers

theorem members_nil {g : LoadOpt} {wrapped : Bool} {S : Schema} {keys : List Nat} {own : Option Choice} {n : Inst} :
    ietfMembers g wrapped S keys own n [] = Out.same n := by
  unfold ietfMembers; rfl

/-- A key leaf of an entry, whose value the entry has already. -/
def KeyDone (g : LoadOpt) (k : Meta × Schema) (n c : Inst) : Prop :=
  SameData k.2 n c ∧ Has true n ∧ ∃ j, ietfNode {} k.1 k.2 n = .ok (some j) ∧ ietfChild g k.2 k.1.choice true c j = Out.same c

theorem members_rt {g : LoadOpt} {wrapped pres : Bool} {po own : Option Choice} {kids : List (Meta × Schema)}
    {above ab : List Str} {keys : List Nat} {pns : Option Str} {ns : List Inst}
    (hf : wrapped = true → ChoicesKids st above own (choiceNames kids ++ above) kids)
    (hab : wrapped = true → ab = choiceNames kids ++ above) (hpo : po = own ∨ po = none)
    (hnames : GoodNames kids) (hn : ns.length = kids.length) (hone : wrapped = true → OneCase kids ns)
    (hrt : ∀ (j : Nat) k n, kids[j]? = some k → ns[j]? = some n → KidRT st g ab k.1 k.2 n) :
    ∀ (ks : List (Meta × Schema)) (rest : List Inst) (i : Nat) (cs : List Inst) (ch pr : Bool),
      kids.drop i = ks → ns.drop i = rest → cs.length = kids.length →
      (∀ (j : Nat) kj cj nj, kids[j]? = some kj → cs[j]? = some cj → ns[j]? = some nj → cj = fresh kj.2 ∨ Has true nj) →
      (∀ (j : Nat) kj cj nj, j < i → kids[j]? = some kj → cs[j]? = some cj → ns[j]? = some nj → SameData kj.2 nj cj) →
      (∀ (j : Nat) kj cj nj, i ≤ j → kids[j]? = some kj → cs[j]? = some cj → ns[j]? = some nj →
        if j ∈ keys then KeyDone g kj nj cj else cj = fresh kj.2) →
      ∃ ms ch' pr' cs' sg, ietfKids {} pns ks rest = .ok ms ∧
        ietfMembers g wrapped (.cont pres kids) keys po (.cont ch pr cs) ms = ⟨.cont ch' pr' cs', sg, none⟩ ∧
        SameKids kids ns cs' ∧ GoodSigs st above own sg ∧ (pres = false ∨ pr = true → pr' = pr) ∧
        ((∀ n ∈ ns, ¬ Has true n) → sg = [] ∧ ch' = ch ∧ pr' = pr ∧ cs' = cs) := by
  intro ks
  induction ks with
  | nil =>
    intro rest i cs ch pr hks hrest hlen hcs hlt hge
    refine ⟨[], ch, pr, cs, [], by simp [ietfKids], members_nil, ?_, good_nil .., fun _ => rfl, fun _ => ⟨rfl, rfl, rfl, rfl⟩⟩
    rw [sameKids_iff]
    refine ⟨hn, hlen, fun j k n m a b c => hlt j k m n ?_ a c b⟩
    have := List.drop_eq_nil_iff.1 hks
    have := (List.getElem?_eq_some_iff.1 a).1
    omega
  | cons k ks ih =>
    intro rest i cs ch pr hks hrest hlen hcs hlt hge
    have hk : kids[i]? = some k := by
      have : (kids.drop i)[0]? = some k := by rw [hks]; rfl
      simpa using this
    have hks' : kids.drop (i + 1) = ks := by
      have := congrArg (List.drop 1) hks
      simpa [List.drop_drop, Nat.add_comm] using this
    have hi := (List.getElem?_eq_some_iff.1 hk).1
    have hin : i < ns.length := by omega
    have hic : i < cs.length := by omega
    have hnn : ns[i]? = some ns[i] := List.getElem?_eq_getElem hin
    have hcc : cs[i]? = some cs[i] := List.getElem?_eq_getElem hic
    have hrest' : rest = ns[i] :: ns.drop (i + 1) := by rw [← hrest]; exact List.drop_eq_getElem_cons hin
    generalize ns[i] = n at hnn hrest'
    generalize cs[i] = c at hcc
    subst hrest'
    obtain ⟨hnm, hat, hatm⟩ := hnames.1 k (List.mem_of_getElem? hk)
    -- the next state, given what the child becomes
    have next : ∀ (n' : Inst), SameData k.2 n n' → (n' = fresh k.2 ∨ Has true n) → ∀ ch pr,
        ∃ ms ch' pr' cs' sg, ietfKids {} pns ks (ns.drop (i + 1)) = .ok ms ∧
        ietfMembers g wrapped (.cont pres kids) keys po (.cont ch pr (cs.set i n')) ms = ⟨.cont ch' pr' cs', sg, none⟩ ∧
        SameKids kids ns cs' ∧ GoodSigs st above own sg ∧ (pres = false ∨ pr = true → pr' = pr) ∧
        ((∀ n ∈ ns, ¬ Has true n) → sg = [] ∧ ch' = ch ∧ pr' = pr ∧ cs' = cs.set i n') := by
      intro n' hs hf' ch pr
      refine ih _ (i + 1) (cs.set i n') ch pr hks' rfl (by simpa using hlen) ?_ ?_ ?_
      · intro j kj cj nj a b d
        by_cases e : j = i
        · subst e
          rw [List.getElem?_set_self hic] at b
          rw [hk] at a; rw [hnn] at d
          simp at a b d; subst a b d; exact hf'
        · rw [List.getElem?_set_ne (Ne.symm e)] at b
          exact hcs j kj cj nj a b d
      · intro j kj cj nj hj a b d
        by_cases e : j = i
        · subst e
          rw [List.getElem?_set_self hic] at b
          rw [hk] at a; rw [hnn] at d
          simp at a b d; subst a b d; exact hs
        · rw [List.getElem?_set_ne (Ne.symm e)] at b
          exact hlt j kj cj nj (by omega) a b d
      · intro j kj cj nj hj a b d
        rw [List.getElem?_set_ne (by omega)] at b
        exact hge j kj cj nj (by omega) a b d
    have hci := hge i k c n (Nat.le_refl _) hk hcc hnn
    have self : cs.set i c = cs := by
      rw [List.getElem?_eq_some_iff] at hcc
      obtain ⟨_, rfl⟩ := hcc
      exact List.set_getElem_self hic
    -- the member is known
    have hkid : ∀ (f : Nat → Meta × Schema → Inst → Out) u,
        withKid wrapped (.cont pres kids) po (.cont ch pr cs) (localKey (ietfName pns k.1)) u f =
        holdPut wrapped pres po kids ch pr cs i (f i k c) := by
      intro f u
      simp only [withKid, localKey_name hnm, kidIdx_self hnames.2 hk, hk, hcc]
    by_cases hkey : i ∈ keys
    · rw [if_pos hkey] at hci
      obtain ⟨hsame, hhas, j, hj, hch⟩ := hci
      obtain ⟨ch1, pr1, h1, h2, h3⟩ := hold_step (wrapped := wrapped) (pres := pres) (po := po) (ch := ch) (pr := pr)
        (st := st) (o := Out.same c) hab hk hlen hn hone hcs (good_nil ..) (fun _ _ _ => rfl)
      obtain ⟨ms, ch', pr', cs', sg, e1, e2, e3, e4, e5, e6⟩ := next c hsame (.inr hhas) ch1 pr1
      obtain ⟨rfl, rfl⟩ := h3 rfl
      obtain ⟨hs1, hs2⟩ := hold_sigs (wrapped := wrapped) (pres := pres) (ch := ch1) (pr := pr1) (cs := cs)
        (o := Out.same c) hf hab hpo hk (good_nil ..)
      refine ⟨(ietfName pns k.1, j) :: ms, ch', pr', cs', sg, by simp [ietfKids, hj, e1], ?_, e3, e4, e5, ?_⟩
      · rw [members_cons, if_neg (at_name hat hatm)]
        simp only [hkid, List.contains_iff_mem.2 hkey, hch]
        simp only [Out.andThen, hold_err]
        rw [h1, hs2 rfl]
        simp only [Out.same, e2, List.nil_append]
      · intro hq
        exact absurd hhas (hq n (List.mem_of_getElem? hnn))
    · rw [if_neg hkey] at hci
      subst hci
      rcases hrt i k n hk hnn with ⟨hj, hsame, hhas⟩ | ⟨j, n', sg1, hj, hch, hsame, hgood, hquiet⟩
      · obtain ⟨ms, ch', pr', cs', sg, e1, e2, e3, e4, e5, e6⟩ := next _ hsame (.inl rfl) ch pr
        rw [self] at e2 e6
        exact ⟨ms, ch', pr', cs', sg, by simp [ietfKids, hj, e1], e2, e3, e4, e5, e6⟩
      · have hq : ∀ x, ns[i]? = some x → ¬ Has true x → sg1 = [] := by
          intro x hx hnot; rw [hnn] at hx; simp at hx; subst hx; exact (hquiet hnot).1
        obtain ⟨ch1, pr1, h1, h2, h3⟩ := hold_step (wrapped := wrapped) (pres := pres) (po := po) (ch := ch) (pr := pr)
          (o := ⟨n', sg1, none⟩) hab hk hlen hn hone hcs hgood hq
        obtain ⟨hs1, hs2⟩ := hold_sigs (wrapped := wrapped) (pres := pres) (ch := ch) (pr := pr) (cs := cs)
          (o := ⟨n', sg1, none⟩) hf hab hpo hk hgood
        have hfr : n' = fresh k.2 ∨ Has true n := by
          by_cases h : Has true n
          · exact .inr h
          · exact .inl (hquiet h).2
        obtain ⟨ms, ch', pr', cs', sg, e1, e2, e3, e4, e5, e6⟩ := next n' hsame hfr ch1 pr1
        refine ⟨(ietfName pns k.1, j) :: ms, ch', pr', cs',
          (holdPut wrapped pres po kids ch pr cs i ⟨n', sg1, none⟩).sigs ++ sg, by simp [ietfKids, hj, e1], ?_, e3,
          good_append hs1 e4, ?_, ?_⟩
        · rw [members_cons, if_neg (at_name hat hatm)]
          have : keys.contains i = false := by simp [hkey]
          simp only [hkid, this, hch]
          simp only [Out.andThen, hold_err]
          rw [h1]
          simp only [e2]
        · intro hp
          have := h2 hp
          rw [e5 (hp.imp id fun h => by rw [this, h]), this]
        · intro hq'
          obtain ⟨q1, q2, q3, q4⟩ := e6 hq'
          obtain ⟨q5, q6⟩ := hquiet (hq' n (List.mem_of_getElem? hnn))
          obtain ⟨q7, q8⟩ := h3 q5
          refine ⟨by rw [q1, hs2 q5]; rfl, by rw [q2, q7], by rw [q3, q8], ?_⟩
          rw [q4, q6, self]

/-! ## Leaves and leaf-lists -/

theorem leaf_rt {g : LoadOpt} {m : Meta} {L : LeafCls} {n : Inst} (ab : List Str)
    (h : IetfReady g.repr m (.leaf L) n) : KidRT st g ab m (.leaf L) n := by
  cases n <;> simp only [IetfReady] at h
  rename_i v ch
  cases ch with
  | false =>
    left
    exact ⟨by simp [ietfNode, leafIncluded], by simp [SameData, fresh], by simp [has_leaf]⟩
  | true =>
    right
    obtain ⟨j, j', h1, h2, h3, h4, h5, h6⟩ := h rfl
    have hc : ietfChild g (.leaf L) m.choice false (fresh (.leaf L)) j = ⟨.leaf v true, [m.choice, none], none⟩ := by
      have hstd : ietfStd g (.leaf L) m.choice false (fresh (.leaf L)) j = ⟨.leaf v true, [m.choice, none], none⟩ := by
        simp only [ietfStd, h4]
        cases j' <;> simp [jsonSet, leafSet, h6] at h5 ⊢
      cases j with
      | obj ms => exact absurd rfl (h3 ms)
      | arr xs => cases xs with
        | nil => exact absurd rfl h2
        | cons x xs => unfold ietfChild; simpa using hstd
      | _ => unfold ietfChild; exact hstd
    refine ⟨j, _, _, by simp [ietfNode, leafIncluded, h1, Except.map], hc, by simp [SameData], good_own_none .., ?_⟩
    simp [has_leaf]

theorem leafList_rt {g : LoadOpt} {m : Meta} {L : LLCls} {n : Inst} (ab : List Str)
    (h : IetfReady g.repr m (.leafList L) n) : KidRT st g ab m (.leafList L) n := by
  cases n <;> simp only [IetfReady] at h
  rename_i vs ch
  by_cases hv : vs = []
  · subst hv
    cases ch with
    | false => left; exact ⟨by simp [ietfNode, llIncluded], by simp [SameData, fresh], by simp [has_leafList]⟩
    | true =>
      right
      refine ⟨.arr [], .leafList [] false, [], rfl, ?_, by simp [SameData], good_nil .., fun _ => ⟨rfl, rfl⟩⟩
      unfold ietfChild
      rfl
  · right
    obtain ⟨rfl, xs, h1, h2, h3⟩ := h hv
    have hx : xs ≠ [] := by
      rintro rfl
      cases vs with
      | nil => exact hv rfl
      | cons v vs =>
        simp only [List.mapM_cons] at h1
        cases h : serElem true m.module_ L v <;> simp [h, bind, Except.bind] at h1
        cases h' : vs.mapM (serElem true m.module_ L) <;> simp [h', pure, Except.pure] at h1
    refine ⟨.arr xs, .leafList vs true, [m.choice, none], by simp [ietfNode, llIncluded, h1, Except.map], ?_,
      by simp [SameData], good_own_none .., ?_⟩
    · cases xs with
      | nil => exact absurd rfl hx
      | cons x xs =>
        unfold ietfChild
        simp only [List.isEmpty_cons, Bool.false_eq_true, if_false, ietfStd, h2, jsonSet, fresh, llApply, llStep, jArg, h3]
    · intro hh; exact absurd ((has_leafList _ _ _).2 ⟨rfl, hv⟩) hh

/-! ## Containers -/

theorem untouched_node {o : DumpOpt} (hw : o.wd = false) (hfl : o.flt = true) {m : Meta} : ∀ {S : Schema} {n : Inst},
    Untouched n → ietfNode o m S n = .ok none := by
  intro S
  induction S using Schema.ind generalizing m with
  | hleaf L => 
    intro n h
    cases n <;> try rfl
    have := h _ .here
    simp at this
    simp [ietfNode, leafIncluded, hw, hfl, this]
  | hll L => 
    intro n h
    cases n <;> try rfl
    have := h _ .here
    simp at this
    simp [ietfNode, llIncluded, hw, hfl, this]
  | hcont pres kids ih =>
    intro n h
    cases n <;> try rfl
    rename_i ch pr ns
    have hp := h _ .here
    simp at hp
    have hk : ∀ (ks : List (Meta × Schema)) (ns : List Inst), (∀ k ∈ ks, k ∈ kids) → (∀ n ∈ ns, Untouched n) →
        ietfKids o (some m.ns) ks ns = .ok [] := by
      intro ks
      induction ks with
      | nil => intro ns _ _; simp [ietfKids]
      | cons k ks ihk =>
        intro ns h1 h2
        cases ns with
        | nil => simp [ietfKids]
        | cons n ns =>
          simp [ietfKids, ih k (h1 k (by simp)) (h2 n (by simp)), ihk ns (fun k hk => h1 k (by simp [hk])) (fun n hn => h2 n (by simp [hn]))]
    simp only [ietfNode, hk kids ns (fun _ h => h) (fun n hn x hx => h x (.field hn hx)), hp]
    rfl
  | hlist info kids ih =>
    intro n h
    cases n <;> try rfl
    have hp := h _ .here
    simp at hp
    subst hp
    rfl

theorem ietfKids_nil {o : DumpOpt} {pns : Option Str} {ks : List (Meta × Schema)} {ns : List Inst}
    (h : ietfKids o pns ks ns = .ok []) {i : Nat} {k : Meta × Schema} {n : Inst} (hk : ks[i]? = some k)
    (hn : ns[i]? = some n) : ietfNode o k.1 k.2 n = .ok none := by
  induction ks generalizing ns i with
  | nil => simp at hk
  | cons k' ks ih =>
    cases ns with
    | nil => simp at hn
    | cons n' ns =>
      simp only [ietfKids] at h
      cases h1 : ietfNode o k'.1 k'.2 n' with
      | error e => simp [h1] at h
      | ok r =>
        cases h2 : ietfKids o pns ks ns with
        | error e => cases r <;> simp [h1, h2] at h
        | ok ms =>
          cases r with
          | some j => simp [h1, h2] at h
          | none =>
            simp [h1, h2] at h
            subst h
            cases i with
            | zero => simp at hk hn; subst hk hn; exact h1
            | succ i => exact ih h2 (by simpa using hk) (by simpa using hn)

theorem freshKids_noHas {b : Bool} {kids : List (Meta × Schema)} : ∀ n ∈ freshKids kids, ¬ Has b n :=
  fun _ h => noData_freshKids h

theorem cont_rt {g : LoadOpt} {m : Meta} {pres : Bool} {kids : List (Meta × Schema)} {n : Inst} {above : List Str}
    (hf : Choices st above m.choice (.cont pres kids)) (h : Every (IetfReady g.repr) m (.cont pres kids) n)
    (hrt : ∀ k ∈ kids, ∀ n above, Choices st above k.1.choice k.2 → Every (IetfReady g.repr) k.1 k.2 n → KidRT st g above k.1 k.2 n) :
    KidRT st g above m (.cont pres kids) n := by
  cases n <;> simp only [Every, IetfReady] at h
  rename_i ch pr ns
  obtain ⟨⟨hone, hnames, hpres⟩, hev⟩ := h
  rw [everyKids_iff] at hev
  simp only [Choices] at hf
  have hkid : ∀ (j : Nat) k n, kids[j]? = some k → ns[j]? = some n → KidRT st g (choiceNames kids ++ above) k.1 k.2 n :=
    fun j k n a b => hrt k (List.mem_of_getElem? a) n _ (flatKids_mem hf (List.mem_of_getElem? a)).2.2 (hev.2 j k n a b)
  have main := fun (ch0 pr0 : Bool) => members_rt (g := g) (wrapped := true) (pres := pres) (pns := some m.ns) (keys := []) (fun _ => hf) (fun _ => rfl) (.inl rfl)
    hnames hev.1 (fun _ => hone) hkid kids ns 0 (freshKids kids) ch0 pr0 rfl rfl (freshKids_length _)
    (by intro j kj cj nj a b _; rw [freshKids_get, a] at b; simp at b; exact .inl b.symm)
    (by intro j kj cj nj a; omega)
    (by intro j kj cj nj _ a b _; rw [freshKids_get, a] at b; simp at b ⊢; exact b.symm)
  cases hm : (ietfKids {} (some m.ns) kids ns) with
  | error e => 
    obtain ⟨ms, _, _, _, _, e1, _⟩ := main false false
    rw [hm] at e1; simp at e1
  | ok ms =>
    by_cases hnone : ms = [] ∧ pr = false
    · obtain ⟨rfl, rfl⟩ := hnone
      left
      obtain ⟨ms, ch', pr', cs', sg, e1, e2, e3, e4, e5, e6⟩ := main false false
      rw [hm] at e1
      simp only [Except.ok.injEq] at e1
      subst e1
      rw [members_nil] at e2
      simp only [Out.same, Out.mk.injEq, Inst.cont.injEq] at e2
      obtain ⟨⟨rfl, rfl, rfl⟩, rfl, -⟩ := e2
      refine ⟨by simp [ietfNode, hm], by simp only [SameData, fresh]; exact ⟨by simp, e3⟩, ?_⟩
      rw [has_cont]
      rintro (h | ⟨c, hc, hd⟩)
      · simp at h
      · obtain ⟨i, hi, rfl⟩ := List.getElem_of_mem hc
        have hi' : i < kids.length := by omega
        have hnil := ietfKids_nil hm (List.getElem?_eq_getElem hi') (List.getElem?_eq_getElem hi)
        rcases hkid i kids[i] ns[i] (List.getElem?_eq_getElem hi') (List.getElem?_eq_getElem hi) with ⟨_, _, h⟩ | ⟨j, n', sg, h, _⟩
        · exact h hd
        · rw [hnil] at h; simp at h
    · right
      have hw : ietfNode {} m (.cont pres kids) (.cont ch pr ns) = .ok (some (.obj ms)) := by
        simp only [ietfNode, hm]
        by_cases h : ms = []
        · subst h
          simp only [true_and, Bool.not_eq_false] at hnone
          subst hnone; rfl
        · simp [h]
      -- presence
      have hpr : pres = true → pr = true := by
        intro hp
        cases hpr : pr with
        | true => rfl
        | false =>
          exfalso
          have hun := hpres hp hpr
          have : ietfNode {} m (.cont pres kids) (.cont ch pr ns) = .ok none := by
            have hnil : ∀ (ks : List (Meta × Schema)) (ns : List Inst), (∀ n ∈ ns, Untouched n) →
                ietfKids {} (some m.ns) ks ns = .ok [] := by
              intro ks
              induction ks with
              | nil => intro ns _; simp [ietfKids]
              | cons k ks ihk =>
                intro ns h2
                cases ns with
                | nil => simp [ietfKids]
                | cons n ns => simp [ietfKids, untouched_node (o := {}) rfl rfl (h2 n (by simp)), ihk ns (fun n hn => h2 n (by simp [hn]))]
            simp [ietfNode, hnil kids ns hun, hpr]
          rw [hw] at this; simp at this
      cases pres with
      | true =>
        have := hpr rfl
        subst this
        obtain ⟨ms', ch', pr', cs', sg, e1, e2, e3, e4, e5, e6⟩ := main true true
        rw [hm] at e1
        simp only [Except.ok.injEq] at e1
        subst e1
        refine ⟨.obj ms, .cont ch' pr' cs', m.choice :: sg, hw, ?_, ?_, ?_, ?_⟩
        · unfold ietfChild
          simp only [markPresent, fresh, Out.andThen, e2, List.singleton_append]
        · simp only [SameData]
          exact ⟨fun _ => (e5 (.inr rfl)).symm, e3⟩
        · exact good_append (good_own ..) e4
        · intro hh; exact absurd ((has_cont ..).2 (.inl ⟨rfl, rfl⟩)) hh
      | false =>
        obtain ⟨ms', ch', pr', cs', sg, e1, e2, e3, e4, e5, e6⟩ := main false false
        rw [hm] at e1
        simp only [Except.ok.injEq] at e1
        subst e1
        refine ⟨.obj ms, .cont ch' pr' cs', sg, hw, ?_, ?_, e4, ?_⟩
        · unfold ietfChild
          simp only [markPresent, Out.same, fresh, Out.andThen, e2, List.nil_append]
        · simp only [SameData]
          exact ⟨by simp, e3⟩
        · intro hh
          obtain ⟨q1, q2, q3, q4⟩ := e6 (fun n hn h => hh ((has_cont ..).2 (.inr ⟨n, hn, h⟩)))
          exact ⟨q1, by rw [q2, q3, q4]; rfl⟩

end Pyb
