import Verif.Lemmas.Native

namespace Pyb
open Py Spec

variable {st : Bool}

/-! ## Containers -/

theorem untouched_nkids {kids : List (Meta × Schema)} (ih : ∀ k ∈ kids, ∀ n, Untouched n → nativeNode k.2 n = .ok none) :
    ∀ (ks : List (Meta × Schema)) (ns : List Inst), (∀ k ∈ ks, k ∈ kids) → (∀ n ∈ ns, Untouched n) → nativeKids ks ns = .ok [] := by
  intro ks
  induction ks with
  | nil => intro ns _ _; simp [nativeKids]
  | cons k ks ihk =>
    intro ns h1 h2
    cases ns with
    | nil => simp [nativeKids]
    | cons n ns =>
      simp [nativeKids, ih k (h1 k (by simp)) _ (h2 n (by simp)), ihk ns (fun k hk => h1 k (by simp [hk])) (fun n hn => h2 n (by simp [hn]))]

theorem untouched_nnode : ∀ {S : Schema} {n : Inst}, Untouched n → nativeNode S n = .ok none := by
  intro S
  induction S using Schema.ind with
  | hleaf L =>
    intro n h
    cases n <;> try rfl
    have := h _ .here
    simp at this
    simp [nativeNode, this]
  | hll L =>
    intro n h
    cases n <;> try rfl
    have := h _ .here
    simp at this
    simp [nativeNode, this]
  | hcont pres kids ih =>
    intro n h
    cases n <;> try rfl
    rename_i ch pr ns
    have hp := h _ .here
    simp at hp
    simp only [nativeNode, untouched_nkids (fun k hk n => ih k hk) kids ns (fun _ h => h) (fun n hn x hx => h x (.field hn hx)), hp]
    simp
  | hlist info kids ih =>
    intro n h
    cases n <;> try rfl
    have hp := h _ .here
    simp at hp
    subst hp
    rfl

theorem nKids_nil {ks : List (Meta × Schema)} {ns : List Inst} (h : nativeKids ks ns = .ok []) {i : Nat} {k : Meta × Schema} {n : Inst}
    (hk : ks[i]? = some k) (hn : ns[i]? = some n) : nativeNode k.2 n = .ok none := by
  induction ks generalizing ns i with
  | nil => simp at hk
  | cons k' ks ih =>
    cases ns with
    | nil => simp at hn
    | cons n' ns =>
      simp only [nativeKids] at h
      cases h1 : nativeNode k'.2 n' with
      | error e => simp [h1] at h
      | ok r =>
        cases h2 : nativeKids ks ns with
        | error e => cases r <;> simp [h1, h2] at h
        | ok ms' =>
          cases r with
          | some j => simp [h1, h2] at h
          | none =>
            simp [h1, h2] at h
            subst h
            cases i with
            | zero => simp at hk hn; subst hk hn; exact h1
            | succ i => exact ih h2 (by simpa using hk) (by simpa using hn)

theorem nCont_rt {g : LoadOpt} {m : Meta} {pres : Bool} {kids : List (Meta × Schema)} {n : Inst} {above : List Str}
    (hf : Choices st above m.choice (.cont pres kids)) (h : Every (NativeReady g.repr) m (.cont pres kids) n)
    (hrt : ∀ k ∈ kids, ∀ n c above, Choices st above k.1.choice k.2 → Every (NativeReady g.repr) k.1 k.2 n → StartOk k n c →
      KidRTN st g above k.1 k.2 n c) :
    KidRTN st g above m (.cont pres kids) n (fresh (.cont pres kids)) := by
  cases n <;> simp only [Every, NativeReady] at h
  rename_i ch pr ns
  obtain ⟨⟨hone, hnames, hpres⟩, hev⟩ := h
  rw [everyKids_iff] at hev
  simp only [Choices] at hf
  have hkid : ∀ (j : Nat) k n c, kids[j]? = some k → ns[j]? = some n → StartOk k n c → KidRTN st g (choiceNames kids ++ above) k.1 k.2 n c :=
    fun j k n c a b => hrt k (List.mem_of_getElem? a) n c _ (flatKids_mem hf (List.mem_of_getElem? a)).2.2 (hev.2 j k n a b)
  have main := fun (ch0 pr0 : Bool) => nMembers_rt (g := g) (wrapped := true) (pres := pres) (ordered := false) (tail := []) (fun _ => hf)
    (fun _ => rfl) (.inl rfl)
    hnames (by simp) hev.1 (fun _ => hone) hkid (fun _ => nMembers_nil) kids ns 0 (freshKids kids) ch0 pr0 rfl rfl (freshKids_length _)
    (by intro j kj cj nj a b _; rw [freshKids_get, a] at b; simp at b; exact .inl b.symm)
    (by intro j kj cj nj a; omega)
    (by intro j kj cj nj _ a b _; rw [freshKids_get, a] at b; simp at b; exact .inl b.symm)
  simp only [List.append_nil] at main
  cases hm : nativeKids kids ns with
  | error e =>
    obtain ⟨ms, _, _, _, _, e1, _⟩ := main false false
    rw [hm] at e1; simp at e1
  | ok ms =>
    by_cases hnone : ms = [] ∧ (pres && pr) = false
    · obtain ⟨rfl, hpp⟩ := hnone
      left
      obtain ⟨ms, ch', pr', cs', sg, e1, e2, e3, e4, e5, e6⟩ := main false false
      rw [hm] at e1
      simp only [Except.ok.injEq] at e1
      subst e1
      rw [nMembers_nil] at e2
      simp only [Out.same, Out.mk.injEq, Inst.cont.injEq] at e2
      obtain ⟨⟨rfl, rfl, rfl⟩, rfl, -⟩ := e2
      exact ⟨by simp [nativeNode, hm, hpp], by simp only [SameData, fresh]; exact ⟨fun h => by simpa [h] using hpp, e3⟩⟩
    · right
      have hw : nativeNode (.cont pres kids) (.cont ch pr ns) = .ok (some (.obj ms)) := by
        simp only [nativeNode, hm]
        by_cases h : ms = []
        · subst h
          simp only [true_and, Bool.not_eq_false] at hnone
          simp [hnone]
        · simp [h]
      -- presence
      have hpr : pres = true → pr = true := by
        intro hp
        cases hpr : pr with
        | true => rfl
        | false =>
          exfalso
          have hun := hpres hp hpr
          have : nativeNode (.cont pres kids) (.cont ch pr ns) = .ok none := by
            simp [nativeNode, untouched_nkids (fun _ _ _ h => untouched_nnode h) kids ns (fun _ h => h) hun, hpr]
          rw [hw] at this; simp at this
      cases pres with
      | true =>
        have := hpr rfl
        subst this
        obtain ⟨ms', ch', pr', cs', sg, e1, e2, e3, e4, e5, e6⟩ := main true true
        rw [hm] at e1
        simp only [Except.ok.injEq] at e1
        subst e1
        refine ⟨.obj ms, .cont ch' pr' cs', m.choice :: sg, hw, ?_, ?_, ?_, ?_⟩
        · unfold nativeChild
          simp only [markPresent, fresh, Out.andThen, unsetAll, e2, List.singleton_append]
        · simp only [SameData]
          exact ⟨fun _ => (e5 (.inr rfl)).symm, e3⟩
        · exact good_append (good_own ..) e4
        · intro hh; exact absurd ((has_cont ..).2 (.inl ⟨rfl, rfl⟩)) hh
      | false =>
        obtain ⟨ms', ch', pr', cs', sg, e1, e2, e3, e4, e5, e6⟩ := main false false
        rw [hm] at e1
        simp only [Except.ok.injEq] at e1
        subst e1
        refine ⟨.obj ms, .cont ch' pr' cs', sg, hw, ?_, ?_, e4, ?_⟩
        · unfold nativeChild
          simp only [markPresent, Out.same, fresh, Out.andThen, unsetAll, e2, List.nil_append]
        · simp only [SameData]
          exact ⟨by simp, e3⟩
        · intro hh
          obtain ⟨q1, q2, q3, q4⟩ := e6 (fun n hn h => hh ((has_cont ..).2 (.inr ⟨n, hn, h⟩)))
          exact ⟨q1, by rw [q2, q3, q4]; rfl⟩

/-! ## The entries of a list -/

section
variable {g : LoadOpt} {info : ListInfo} {kids : List (Meta × Schema)} {above : List Str} {own : Option Choice}

theorem setKeys_start {ns : List Inst} (hn : ns.length = kids.length) (hone : OneCase kids ns) {above : List Str} {own : Option Choice} 
    (hf : ChoicesKids st above own (choiceNames kids ++ above) kids) :
    ∀ (rs : List Str) (p : Nat) (ch : Bool) (cs : List Inst), p + rs.length = info.keys.length →
      (∀ (q i : Nat) r, info.keys[p + q]? = some i → rs[q]? = some r →
        ∃ m L v w, kids[i]? = some (m, .leaf L) ∧ ns[i]? = some (.leaf v true) ∧ L.set (.str r) = .ok w) →
      cs.length = kids.length →
      (∀ (j : Nat) kj cj nj, kids[j]? = some kj → cs[j]? = some cj → ns[j]? = some nj → StartOk kj nj cj) →
      ∃ ch' cs', setKeys (entryCls info kids) p (rs.map PyVal.str) (.cont ch false cs) = .ok (.cont ch' false cs') ∧
        cs'.length = kids.length ∧
        ∀ (j : Nat) kj cj nj, kids[j]? = some kj → cs'[j]? = some cj → ns[j]? = some nj → StartOk kj nj cj := by
  intro rs
  induction rs with
  | nil => intro p ch cs _ _ hl hcs; exact ⟨ch, cs, rfl, hl, hcs⟩
  | cons r rs ih =>
    intro p ch cs hp hk hl hcs
    have hpl : p < info.keys.length := by simp at hp; omega
    obtain ⟨i, hp0⟩ : ∃ i, info.keys[p]? = some i := ⟨_, List.getElem?_eq_getElem hpl⟩
    obtain ⟨m, L, v, w, h1, h2, h6⟩ := hk 0 i r (by simpa using hp0) rfl
    have hic : i < cs.length := hl ▸ (List.getElem?_eq_some_iff.1 h1).1
    have hhas : Has true (.leaf v true) := (has_leaf ..).2 rfl
    obtain ⟨ch1, pr1, q1, q2, _⟩ := hold_step (st := st) (above := above) (wrapped := true) (pres := false) (po := none) (ch := ch) (pr := false)
      (o := leafSet L m.choice (cs.getD i (fresh (.leaf L))) (.str r)) (fun _ => rfl) h1 hl hn (fun _ => hone)
      (fun j kj cj nj a b c => startOk_has (hcs j kj cj nj a b c))
      (leafSet_good ..) (by intro x hx hnot; rw [h2] at hx; simp at hx; subst hx; exact absurd hhas hnot)
    have q2 := q2 (.inl rfl)
    subst q2
    have hset : leafSet L m.choice (cs.getD i (fresh (.leaf L))) (.str r) = ⟨.leaf w true, [m.choice, none], none⟩ := by
      simp [leafSet, h6]
    simp only [holdPut, if_true, hset] at q1
    have hkey : (entryCls info kids).setKey (.cont ch false cs) p (.str r) =
        .ok (.cont ch1 false (cs.set i (.leaf w true))) := by
      simp only [entryCls, hp0, keySet, h1, Out.toExcept, hset]
      rw [q1]
      rfl
    obtain ⟨ch', cs', r1, r2, r3⟩ := ih (p + 1) ch1 (cs.set i (.leaf w true)) (by simp at hp; omega)
      (fun q i r a b => hk (q + 1) i r (by rw [← a]; congr 1; omega) (by simpa using b)) (by simpa using hl) (by
      intro j kj cj nj a b c
      by_cases e : j = i
      · subst e
        rw [h2] at c; rw [h1] at a; rw [List.getElem?_set_self hic] at b
        simp at a b c; subst a b c
        exact .inr ⟨L, v, w, rfl, rfl, rfl⟩
      · rw [List.getElem?_set_ne (Ne.symm e)] at b; exact hcs j kj cj nj a b c)
    refine ⟨ch', cs', ?_, r2, r3⟩
    simp only [List.map_cons, setKeys, hkey]
    exact r1

theorem keyParts_texts {n : Nat} {s : Str} (h0 : s ≠ []) (h : (keyTexts n s).length = n) :
    keyParts n (.str s) = .ok ((keyTexts n s).map PyVal.str) := by
  unfold keyTexts at h ⊢
  by_cases hn : n = 1
  · subst hn; simp [keyParts, h0]
  · rw [if_neg hn] at h ⊢
    simp [keyParts, hn, h]

/-- The new entry for a key. -/
theorem nEntry_rt (hf : ChoicesKids st above own (choiceNames kids ++ above) kids) {ch : Bool} {acc : Members Inst} {ns : List Inst} {s : Str}
    (hn : ns.length = kids.length) (hone : OneCase kids ns) (hne : info.keys ≠ []) (hk : NativeKey info kids s ns)
    (hacc : ∀ a ∈ acc, pyEq a.1 (.str s) = false) :
    ∃ ch' cs sg, nativeEntry g.uuid info kids s (.list ch acc) = ⟨.list ch (acc ++ [(.str s, .cont ch' false cs)]), sg, none⟩ ∧
      GoodSigs st above own sg ∧ cs.length = kids.length ∧
      ∀ (j : Nat) kj cj nj, kids[j]? = some kj → cs[j]? = some cj → ns[j]? = some nj → StartOk kj nj cj := by
  obtain ⟨h0, hlen, hk⟩ := hk
  obtain ⟨ch', cs, e1, e2, e3⟩ := setKeys_start (info := info) hn hone hf (keyTexts info.keys.length s) 0 false (freshKids kids) (by simpa using hlen)
    (by
      intro q i r a b
      obtain ⟨m, L, v, r', w, q1, q2, q3, q4⟩ := hk q i (by simpa using a)
      rw [b] at q3; simp at q3; subst q3
      exact ⟨m, L, v, w, q1, q2, q4⟩)
    (freshKids_length _) (by intro j kj cj nj a b _; rw [freshKids_get, a] at b; simp at b; exact .inl b.symm)
  have hmem : mem acc (.str s) = false := mem_false.2 hacc
  have n1 : mkEntry (entryCls info kids) false none ((keyTexts info.keys.length s).map PyVal.str) = .ok (.cont ch' false cs) := e1
  have hadd : ylAdd (entryCls info kids) info.keys.length acc (.str s) = .ok (acc ++ [(.str s, .cont ch' false cs)]) := by
    simp only [ylAdd, hashable, Bool.not_true, Bool.false_eq_true, if_false, hmem, ylSetPos, reduceCtorEq, keyParts_texts h0 hlen,
      Option.isSome_none, Bool.or_false]
    simp only [bind, Except.bind, n1, asKeyError, pure, Except.pure, store_new hmem]
  refine ⟨ch', cs, addSigs info kids acc (.str s), ?_, ?_, e2, e3⟩
  · simp only [nativeEntry, hmem, Bool.false_eq_true, if_false, hne, nodeOp, hadd, listOut]
  · have := nodeOp_good (S := .list info kids) (own := own) hf (.list ch acc) (.add (.str s))
    simpa only [nodeOp, hne, if_false, listOut_sigs] using this

theorem nKids_names {ks : List (Meta × Schema)} {ns : List Inst} {ms : List (Str × J)} (h : nativeKids ks ns = .ok ms) :
    ∀ x ∈ ms, ∃ k ∈ ks, x.1 = k.1.name := by
  induction ks generalizing ns ms with
  | nil => simp [nativeKids] at h; subst h; simp
  | cons k ks ih =>
    cases ns with
    | nil => simp [nativeKids] at h; subst h; simp
    | cons n ns =>
      simp only [nativeKids] at h
      cases h1 : nativeNode k.2 n with
      | error e => simp [h1] at h
      | ok r =>
        cases h2 : nativeKids ks ns with
        | error e => cases r <;> simp [h1, h2] at h
        | ok ms' =>
          have tl : ∀ x ∈ ms', ∃ k' ∈ k :: ks, x.1 = k'.1.name := by
            intro x hx
            obtain ⟨k', a, b⟩ := ih h2 x hx
            exact ⟨k', by simp [a], b⟩
          cases r with
          | none => simp [h1, h2] at h; subst h; exact tl
          | some j =>
            simp [h1, h2] at h
            subst h
            intro x hx
            rcases List.mem_cons.1 hx with rfl | hx
            · exact ⟨k, by simp, rfl⟩
            · exact tl x hx

/-- The position written into an entry of a user-ordered list is read again. -/
theorem orderOf_written {ns : List Inst} {ms : List (Str × J)} (h : nativeKids kids ns = .ok ms)
    (hno : ∀ k ∈ kids, k.1.name ≠ yangOrder) (i : Nat) : orderOf (.obj (ms ++ [(yangOrder, .num i)])) = some (i : Int) := by
  have : ∀ x ∈ ms, x.1 ≠ yangOrder := by
    intro x hx
    obtain ⟨k, hk, e⟩ := nKids_names h x hx
    rw [e]; exact hno k hk
  simp only [orderOf]
  have : jget (ms ++ [(yangOrder, .num i)]) yangOrder = some (.num i) := by
    clear h
    induction ms with
    | nil => simp [jget, List.lookup]
    | cons m ms ih =>
      have hm := this m (by simp)
      have := ih fun x hx => this x (by simp [hx])
      simp only [jget] at this
      have e : (yangOrder == m.1) = false := by simpa using Ne.symm hm
      simp only [jget, List.cons_append, List.lookup, e, this]
  rw [this]

theorem putOrder_last {α : Type} {o : Int} {x : α} {kd : List (Int × α)} (h : ∀ p ∈ kd, p.1 < o) : putOrder o x kd = kd ++ [(o, x)] := by
  induction kd with
  | nil => rfl
  | cons p kd ih =>
    have := h p (by simp)
    rw [putOrder, if_neg (by omega), if_neg (by omega), ih fun p hp => h p (by simp [hp])]
    rfl

/-- Entries that are numbered in order keep it. -/
theorem split_inorder {α : Type} : ∀ (xs : List α) (i : Nat) (kd : List (Int × α)), (∀ p ∈ kd, p.1 < (i : Int)) →
    (splitOrder ((List.range' i xs.length).map (fun k : Nat => some (k : Int)) |>.zip xs) kd []).1.map Prod.snd = kd.map Prod.snd ++ xs ∧
    (splitOrder ((List.range' i xs.length).map (fun k : Nat => some (k : Int)) |>.zip xs) kd []).2 = [] := by
  intro xs
  induction xs with
  | nil => intro i kd _; simp [splitOrder]
  | cons x xs ih =>
    intro i kd h
    have := ih (i + 1) (kd ++ [((i : Int), x)]) (by
      intro p hp
      rcases List.mem_append.1 hp with hp | hp
      · have := h p hp; omega
      · simp at hp; subst hp; simp; omega)
    simp only [List.length_cons, List.range'_succ, List.map_cons, List.zip_cons_cons, splitOrder, putOrder_last h]
    refine ⟨?_, this.2⟩
    rw [this.1]
    simp

theorem zip_self {α β : Type} (xs : List (α × β)) : xs = (xs.map Prod.fst).zip (xs.map Prod.snd) := by
  induction xs with
  | nil => rfl
  | cons x xs ih => rw [List.map_cons, List.map_cons, List.zip_cons_cons, ← ih]

theorem keyOrder_inorder {α : Type} {xs : List (Option Int × α)}
    (h : xs.map Prod.fst = (List.range' 0 xs.length).map (fun k : Nat => some (k : Int))) : keyOrder true xs = xs.map Prod.snd := by
  have e := zip_self xs
  rw [h] at e
  obtain ⟨h1, h2⟩ := split_inorder (xs.map Prod.snd) 0 [] (by simp)
  simp only [List.length_map] at h1 h2
  rw [← e] at h1 h2
  simp only [keyOrder, if_true, h1, h2]
  simp

theorem nFns_length {ordered : Bool} (ms : List (Str × J)) : (nativeFns g ordered kids ms).length = ms.length := by
  induction ms with
  | nil => unfold nativeFns; rfl
  | cons m ms ih => unfold nativeFns; simp [ih]

/-- Writing and reading the entries of a list. -/
theorem nEntries_rt (hf : ChoicesKids st above own (choiceNames kids ++ above) kids) (hnames : GoodNames kids)
    (hord : info.ordered = true → ∀ k ∈ kids, k.1.name ≠ yangOrder) (hne : info.keys ≠ [])
    (hrt : ∀ k ∈ kids, ∀ n c above, Choices st above k.1.choice k.2 → Every (NativeReady g.repr) k.1 k.2 n → StartOk k n c →
      KidRTN st g above k.1 k.2 n c) {ch : Bool} :
    ∀ (es : List (PyVal × Inst)) (i : Nat) (acc : Members Inst),
      (∀ q ∈ es, EveryKids (NativeReady g.repr) kids q.2.kids) → (∀ q ∈ es, OneCase kids q.2.kids) →
      (∀ q ∈ es, ∃ s, jsonKey q.1 = .ok s ∧ NativeKey info kids s q.2.kids) →
      (∀ a ∈ acc, ∀ q ∈ es, ∀ s, jsonKey q.1 = .ok s → pyEq a.1 (.str s) = false) →
      (es.Pairwise fun a b => jsonKey a.1 ≠ jsonKey b.1) →
      ∃ ms new sg, nativeEntries info.ordered i (es.map fun q => (q.1, nativeKids kids q.2.kids)) = .ok ms ∧
        ms.length = es.length ∧
        (info.ordered = true → (nativeFns g true kids ms).map Prod.fst = (List.range' i ms.length).map (fun k : Nat => some (k : Int))) ∧
        nativeLoop g.uuid info kids ((nativeFns g info.ordered kids ms).map Prod.snd) (.list ch acc) = ⟨.list ch (acc ++ new), sg, none⟩ ∧
        (es.length = new.length ∧ ∀ (i : Nat) x y, es[i]? = some x → new[i]? = some y → SameKids kids x.2.kids y.2.kids) ∧
        GoodSigs st above own sg := by
  intro es
  induction es with
  | nil =>
    intro i acc _ _ _ _ _
    refine ⟨[], [], [], rfl, rfl, ?_, ?_, by simp, good_nil ..⟩
    · intro _; unfold nativeFns; rfl
    · unfold nativeFns; simp [nativeLoop, Out.same]
  | cons q es ih =>
    intro i acc hev hone hkb hacc hpw
    have hevq := everyKids_iff.1 (hev q (by simp))
    obtain ⟨s, hs, hk⟩ := hkb q (by simp)
    have hkid : ∀ (j : Nat) k n c, kids[j]? = some k → q.2.kids[j]? = some n → StartOk k n c →
        KidRTN st g (choiceNames kids ++ above) k.1 k.2 n c :=
      fun j k n c a b => hrt k (List.mem_of_getElem? a) n c _ (flatKids_mem hf (List.mem_of_getElem? a)).2.2 (hevq.2 j k n a b)
    have hnew : ∀ a ∈ acc, pyEq a.1 (.str s) = false := fun a ha => hacc a ha q (by simp) s hs
    obtain ⟨ch', cs, sg1, a1, a2, a3, a4⟩ := nEntry_rt (g := g) (ch := ch) (acc := acc) hf hevq.1 (hone q (by simp)) hne hk hnew
    let tail : List (Str × J) := if info.ordered then [(yangOrder, .num i)] else []
    have htail : ∀ n, nativeMembers g false true info.ordered (.cont false kids) none n tail = Out.same n := by
      intro n
      simp only [tail]
      cases info.ordered with
      | false => exact nMembers_nil
      | true =>
        simp only [if_true]
        rw [nMembers_cons]
        simp only [Bool.true_and, beq_self_eq_true, if_true, same_then, nMembers_nil]
    obtain ⟨ms1, ch2, pr2, cs2, sg2, b1, b2, b3, b4, -⟩ := nMembers_rt (g := g) (wrapped := true) (pres := false) (po := none)
      (ordered := info.ordered) (tail := tail) (fun _ => hf) (fun _ => rfl) (.inr rfl) hnames hord hevq.1 (fun _ => hone q (by simp)) hkid htail
      kids q.2.kids 0 cs ch' false rfl rfl a3 (fun j kj cj nj a b c => startOk_has (a4 j kj cj nj a b c)) (by intro j kj cj nj a; omega)
      (fun j kj cj nj _ => a4 j kj cj nj)
    obtain ⟨ms, new, sg3, d1, d2, d3, d4, d5, d6⟩ := ih (i + 1) (acc ++ [(.str s, .cont ch2 pr2 cs2)]) (fun q hq => hev q (by simp [hq]))
      (fun q hq => hone q (by simp [hq])) (fun q hq => hkb q (by simp [hq]))
      (by
        intro a ha q' hq' s' hs'
        rcases List.mem_append.1 ha with ha | ha
        · exact hacc a ha q' (by simp [hq']) s' hs'
        · simp at ha
          subst ha
          cases hp : pyEq (.str s) (.str s') with
          | false => rfl
          | true =>
            have := PyVal.str.inj (pyEq_str hp)
            have hd := (List.pairwise_cons.1 hpw).1 q' hq'
            rw [hs, hs'] at hd
            simp [this] at hd)
      (List.pairwise_cons.1 hpw).2
    have hdoc : (if info.ordered then ms1 ++ [(yangOrder, J.num i)] else ms1) = ms1 ++ tail := by
      simp only [tail]; cases info.ordered <;> simp
    refine ⟨(s, .obj (ms1 ++ tail)) :: ms, (.str s, .cont ch2 pr2 cs2) :: new, sg1 ++ sg2 ++ sg3, ?_, by simp [d2], ?_, ?_,
      sameLists_cons b3 d5, good_append (good_append a2 b4) d6⟩
    · simp only [List.map_cons, nativeEntries, hs, b1, d1, hdoc]
    · intro ho
      unfold nativeFns
      have ht : tail = [(yangOrder, .num i)] := by simp only [tail, ho, if_true]
      simp only [List.map_cons, List.length_cons, List.range'_succ, d3 ho, ht, orderOf_written b1 (hord ho)]
    · have helem : nativeElem g info.ordered kids (.cont ch' false cs) (.obj (ms1 ++ tail)) = ⟨.cont ch2 pr2 cs2, sg2, none⟩ := by
        unfold nativeElem; exact b2
      unfold nativeFns
      simp only [List.map_cons, nativeLoop, a1, Out.andThen, withEntry_last hnew, helem, d4, List.append_assoc, List.singleton_append]

theorem nList_rt {m : Meta} {n : Inst} (hf : Choices st above m.choice (.list info kids))
    (h : Every (NativeReady g.repr) m (.list info kids) n)
    (hrt : ∀ k ∈ kids, ∀ n c above, Choices st above k.1.choice k.2 → Every (NativeReady g.repr) k.1 k.2 n → StartOk k n c →
      KidRTN st g above k.1 k.2 n c) :
    KidRTN st g above m (.list info kids) n (fresh (.list info kids)) := by
  cases n <;> simp only [Every, NativeReady] at h
  rename_i ch es
  obtain ⟨⟨hnames, hone, hord, hkeys, hk, hpw⟩, hev⟩ := h
  simp only [Choices] at hf
  by_cases he : es = []
  · subst he
    left
    exact ⟨rfl, by simp [SameData, fresh], by simp [has_list]⟩
  · right
    obtain ⟨ms, new, sg, d1, d2, d3, d4, d5, d6⟩ := nEntries_rt (ch := false) hf hnames hord (hkeys he) hrt es 0 [] hev hone hk (by simp) hpw
    have hx : ms ≠ [] := by
      rintro rfl; exact he (List.length_eq_zero_iff.1 d2.symm)
    refine ⟨.obj ms, .list false new, sg, ?_, ?_, ?_, d6, ?_⟩
    · simp only [nativeNode, List.isEmpty_iff, he, if_false, d1, Except.map]
    · have hko : keyOrder info.ordered (nativeFns g info.ordered kids ms) = (nativeFns g info.ordered kids ms).map Prod.snd := by
        cases ho : info.ordered with
        | false => simp [keyOrder]
        | true =>
          have := d3 ho
          exact keyOrder_inorder (by rw [nFns_length]; exact this)
      unfold nativeChild
      simp only [hko, fresh, d4, Out.andThen, nativeClear, Out.same, List.nil_append, List.append_nil, List.isEmpty_iff, hx, if_false]
    · simp only [SameData]; exact d5
    · intro hh; exact absurd ((has_list ..).2 (.inl ⟨rfl, he⟩)) hh

theorem nNode_rt : ∀ (S : Schema) (m : Meta) (n c : Inst) (above : List Str),
    Choices st above m.choice S → Every (NativeReady g.repr) m S n → StartOk (m, S) n c → KidRTN st g above m S n c := by
  intro S
  induction S using Schema.ind with
  | hleaf L => intro m n c above _ h hs; exact nLeaf_rt above (every_self h) hs
  | hll L =>
    intro m n c above _ h hs
    rcases hs with rfl | ⟨_, _, _, hs, _⟩
    · exact nLeafList_rt above (every_self h)
    · simp at hs
  | hcont pres kids ih =>
    intro m n c above hf h hs
    rcases hs with rfl | ⟨_, _, _, hs, _⟩
    · exact nCont_rt hf h (fun k hk n c ab => ih k hk k.1 n c ab)
    · simp at hs
  | hlist info kids ih =>
    intro m n c above hf h hs
    rcases hs with rfl | ⟨_, _, _, hs, _⟩
    · exact nList_rt hf h (fun k hk n c ab => ih k hk k.1 n c ab)
    · simp at hs

/-- A whole binding. -/
theorem native_roundtrip (hov : g.over = false) (hf : ChoicesRoot st kids) (hnames : GoodNames kids) {ns : List Inst}
    (h : EveryKids (NativeReady g.repr) kids ns) :
    ∃ j ns', nativeDump kids ns = .ok j ∧ nativeLoad g kids (freshKids kids) j = (ns', none) ∧ SameKids kids ns ns' := by
  have he := everyKids_iff.1 h
  obtain ⟨ms, ch', pr', cs', sg, e1, e2, e3, -⟩ := nMembers_rt (g := g) (wrapped := false) (pres := false) (po := none) (own := none)
    (above := []) (ab := []) (ordered := false) (tail := []) (by simp) (by simp) (.inl rfl) hnames (by simp) he.1 (by simp)
    (fun j k n c a b => nNode_rt k.2 k.1 n c [] (hf k (List.mem_of_getElem? a)) (he.2 j k n a b)) (fun _ => nMembers_nil)
    kids ns 0 (freshKids kids) false false rfl rfl (freshKids_length _)
    (by intro j kj cj nj a b _; rw [freshKids_get, a] at b; simp at b; exact .inl b.symm)
    (by intro j kj cj nj a; omega)
    (by intro j kj cj nj _ a b _; rw [freshKids_get, a] at b; simp at b; exact .inl b.symm)
  refine ⟨.obj ms, cs', by simp [nativeDump, e1, Except.map], ?_, e3⟩
  simp only [List.append_nil] at e2
  simp only [nativeLoad, hov, e2, Inst.kids]

end

end Pyb
