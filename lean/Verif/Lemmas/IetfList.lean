import Verif.Lemmas.Ietf

namespace Pyb
open Py Spec

variable {st : Bool}

/-! ## Looking up members -/

theorem ietfName_inj {pns : Option Str} {kids : List (Meta × Schema)} (h : GoodNames kids) :
    (kids.map fun k => ietfName pns k.1).Nodup := by
  have h2 : (kids.map fun k => safeName (localKey (ietfName pns k.1))).Nodup := by
    have : (kids.map fun k => safeName (localKey (ietfName pns k.1))) = kids.map fun k => safeName k.1.name := by
      apply List.map_congr_left
      intro k hk
      rw [localKey_name (h.1 k hk).1]
    rw [this]; exact h.2
  have e : (kids.map fun k => safeName (localKey (ietfName pns k.1))) =
      (kids.map fun k => ietfName pns k.1).map (fun s => safeName (localKey s)) := by simp
  rw [e] at h2
  exact List.Pairwise.of_map _ (fun _ _ h1 h2 => h1 (by rw [h2])) h2

theorem ietfKids_sub {o : DumpOpt} {pns : Option Str} {ks : List (Meta × Schema)} {ns : List Inst} {ms : List (Str × J)}
    (h : ietfKids o pns ks ns = .ok ms) {x : Str × J} (hx : x ∈ ms) :
    ∃ (i : Nat) (k : Meta × Schema) (n : Inst), ks[i]? = some k ∧ ns[i]? = some n ∧ x.1 = ietfName pns k.1 ∧
      ietfNode o k.1 k.2 n = .ok (some x.2) := by
  induction ks generalizing ns ms with
  | nil => simp [ietfKids] at h; subst h; simp at hx
  | cons k ks ih =>
    cases ns with
    | nil => simp [ietfKids] at h; subst h; simp at hx
    | cons n ns =>
      simp only [ietfKids] at h
      cases h1 : ietfNode o k.1 k.2 n with
      | error e => simp [h1] at h
      | ok r =>
        cases h2 : ietfKids o pns ks ns with
        | error e => cases r <;> simp [h1, h2] at h
        | ok ms' =>
          have tl : x ∈ ms' → ∃ (i : Nat) (k' : Meta × Schema) (n' : Inst), (k :: ks)[i]? = some k' ∧ (n :: ns)[i]? = some n' ∧
              x.1 = ietfName pns k'.1 ∧ ietfNode o k'.1 k'.2 n' = .ok (some x.2) := by
            intro hx
            obtain ⟨i, k', n', a, b, c, d⟩ := ih h2 hx
            exact ⟨i + 1, k', n', by simpa using a, by simpa using b, c, d⟩
          cases r with
          | none => simp [h1, h2] at h; subst h; exact tl hx
          | some j =>
            simp [h1, h2] at h
            subst h
            rcases List.mem_cons.1 hx with rfl | hx
            · exact ⟨0, k, n, rfl, rfl, rfl, h1⟩
            · exact tl hx

theorem ietfKids_lookup {o : DumpOpt} {pns : Option Str} {ks : List (Meta × Schema)} {ns : List Inst} {ms : List (Str × J)}
    (h : ietfKids o pns ks ns = .ok ms) (hd : (ks.map fun k => ietfName pns k.1).Nodup) {i : Nat} {k : Meta × Schema} {n : Inst} {j : J}
    (hk : ks[i]? = some k) (hn : ns[i]? = some n) (hj : ietfNode o k.1 k.2 n = .ok (some j)) :
    jget ms (ietfName pns k.1) = some j := by
  induction ks generalizing ns ms i with
  | nil => simp at hk
  | cons k' ks ih =>
    cases ns with
    | nil => simp at hn
    | cons n' ns =>
      simp only [ietfKids] at h
      simp only [List.map_cons, List.nodup_cons] at hd
      cases h1 : ietfNode o k'.1 k'.2 n' with
      | error e => simp [h1] at h
      | ok r =>
        cases h2 : ietfKids o pns ks ns with
        | error e => cases r <;> simp [h1, h2] at h
        | ok ms' =>
          cases i with
          | zero =>
            simp at hk hn; subst hk hn
            rw [h1] at hj; simp at hj; subst hj
            simp [h1, h2] at h; subst h
            simp [jget]
          | succ i =>
            have hk' : ks[i]? = some k := by simpa using hk
            have hne : ietfName pns k.1 ≠ ietfName pns k'.1 := by
              intro e; exact hd.1 (e ▸ List.mem_map.2 ⟨k, List.mem_of_getElem? hk', rfl⟩)
            have := ih h2 hd.2 hk' (by simpa using hn)
            cases r with
            | none => simp [h1, h2] at h; subst h; exact this
            | some j' =>
              simp [h1, h2] at h
              subst h
              simp only [jget, List.lookup_cons]
              rw [beq_eq_false_iff_ne.2 hne]
              exact this

/-! ## The key leaves of an entry -/

section
variable {g : LoadOpt} {mns : Str} {info : ListInfo} {kids : List (Meta × Schema)} {ns : List Inst}

/-- What is known of a key leaf. -/
theorem key_known (hev : EveryKids (IetfReady g.repr) kids ns) {i : Nat} (hb : KeyBack g.repr mns kids ns i) :
    ∃ m L v j, kids[i]? = some (m, .leaf L) ∧ ns[i]? = some (.leaf v true) ∧ m.ns = mns ∧
      ietfNode {} m (.leaf L) (.leaf v true) = .ok (some j) ∧ keyRaw g.repr kids ns i = jPy g.repr j ∧
      L.set (jPy g.repr j) = .ok v ∧ ∀ c own, ietfChild g (.leaf L) own true c j = Out.same c := by
  obtain ⟨m, L, v, h1, h2, h3, h4⟩ := hb
  have hr := every_self ((everyKids_iff.1 hev).2 i _ _ h1 h2)
  simp only [IetfReady, forall_const] at hr
  obtain ⟨j, j', q1, q2, q3, -⟩ := hr
  have hraw : keyRaw g.repr kids ns i = jPy g.repr j := by simp [keyRaw, h1, h2, q1]
  refine ⟨m, L, v, j, h1, h2, h3, by simp [ietfNode, leafIncluded, q1, Except.map], hraw, by rw [← hraw]; exact h4, ?_⟩
  intro c own
  cases j with
  | obj ms => exact absurd rfl (q3 ms)
  | arr xs => cases xs <;> unfold ietfChild <;> simp [ietfStd]
  | _ => unfold ietfChild; simp [ietfStd]

theorem elemKeys_ok (hnames : GoodNames kids) (hev : EveryKids (IetfReady g.repr) kids ns) {ms : List (Str × J)}
    (hm : ietfKids {} (some mns) kids ns = .ok ms) : ∀ (is : List Nat), (∀ i ∈ is, KeyBack g.repr mns kids ns i) →
    ∃ js, elemKeys (keyNames ⟨is, info.ordered⟩ kids) ms = .ok js ∧
      js.map (jPy g.repr) = is.map (keyRaw g.repr kids ns) := by
  intro is
  induction is with
  | nil => intro _; exact ⟨[], rfl, rfl⟩
  | cons i is ih =>
    intro h
    obtain ⟨js, e1, e2⟩ := ih fun i hi => h i (by simp [hi])
    obtain ⟨m, L, v, j, h1, h2, h3, h4, h5, h6, _⟩ := key_known hev (h i (by simp))
    have hl := ietfKids_lookup hm (ietfName_inj hnames) h1 h2 h4
    simp only [ietfName, h3, if_true] at hl
    refine ⟨j :: js, ?_, by simp [e2, h5]⟩
    simp only [elemKeys, keyNames] at e1 ⊢
    simp only [List.map_cons, List.mapM_cons, h1, hl, e1]
    rfl

theorem setKeys_rt {above : List Str} {own : Option Choice} (hf : ChoicesKids st above own (choiceNames kids ++ above) kids)
    (hn : ns.length = kids.length) (hone : OneCase kids ns) (hev : EveryKids (IetfReady g.repr) kids ns) :
    ∀ (is : List Nat) (p : Nat) (ch : Bool) (cs : List Inst), info.keys.drop p = is →
      (∀ i ∈ is, KeyBack g.repr mns kids ns i) → cs.length = kids.length →
      (∀ (j : Nat) kj cj nj, kids[j]? = some kj → cs[j]? = some cj → ns[j]? = some nj → cj = fresh kj.2 ∨ Has true nj) →
      ∃ ch' cs', setKeys (entryCls info kids) p (is.map (keyRaw g.repr kids ns)) (.cont ch false cs) = .ok (.cont ch' false cs') ∧
        cs'.length = kids.length ∧ ∀ j : Nat, cs'[j]? = if j ∈ is then ns[j]? else cs[j]? := by
  intro is
  induction is with
  | nil => intro p ch cs _ _ hl _; exact ⟨ch, cs, rfl, hl, by simp⟩
  | cons i is ih =>
    intro p ch cs hp hk hl hcs
    obtain ⟨m, L, v, j, h1, h2, h3, h4, h5, h6, -⟩ := key_known hev (hk i (by simp))
    have hp0 : info.keys[p]? = some i := by
      have : (info.keys.drop p)[0]? = some i := by rw [hp]; rfl
      simpa using this
    have hp1 : info.keys.drop (p + 1) = is := by
      have := congrArg (List.drop 1) hp
      simpa [List.drop_drop, Nat.add_comm] using this
    have hic : i < cs.length := hl ▸ (List.getElem?_eq_some_iff.1 h1).1
    have hhas : Has true (.leaf v true) := (has_leaf ..).2 rfl
    obtain ⟨ch1, pr1, q1, q2, _⟩ := hold_step (st := st) (above := above) (wrapped := true) (pres := false) (po := none) (ch := ch) (pr := false)
      (o := leafSet L m.choice (cs.getD i (fresh (.leaf L))) (jPy g.repr j)) (fun _ => rfl) h1 hl hn (fun _ => hone) hcs
      (leafSet_good ..) (by intro x hx hnot; rw [h2] at hx; simp at hx; subst hx; exact absurd hhas hnot)
    have q2 := q2 (.inl rfl)
    subst q2
    have hset : leafSet L m.choice (cs.getD i (fresh (.leaf L))) (jPy g.repr j) = ⟨.leaf v true, [m.choice, none], none⟩ := by
      simp [leafSet, h6]
    simp only [holdPut, if_true, hset] at q1
    have hkey : (entryCls info kids).setKey (.cont ch false cs) p (keyRaw g.repr kids ns i) =
        .ok (.cont ch1 false (cs.set i (.leaf v true))) := by
      simp only [entryCls, hp0, keySet, h1, h5, Out.toExcept, hset]
      rw [q1]
      rfl
    obtain ⟨ch', cs', r1, r2, r3⟩ := ih (p + 1) ch1 (cs.set i (.leaf v true)) hp1 (fun i hi => hk i (by simp [hi])) (by simpa using hl) (by
      intro j kj cj nj a b c
      by_cases e : j = i
      · subst e; rw [h2] at c; simp at c; subst c; exact .inr hhas
      · rw [List.getElem?_set_ne (Ne.symm e)] at b; exact hcs j kj cj nj a b c)
    refine ⟨ch', cs', ?_, r2, ?_⟩
    · simp only [List.map_cons, setKeys, hkey]
      exact r1
    · intro j
      rw [r3 j]
      by_cases e : j = i
      · subst e
        rw [List.getElem?_set_self hic, h2]
        simp
      · rw [List.getElem?_set_ne (Ne.symm e)]
        simp [e]

/-- A new entry with its key leaves set. -/
theorem newEntry_rt {above : List Str} {own : Option Choice} (hf : ChoicesKids st above own (choiceNames kids ++ above) kids)
    (hone : OneCase kids ns) (hev : EveryKids (IetfReady g.repr) kids ns)
    (hk : ∀ i ∈ info.keys, KeyBack g.repr mns kids ns i) :
    ∃ ch cs, mkEntry (entryCls info kids) false none (info.keys.map (keyRaw g.repr kids ns)) = .ok (.cont ch false cs) ∧
      cs.length = kids.length ∧ ∀ j : Nat, cs[j]? = if j ∈ info.keys then ns[j]? else (freshKids kids)[j]? := by
  obtain ⟨ch, cs, h1, h2, h3⟩ := setKeys_rt (info := info) (mns := mns) hf (everyKids_iff.1 hev).1 hone hev info.keys 0 false (freshKids kids) rfl hk
    (freshKids_length _) (by intro j kj cj nj a b _; rw [freshKids_get, a] at b; simp at b; exact .inl b.symm)
  exact ⟨ch, cs, h1, h2, h3⟩

theorem sameData_leaf {L : LeafCls} {v : PyVal} {ch : Bool} : SameData (.leaf L) (.leaf v ch) (.leaf v ch) := by
  simp [SameData]

/-- Reading an entry into a new one with its key leaves set. -/
theorem entry_rt {above : List Str} {own : Option Choice} (hf : ChoicesKids st above own (choiceNames kids ++ above) kids)
    (hnames : GoodNames kids) (hone : OneCase kids ns) (hev : EveryKids (IetfReady g.repr) kids ns)
    (hk : ∀ i ∈ info.keys, KeyBack g.repr mns kids ns i)
    (hrt : ∀ (j : Nat) k n, kids[j]? = some k → ns[j]? = some n → KidRT st g (choiceNames kids ++ above) k.1 k.2 n)
    {ch : Bool} {cs : List Inst} (hl : cs.length = kids.length)
    (hcs : ∀ j : Nat, cs[j]? = if j ∈ info.keys then ns[j]? else (freshKids kids)[j]?) :
    ∃ ms e sg, ietfKids {} (some mns) kids ns = .ok ms ∧
      ietfElem g kids info.keys (.cont ch false cs) (.obj ms) = ⟨e, sg, none⟩ ∧ SameKids kids ns e.kids ∧
      GoodSigs st above own sg := by
  obtain ⟨ms, ch', pr', cs', sg, e1, e2, e3, e4, -⟩ := members_rt (g := g) (wrapped := true) (pres := false) (po := none)
    (pns := some mns) (keys := info.keys) (fun _ => hf) (fun _ => rfl) (.inr rfl)
    hnames (everyKids_iff.1 hev).1 (fun _ => hone) hrt kids ns 0 cs ch false rfl rfl hl
    (by
      intro j kj cj nj a b c
      rw [hcs j] at b
      split at b
      · rename_i hj
        obtain ⟨m, L, v, _, h1, h2, _⟩ := key_known hev (hk j hj)
        rw [h2] at c; simp at c; subst c
        exact .inr ((has_leaf ..).2 rfl)
      · rw [freshKids_get, a] at b; simp at b; exact .inl b.symm)
    (by intro j kj cj nj a; omega)
    (by
      intro j kj cj nj _ a b c
      rw [hcs j] at b
      split at b
      · rename_i hj
        rw [if_pos hj]
        obtain ⟨m, L, v, jj, h1, h2, h3, h4, h5, h6, h7⟩ := key_known hev (hk j hj)
        rw [h2] at c b; rw [h1] at a
        simp at a b c; subst a b c
        exact ⟨sameData_leaf, (has_leaf ..).2 rfl, jj, h4, h7 _ _⟩
      · rename_i hj
        rw [if_neg hj]
        rw [freshKids_get, a] at b; simp at b; exact b.symm)
  refine ⟨ms, .cont ch' pr' cs', sg, e1, ?_, e3, e4⟩
  unfold ietfElem
  exact e2

end

/-! ## The entries of a list -/

/-- The key an entry is stored under. -/
def storedKey (repr : J → Str) (info : ListInfo) (kids : List (Meta × Schema)) (ns : List Inst) : PyVal :=
  match info.keys with
  | [i] => keyRaw repr kids ns i
  | is => .str (keyText (is.map (keyRaw repr kids ns)))

theorem join_last {l : List Str} {s : Str} {c : Char} (hne : l ≠ []) (h : l.getLastD [] = s ++ [c]) :
    ∃ t, join py!" " l = t ++ [c] := by
  induction l with
  | nil => exact absurd rfl hne
  | cons a l ih =>
    cases l with
    | nil => simp at h; exact ⟨s, by simp [join, h]⟩
    | cons b l =>
      obtain ⟨t, e⟩ := ih (by simp) (by simpa using h)
      exact ⟨a ++ py!" " ++ t, by simp [join, e]⟩

theorem flatten_join (l : List Str) (hne : l ≠ []) : (l.map fun s => s ++ [' ']).flatten = join py!" " l ++ [' '] := by
  induction l with
  | nil => exact absurd rfl hne
  | cons a l ih =>
    cases l with
    | nil => simp [join]
    | cons b l =>
      have := ih (by simp)
      simp only [List.map_cons, List.flatten_cons] at this ⊢
      rw [this]
      simp [join]

/-- The text looked up is the text stored under. -/
theorem lookupText {raws : List PyVal} {s : Str} {c : Char} (hne : raws ≠ []) (hc : c ≠ ' ')
    (h : (raws.map PyVal.toStr).getLastD [] = s ++ [c]) :
    rstripBy (· = ' ') ((raws.map fun r => r.toStr ++ [' ']).flatten) = keyText raws := by
  have e : (raws.map fun r => r.toStr ++ [' ']) = (raws.map PyVal.toStr).map fun s => s ++ [' '] := by simp
  obtain ⟨t, ht⟩ := join_last (by simpa using hne) h
  rw [e, flatten_join _ (by simpa using hne), keyText, ht, rstrip_space _ _ hc]

section
variable {g : LoadOpt} {mns : Str} {info : ListInfo} {kids : List (Meta × Schema)} {above : List Str} {own : Option Choice}

theorem withEntry_last {ch : Bool} {acc : Members Inst} {k : PyVal} {e : Inst} {f : Inst → Out}
    (h : ∀ a ∈ acc, pyEq a.1 k = false) :
    withEntry (.list ch (acc ++ [(k, e)])) k f = ⟨.list ch (acc ++ [(k, (f e).inst)]), (f e).sigs, (f e).err⟩ := by
  have hf : (acc ++ [(k, e)]).find? (fun q => pyEq q.1 k) = some (k, e) := by
    rw [List.find?_append, List.find?_eq_none.2 (by intro x hx; simp [h x hx])]
    simp [pyEq_refl]
  have hs : ∀ e', store (acc ++ [(k, e)]) k e' = acc ++ [(k, e')] := by
    intro e'
    clear hf
    induction acc with
    | nil => simp [store, pyEq_refl]
    | cons a acc ih =>
      have := h a (by simp)
      simp [store, this, ih (fun a ha => h a (by simp [ha]))]
  simp only [withEntry, hf, hs]

/-- The entry for one element. -/
theorem ietfEntry_rt (hu : FreshUuid g.uuid) (hf : ChoicesKids st above own (choiceNames kids ++ above) kids) {ch : Bool}
    {acc : Members Inst} {ns : List Inst} (hnames : GoodNames kids) (hone : OneCase kids ns)
    (hev : EveryKids (IetfReady g.repr) kids ns) (hk : ∀ i ∈ info.keys, KeyBack g.repr mns kids ns i)
    (h1 : ∀ i, info.keys = [i] → keyRaw g.repr kids ns i ≠ .none ∧ keyRaw g.repr kids ns i ≠ .str [] ∧
      hashable (keyRaw g.repr kids ns i) = true)
    (h2 : 2 ≤ info.keys.length → ∃ s c, ((info.keys.map (keyRaw g.repr kids ns)).map PyVal.toStr).getLastD [] = s ++ [c] ∧ c ≠ ' ')
    (hacc : info.keys ≠ [] → ∀ a ∈ acc, pyEq a.1 (storedKey g.repr info kids ns) = false)
    {ms : List (Str × J)} (hm : ietfKids {} (some mns) kids ns = .ok ms) :
    ∃ k ch' cs sg, ietfEntry g info kids ch acc (.obj ms) = (⟨.list ch (acc ++ [(k, .cont ch' false cs)]), sg, none⟩, k) ∧
      (∀ a ∈ acc, pyEq a.1 k = false) ∧ (info.keys ≠ [] → k = storedKey g.repr info kids ns) ∧ GoodSigs st above own sg ∧
      cs.length = kids.length ∧ ∀ j : Nat, cs[j]? = if j ∈ info.keys then ns[j]? else (freshKids kids)[j]? := by
  have hgood : ∀ op, GoodSigs st above own (nodeOp (.list info kids) own (.list ch acc) op).sigs :=
    fun op => nodeOp_good (S := .list info kids) hf _ _
  obtain ⟨ce, cs, n1, n2, n3⟩ := newEntry_rt (info := info) hf hone hev hk
  obtain ⟨js, e1, e2⟩ := elemKeys_ok (info := info) hnames hev hm info.keys hk
  cases hks : info.keys with
  | nil =>
    have hfr : ∀ a ∈ acc, pyEq a.1 (.str (g.uuid (acc.map Prod.fst))) = false :=
      fun a ha => hu _ _ (List.mem_map.2 ⟨a, ha, rfl⟩)
    refine ⟨.str (g.uuid (acc.map Prod.fst)), false, freshKids kids, [], ?_, hfr, by simp, good_nil .., freshKids_length _, by simp⟩
    simp only [ietfEntry, hks, nodeOp, if_true, store_new (mem_false.2 hfr)]
  | cons i rest =>
    have hacc' := hacc (by simp [hks])
    simp only [ietfEntry, hks]
    have e1' : elemKeys (keyNames info kids) ms = .ok js := e1
    simp only [e1', e2]
    cases rest with
    | nil =>
      have hst : storedKey g.repr info kids ns = keyRaw g.repr kids ns i := by simp [storedKey, hks]
      obtain ⟨a1, a2, a3⟩ := h1 i hks
      rw [hst] at hacc'
      have hmem : mem acc (keyRaw g.repr kids ns i) = false := mem_false.2 hacc'
      simp only [hks, List.map_cons, List.map_nil] at n1
      have hadd : ylAdd (entryCls info kids) info.keys.length acc (keyRaw g.repr kids ns i) =
          .ok (acc ++ [(keyRaw g.repr kids ns i, .cont ce false cs)]) := by
        simp only [ylAdd, a3, Bool.not_true, Bool.false_eq_true, if_false, hmem, a1, ylSetPos, keyParts, hks, List.length_cons,
          List.length_nil, Nat.zero_add, if_true, a2, Option.isSome_none, Bool.or_false]
        simp only [bind, Except.bind, n1, asKeyError, pure, Except.pure, store_new hmem]
      have hne : info.keys ≠ [] := by simp [hks]
      refine ⟨keyRaw g.repr kids ns i, ce, cs, addSigs info kids acc (keyRaw g.repr kids ns i), ?_, hacc', fun _ => hst.symm, ?_, n2, by simpa [hks] using n3⟩
      · simp only [if_true, hks, List.map_cons, List.map_nil, List.headD_cons, a3, Bool.not_true, Bool.false_eq_true, if_false, hmem, nodeOp, reduceCtorEq]
        rw [hks] at hadd
        simp only [List.length_cons, List.length_nil] at hadd ⊢
        rw [hadd]
        rfl
      · have := hgood (.add (keyRaw g.repr kids ns i))
        simpa only [nodeOp, hne, if_false, listOut_sigs] using this
    | cons i2 rest =>
      have hst : storedKey g.repr info kids ns = .str (keyText (info.keys.map (keyRaw g.repr kids ns))) := by simp [storedKey, hks]
      obtain ⟨s, c, l1, l2⟩ := h2 (by simp [hks])
      have hnm : namedKey (info.keys.map (keyRaw g.repr kids ns)) = .str (keyText (info.keys.map (keyRaw g.repr kids ns))) := rfl
      have hlt := lookupText (by simp [hks]) l2 l1
      rw [hst] at hacc'
      have hmem := mem_false.2 hacc'
      have hne : info.keys ≠ [] := by simp [hks]
      generalize hraw : info.keys.map (keyRaw g.repr kids ns) = raws at *
      have hlen : raws.length = info.keys.length := by simp [← hraw]
      have hgiven : allGiven (raws.map some) = .ok raws := by
        clear hraw hlen hst hacc hacc' hmem n1 e2 hlt l1 hnm h2
        induction raws with
        | nil => rfl
        | cons r rs ih => simp [allGiven, ih, Except.map]
      have hadd : ylAddNamed (entryCls info kids) acc (raws.map some) none = .ok (acc ++ [(.str (keyText raws), .cont ce false cs)]) := by
        simp only [ylAddNamed, hgiven, bind, Except.bind, hnm, hmem, Bool.false_eq_true, if_false, Option.isSome_none, n1, asKeyError, pure, Except.pure, store_new hmem]
      refine ⟨.str (keyText raws), ce, cs, addNamedSigs info kids acc (raws.map some), ?_, hacc', fun _ => hst.symm, ?_, n2, by simpa [hks] using n3⟩
      · have hop : nodeOp (.list info kids) none (.list ch acc) (.addNamed (raws.map some)) =
            ⟨.list ch (acc ++ [(.str (keyText raws), .cont ce false cs)]), addNamedSigs info kids acc (raws.map some), none⟩ := by
          simp only [nodeOp, hne, List.length_map, hlen, ne_eq, not_true_eq_false, or_self, if_false, hadd, listOut]
        simp only [reduceCtorEq, if_false, hlt, hmem, Bool.false_eq_true, hop, hnm]
      · have := hgood (.addNamed (raws.map some))
        simpa only [nodeOp, hne, if_false, List.length_map, hlen, ne_eq, not_true_eq_false, or_self, listOut_sigs] using this

theorem sameLists_cons {kids : List (Meta × Schema)} {q : PyVal × Inst} {es : List (PyVal × Inst)} {a : PyVal × Inst}
    {fs : List (PyVal × Inst)} (h : SameKids kids q.2.kids a.2.kids)
    (ht : es.length = fs.length ∧ ∀ (i : Nat) x y, es[i]? = some x → fs[i]? = some y → SameKids kids x.2.kids y.2.kids) :
    (q :: es).length = (a :: fs).length ∧
      ∀ (i : Nat) x y, (q :: es)[i]? = some x → (a :: fs)[i]? = some y → SameKids kids x.2.kids y.2.kids := by
  refine ⟨by simp [ht.1], fun i x y hx hy => ?_⟩
  cases i with
  | zero => simp at hx hy; subst hx hy; exact h
  | succ i => exact ht.2 i x y (by simpa using hx) (by simpa using hy)

/-- Writing and reading the entries of a list. -/
theorem elems_rt (hov : g.over = false) (hu : FreshUuid g.uuid) (hf : ChoicesKids st above own (choiceNames kids ++ above) kids)
    (hnames : GoodNames kids) (hrt : ∀ k ∈ kids, ∀ n above, Choices st above k.1.choice k.2 →
      Every (IetfReady g.repr) k.1 k.2 n → KidRT st g above k.1 k.2 n) {ch : Bool} :
    ∀ (es : List (PyVal × Inst)) (acc : Members Inst),
      (∀ q ∈ es, EveryKids (IetfReady g.repr) kids q.2.kids) → (∀ q ∈ es, OneCase kids q.2.kids) →
      (∀ q ∈ es, ∀ i ∈ info.keys, KeyBack g.repr mns kids q.2.kids i) →
      (∀ q ∈ es, ∀ i, info.keys = [i] → keyRaw g.repr kids q.2.kids i ≠ .none ∧ keyRaw g.repr kids q.2.kids i ≠ .str [] ∧
        hashable (keyRaw g.repr kids q.2.kids i) = true) →
      (∀ q ∈ es, 2 ≤ info.keys.length →
        ∃ s c, ((info.keys.map (keyRaw g.repr kids q.2.kids)).map PyVal.toStr).getLastD [] = s ++ [c] ∧ c ≠ ' ') →
      (info.keys ≠ [] → ∀ a ∈ acc, ∀ q ∈ es, pyEq a.1 (storedKey g.repr info kids q.2.kids) = false) →
      (info.keys ≠ [] → es.Pairwise fun a b => pyEq (storedKey g.repr info kids a.2.kids) (storedKey g.repr info kids b.2.kids) = false) →
      ∃ xs new sg, (es.mapM fun q => (ietfKids {} (some mns) kids q.2.kids).map J.obj) = .ok xs ∧
        xs.length = es.length ∧
        ietfElems g info kids (.list ch acc) xs = ⟨.list ch (acc ++ new), sg, none⟩ ∧
        (es.length = new.length ∧ ∀ (i : Nat) x y, es[i]? = some x → new[i]? = some y → SameKids kids x.2.kids y.2.kids) ∧
        GoodSigs st above own sg := by
  intro es
  induction es with
  | nil =>
    intro acc _ _ _ _ _ _ _
    refine ⟨[], [], [], rfl, rfl, ?_, by simp, good_nil ..⟩
    unfold ietfElems
    simp [Out.same]
  | cons q es ih =>
    intro acc hev hone hkb h1 h2 hacc hpw
    have hevq := hev q (by simp)
    have hkid : ∀ (j : Nat) k n, kids[j]? = some k → q.2.kids[j]? = some n → KidRT st g (choiceNames kids ++ above) k.1 k.2 n :=
      fun j k n a b => hrt k (List.mem_of_getElem? a) n _ (flatKids_mem hf (List.mem_of_getElem? a)).2.2 ((everyKids_iff.1 hevq).2 j k n a b)
    -- what is written
    obtain ⟨ce, cs0, _, l0, hcs0⟩ := newEntry_rt (info := info) hf (hone q (by simp)) hevq (hkb q (by simp))
    obtain ⟨ms, -, -, hm, -⟩ := entry_rt (ch := ce) hf hnames (hone q (by simp)) hevq (hkb q (by simp)) hkid l0 hcs0
    obtain ⟨k, ch', cs, sg1, b1, b2, b3, b4, b5, b6⟩ := ietfEntry_rt (ch := ch) (acc := acc) hu hf hnames (hone q (by simp)) hevq
      (hkb q (by simp)) (h1 q (by simp)) (h2 q (by simp)) (fun h a ha => hacc h a ha q (by simp)) hm
    obtain ⟨ms', e, sg2, c1, c2, c3, c4⟩ := entry_rt (ch := ch') hf hnames (hone q (by simp)) hevq (hkb q (by simp)) hkid b5 b6
    rw [hm] at c1
    simp only [Except.ok.injEq] at c1
    subst c1
    obtain ⟨xs, new, sg3, d1, d2, d3, d4, d5⟩ := ih (acc ++ [(k, e)]) (fun q hq => hev q (by simp [hq])) (fun q hq => hone q (by simp [hq]))
      (fun q hq => hkb q (by simp [hq])) (fun q hq => h1 q (by simp [hq])) (fun q hq => h2 q (by simp [hq]))
      (by
        intro h a ha q' hq'
        rcases List.mem_append.1 ha with ha | ha
        · exact hacc h a ha q' (by simp [hq'])
        · simp at ha
          subst ha
          rw [b3 h]
          exact (List.pairwise_cons.1 (hpw h)).1 q' hq')
      (fun h => (List.pairwise_cons.1 (hpw h)).2)
    refine ⟨.obj ms :: xs, (k, e) :: new, sg1 ++ sg2 ++ sg3, ?_, by simp [d2], ?_, sameLists_cons c3 d4, good_append (good_append b4 c4) d5⟩
    · rw [List.mapM_cons, d1, hm]
      rfl
    · unfold ietfElems
      simp only [hov, Bool.false_eq_true, if_false, Out.same, Out.andThen, b1, withEntry_last b2, c2, d3, List.nil_append, List.append_assoc, List.singleton_append]

theorem list_rt (hov : g.over = false) (hu : FreshUuid g.uuid) {m : Meta} {n : Inst} (hf : Choices st above m.choice (.list info kids))
    (h : Every (IetfReady g.repr) m (.list info kids) n)
    (hrt : ∀ k ∈ kids, ∀ n above, Choices st above k.1.choice k.2 → Every (IetfReady g.repr) k.1 k.2 n → KidRT st g above k.1 k.2 n) :
    KidRT st g above m (.list info kids) n := by
  cases n <;> simp only [Every, IetfReady] at h
  rename_i ch es
  obtain ⟨⟨hnames, hone, hnd, hkb, hs, hm⟩, hev⟩ := h
  simp only [Choices] at hf
  have hpw : info.keys ≠ [] → es.Pairwise fun a b => pyEq (storedKey g.repr info kids a.2.kids) (storedKey g.repr info kids b.2.kids) = false := by
    intro hne
    cases hks : info.keys with
    | nil => exact absurd hks hne
    | cons i rest =>
      cases rest with
      | nil => simp only [storedKey, hks]; exact (hs i hks).2
      | cons i2 rest =>
        have := (hm (by simp [hks])).2
        refine this.imp ?_
        intro a b hab
        simp only [storedKey, hks] at hab ⊢
        cases hp : pyEq (.str (keyText (List.map (keyRaw g.repr kids a.2.kids) (i :: i2 :: rest))))
            (.str (keyText (List.map (keyRaw g.repr kids b.2.kids) (i :: i2 :: rest)))) with
        | false => rfl
        | true => exact absurd (PyVal.str.inj (pyEq_str hp)).symm hab
  obtain ⟨xs, new, sg, d1, d2, d3, d4, d5⟩ := elems_rt (ch := false) (mns := m.ns) hov hu hf hnames hrt es [] hev hone hkb
    (fun q hq i hi => (hs i hi).1 q hq) (fun q hq h => (hm h).1 q hq) (by simp) hpw
  by_cases he : es = []
  · subst he
    left
    exact ⟨rfl, by simp [SameData, fresh], by simp [has_list]⟩
  · right
    have hx : xs ≠ [] := by
      rintro rfl; exact he (List.length_eq_zero_iff.1 d2.symm)
    refine ⟨.arr xs, .list false new, sg, ?_, ?_, ?_, d5, ?_⟩
    · simp only [ietfNode]
      rw [d1]
      simp [hx]
    · unfold ietfChild
      simpa [fresh] using d3
    · simp only [SameData]; exact d4
    · intro hh; exact absurd ((has_list ..).2 (.inl ⟨rfl, he⟩)) hh

theorem node_rt (hov : g.over = false) (hu : FreshUuid g.uuid) : ∀ (S : Schema) (m : Meta) (n : Inst) (above : List Str),
    Choices st above m.choice S → Every (IetfReady g.repr) m S n → KidRT st g above m S n := by
  intro S
  induction S using Schema.ind with
  | hleaf L => intro m n above _ h; exact leaf_rt above (every_self h)
  | hll L => intro m n above _ h; exact leafList_rt above (every_self h)
  | hcont pres kids ih => intro m n above hf h; exact cont_rt hf h (fun k hk n ab => ih k hk k.1 n ab)
  | hlist info kids ih => intro m n above hf h; exact list_rt hov hu hf h (fun k hk n ab => ih k hk k.1 n ab)

/-- A whole binding. -/
theorem ietf_roundtrip (hov : g.over = false) (hu : FreshUuid g.uuid) (hf : ChoicesRoot st kids) (hnames : GoodNames kids) {ns : List Inst}
    (h : EveryKids (IetfReady g.repr) kids ns) :
    ∃ j ns', ietfDump {} kids ns = .ok j ∧ ietfLoad g kids (freshKids kids) j = (ns', none) ∧ SameKids kids ns ns' := by
  have he := everyKids_iff.1 h
  obtain ⟨ms, ch', pr', cs', sg, e1, e2, e3, -⟩ := members_rt (g := g) (wrapped := false) (pres := false) (po := none) (own := none)
    (above := []) (ab := []) (pns := none) (keys := []) (by simp) (by simp) (.inl rfl) hnames he.1 (by simp)
    (fun j k n a b => node_rt hov hu k.2 k.1 n [] (hf k (List.mem_of_getElem? a)) (he.2 j k n a b)) kids ns 0 (freshKids kids) false false rfl rfl
    (freshKids_length _)
    (by intro j kj cj nj a b _; rw [freshKids_get, a] at b; simp at b; exact .inl b.symm)
    (by intro j kj cj nj a; omega)
    (by intro j kj cj nj _ a b _; rw [freshKids_get, a] at b; simp at b ⊢; exact b.symm)
  refine ⟨.obj ms, cs', by simp [ietfDump, e1, Except.map], ?_, e3⟩
  simp only [ietfLoad, e2, Inst.kids]

end

end Pyb
