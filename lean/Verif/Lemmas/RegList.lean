import Verif.Lemmas.RegKids

/-! # The registry follows the tree: lists -/

namespace Pyb
open Py Spec

variable {K : PyVal → Prop} {st : Bool}

/-- A leaf-list changed in place. -/
def InPlace : Op → Prop
  | .ll (.assign _) => False
  | .ll (.iadd _) => False
  | .ll _ => True
  | _ => False

/-- Nothing was raised, or the helper was not called, or a leaf-list was changed in place. -/
def CallsOk (op : Op) (err : Option Err) (calls : List RegOp) : Prop := err = none ∨ calls = [] ∨ InPlace op

/-! ## Leaves -/

theorem follows_nop {loc : List PStep} {t : Str} {S : Schema} {m : Registry} {n : Inst} {o : Out} {es : List Ev} (h1 : o.inst = n) (h2 : o.sigs = [])
    (h3 : es = []) (ht : RegTree K S n) (hg : KidAgree loc t S n m) : Follows K loc t S m o es := by
  subst h3
  exact ⟨h2.symm, trivial, by intro c hc; simp [callsOf] at hc, h1 ▸ ht, h1 ▸ hg⟩

theorem callsIn_leaf {loc : List PStep} {t : Str} {S : Schema} {o : XObj} (h : childPath S [] []) : CallsIn loc t S [.register (loc ++ [⟨t, []⟩]) o] := by
  intro c hc
  simp at hc
  subst hc
  exact ⟨[], [], rfl, h⟩

theorem leaf_follows {loc : List PStep} {t : Str} {L : LeafCls} {own : Option Choice} {n : Inst} {v : PyVal} {m : Registry}
    (hm : Held loc m) (ht : RegTree K (.leaf L) n) (hg : KidAgree loc t (.leaf L) n m)
    (hs : (leafSet L own n v).err = none ∨ callsOf (leafEvs (loc ++ [⟨t, []⟩]) L own v) = []) :
    Follows K loc t (.leaf L) m (leafSet L own n v) (leafEvs (loc ++ [⟨t, []⟩]) L own v) := by
  cases h : L.set v with
  | refused e =>
    have h1 : leafSet L own n v = ⟨n, [], some e⟩ := by simp [leafSet, h]
    exact follows_nop (by rw [h1]) (by rw [h1]) (by simp [leafEvs, h]) ht hg
  | marked e => simp [leafSet, leafEvs, h, callsOf] at hs
  | ok w =>
    simp only [leafSet, leafEvs, h]
    refine ⟨rfl, ⟨held_register hm _ _, trivial⟩, callsIn_leaf ⟨rfl, rfl⟩, .leaf .., fun ks r => ?_⟩
    simp only [callsOf, after_cons, after_nil, effect, nodeReg]
    have := hg ks r
    cases ht with
    | leaf _ v' ch' =>
    simp only [nodeReg] at this
    by_cases e : ks = [] ∧ r = []
    · rw [if_pos e, if_pos (by rw [e.1, e.2])]
    · rw [if_neg e, if_neg (by simpa using e), this, if_neg e]

/-- Putting a leaf-list in the place of another. -/
theorem ll_follows {loc : List PStep} {t : Str} {L : LLCls} {own : Option Choice} {xs ys : List PyVal} {ch : Bool} {m : Registry}
    (hm : Held loc m) (hg : KidAgree loc t (.leafList L) (.leafList xs ch) m) :
    Follows K loc t (.leafList L) m ⟨.leafList ys true, [own, none], none⟩ [.sig own, .call (.register (loc ++ [⟨t, []⟩]) llObj), .sig none] := by
  refine ⟨rfl, ⟨held_register hm _ _, trivial⟩, callsIn_leaf ⟨rfl, rfl⟩, .leafList .., fun ks r => ?_⟩
  simp only [callsOf, after_cons, after_nil, effect, nodeReg]
  have := hg ks r
  simp only [nodeReg] at this
  by_cases e : ks = [] ∧ r = []
  · rw [if_pos e, if_pos (by rw [e.1, e.2])]
  · rw [if_neg e, if_neg (by simpa using e), this, if_neg e]

theorem llApply_follows {loc : List PStep} {t : Str} {L : LLCls} {own : Option Choice} {xs : List PyVal} {ch : Bool} {op : LLOp} {m : Registry}
    (hm : Held loc m) (hg : KidAgree loc t (.leafList L) (.leafList xs ch) m)
    (hs : CallsOk (.ll op) (llApply L own xs ch op).err (callsOf (llEvs (loc ++ [⟨t, []⟩]) L own xs op))) :
    Follows K loc t (.leafList L) m (llApply L own xs ch op) (llEvs (loc ++ [⟨t, []⟩]) L own xs op) := by
  have hnop : ∀ {ys : List PyVal} {c : Bool} {sg : List (Option Choice)} {e : Option Err} {es : List Ev}, sigsOf es = sg → callsOf es = [] →
      Follows K loc t (.leafList L) m ⟨.leafList ys c, sg, e⟩ es := by
    intro ys c sg e es h1 h2
    refine ⟨h1, by rw [h2]; trivial, by rw [h2]; intro c hc; simp at hc, .leafList .., ?_⟩
    rw [h2]
    exact hg
  cases op with
  | assign v =>
    simp only [llApply, llEvs] at hs ⊢
    cases h : (llStep L.conv L.uniq L.show xs (.assign v)).2 with
    | none => exact ll_follows hm hg
    | some e => simp [h, CallsOk, callsOf, InPlace] at hs
  | iadd v =>
    simp only [llApply, llEvs] at hs ⊢
    cases h : (llStep L.conv L.uniq L.show xs (.iadd v)).2 with
    | none => exact ll_follows hm hg
    | some e => simp [h, CallsOk, callsOf, InPlace] at hs
  | _ =>
    simp only [llApply, llEvs]
    split
    · exact hnop rfl rfl
    · exact hnop rfl rfl

/-! ## Keys -/

theorem entryKeyNames_length (info : ListInfo) (kids : List (Meta × Schema)) : (entryKeyNames info kids).length = info.keys.length := by simp [entryKeyNames]

theorem keyParts_entryTexts {n : Nat} {k : PyVal} {raws : List PyVal} (h : keyParts n k = .ok raws) : raws.map PyVal.toStr = entryTexts n k := by
  obtain ⟨_, ⟨h1, rfl, _⟩ | ⟨h1, s, rfl, rfl⟩⟩ := keyParts_ok h
  · simp [entryTexts, h1]
  · simp [entryTexts, h1, Function.comp_def, PyVal.toStr]

theorem entryTexts_inj {n : Nat} {a b : PyVal} (h : entryTexts n a = entryTexts n b) : a.toStr = b.toStr := by
  simp only [entryTexts] at h
  split at h
  · simpa using h
  · rw [← join_splitOn ' ' a.toStr, h, join_splitOn]

theorem entryTexts_named {raws : List PyVal} {n : Nat} (hn : raws.length = n) (h0 : n ≠ 0) (h : ∀ r ∈ raws, KeyText r.toStr) :
    entryTexts n (namedKey raws) = raws.map PyVal.toStr := by
  have hsp : splitOn ' ' (namedKey raws).toStr = raws.map PyVal.toStr := by
    simp only [namedKey, PyVal.toStr]
    refine splitOn_join ' ' _ ?_ ?_
    · intro e
      simp at e
      subst e
      simp at hn
      exact h0 hn.symm
    · intro p hp
      obtain ⟨r, hr, rfl⟩ := List.mem_map.1 hp
      intro hs
      exact ((h r hr).1.2.1 _ hs).1 rfl
  simp only [entryTexts]
  split
  · rename_i h1
    subst h1
    match raws, hn with
    | [r], _ => simp [namedKey, join, PyVal.toStr]
  · exact hsp

theorem entryKeys_inj {info : ListInfo} {kids : List (Meta × Schema)} {a b : PyVal}
    (ha : (entryTexts info.keys.length a).length = info.keys.length) (hb : (entryTexts info.keys.length b).length = info.keys.length)
    (h : entryKeys info kids a = entryKeys info kids b) : a.toStr = b.toStr := by
  apply entryTexts_inj (n := info.keys.length)
  have h2 := congrArg (List.map Prod.snd) h
  simp only [entryKeys] at h2
  rwa [List.map_snd_zip (by rw [ha, entryKeyNames_length]; exact Nat.le_refl _), List.map_snd_zip (by rw [hb, entryKeyNames_length]; exact Nat.le_refl _)] at h2

/-- The path of an entry is one of the list. -/
theorem entry_path {info : ListInfo} {kids : List (Meta × Schema)} {k : PyVal} {r : List PStep}
    (h1 : (entryTexts info.keys.length k).length = info.keys.length) (h2 : ∀ v ∈ entryTexts info.keys.length k, KeyText v) (hr : PathOk r kids) :
    childPath (.list info kids) (entryKeys info kids k) r := by
  refine ⟨?_, ?_, hr⟩
  · rw [entryKeys, List.map_fst_zip]
    rw [h1, entryKeyNames_length]
    exact Nat.le_refl _
  · intro x hx
    exact h2 _ (List.of_mem_zip hx).2

theorem callsIn_entry {loc : List PStep} {t : Str} {info : ListInfo} {kids : List (Meta × Schema)} {k : PyVal} {cs : List RegOp}
    (h1 : (entryTexts info.keys.length k).length = info.keys.length) (h2 : ∀ v ∈ entryTexts info.keys.length k, KeyText v)
    (h : CallsUnder (loc ++ [entryStep t info kids k]) kids cs) : CallsIn loc t (.list info kids) cs := by
  intro c hc
  obtain ⟨s, r, h, hp⟩ := h c hc
  exact ⟨entryKeys info kids k, s :: r, by rw [h]; simp [entryStep, entryKeys], entry_path h1 h2 hp⟩

/-! ## Entries -/

/-- The entries' registry: what is at an entry and below. -/
theorem find_split {info : ListInfo} {kids : List (Meta × Schema)} {l r : Members Inst} {q : PyVal × Inst} {ks : List (Str × Str)}
    (hp : (l ++ q :: r).Pairwise (fun a b => entryKeys info kids a.1 ≠ entryKeys info kids b.1)) :
    (l ++ q :: r).find? (fun e => entryKeys info kids e.1 = ks) =
      if entryKeys info kids q.1 = ks then some q else (l ++ r).find? (fun e => entryKeys info kids e.1 = ks) := by
  rw [List.find?_append, List.find?_append, List.find?_cons]
  split
  · rename_i h
    have hn : l.find? (fun e => decide (entryKeys info kids e.1 = ks)) = none := by
      rw [List.find?_eq_none]
      intro x hx
      have := (List.pairwise_append.1 hp).2.2 x hx q (by simp)
      simp only [decide_eq_true_eq] at h ⊢
      intro e
      exact this (e.trans h.symm)
    rw [hn, if_pos (by simpa using h)]
    rfl
  · rename_i h
    rw [if_neg (by simpa using h)]

theorem split_pairwise {info : ListInfo} {kids : List (Meta × Schema)} {l r : Members Inst} {q q' : PyVal × Inst} (e : q.1 = q'.1)
    (hp : (l ++ q :: r).Pairwise (fun a b => entryKeys info kids a.1 ≠ entryKeys info kids b.1)) :
    (l ++ q' :: r).Pairwise (fun a b => entryKeys info kids a.1 ≠ entryKeys info kids b.1) := by
  simp only [List.pairwise_append, List.pairwise_cons, List.mem_cons, forall_eq_or_imp] at hp ⊢
  rw [← e]
  exact hp

/-- A list in which only what is at one entry has changed. -/
theorem list_put {loc : List PStep} {t : Str} {info : ListInfo} {kids : List (Meta × Schema)} {l r : Members Inst} {q : PyVal × Inst} {ch0 ch pr : Bool}
    {ns' : List Inst} {m m' : Registry} (hp : (l ++ q :: r).Pairwise (fun a b => entryKeys info kids a.1 ≠ entryKeys info kids b.1))
    (hg : ∀ ks r', ks ≠ entryKeys info kids q.1 → m (loc ++ ⟨t, ks⟩ :: r') = nodeReg (.list info kids) (.list ch0 (l ++ r)) ks r')
    (hoff : ∀ ks r', ks ≠ entryKeys info kids q.1 → m' (loc ++ ⟨t, ks⟩ :: r') = m (loc ++ ⟨t, ks⟩ :: r'))
    (h1 : m' (loc ++ [entryStep t info kids q.1]) = some contObj) (h2 : KidsAgree (loc ++ [entryStep t info kids q.1]) kids ns' m') :
    KidAgree loc t (.list info kids) (.list ch0 (l ++ (q.1, .cont ch pr ns') :: r)) m' := by
  intro ks r'
  have hp' := split_pairwise (q := q) (q' := (q.1, .cont ch pr ns')) rfl hp
  by_cases e : ks = entryKeys info kids q.1
  · simp only [nodeReg, find_split hp', if_pos e.symm]
    cases r' with
    | nil =>
      rw [if_pos rfl, ← h1, e]
      rfl
    | cons s r'' =>
      rw [if_neg (by simp), ← h2 s r'', e]
      simp [entryStep, entryKeys]
  · rw [hoff ks r' e, hg ks r' e]
    simp only [nodeReg, find_split hp', if_neg (Ne.symm e)]

/-- Without the entry, the rest is as before. -/
theorem list_rest {info : ListInfo} {kids : List (Meta × Schema)} {l r : Members Inst} {q : PyVal × Inst} {ch0 : Bool}
    (hp : (l ++ q :: r).Pairwise (fun a b => entryKeys info kids a.1 ≠ entryKeys info kids b.1)) {ks : List (Str × Str)} {r' : List PStep}
    (e : ks ≠ entryKeys info kids q.1) :
    nodeReg (.list info kids) (.list ch0 (l ++ q :: r)) ks r' = nodeReg (.list info kids) (.list ch0 (l ++ r)) ks r' := by
  simp only [nodeReg, find_split hp, if_neg (Ne.symm e)]

/-! ## New entries -/

/-- A new entry and its children. -/
theorem entry_new {up : List PStep} {s : PStep} {kids : List (Meta × Schema)} {m : Registry} (hok : Named kids) (ha : ∀ k ∈ kids, Addressable k.2)
    (hm : Held up m) (hnone : ∀ r, m (up ++ s :: r) = none) :
    AllOk m (.register (up ++ [s]) contObj :: regKids (up ++ [s]) kids) ∧
    after m (.register (up ++ [s]) contObj :: regKids (up ++ [s]) kids) (up ++ [s]) = some contObj ∧
    KidsHere K (up ++ [s]) kids (freshKids kids) (after m (.register (up ++ [s]) contObj :: regKids (up ++ [s]) kids)) := by
  obtain ⟨h1, h2⟩ := regKids_ok (loc := up ++ [s]) hok.nodup (fun k hk => newOk (ha k hk) _ _)
    (effect m (.register (up ++ [s]) contObj)) (.inr (by simp [effect]))
  have h3 : after m (.register (up ++ [s]) contObj :: regKids (up ++ [s]) kids) (up ++ [s]) = some contObj := by
    rw [after_cons, under_self (regKids_paths _ kids)]
    simp [effect]
  refine ⟨⟨held_register hm _ _, h1⟩, h3, .inr (by rw [h3]; rfl), freshKids_length _, fun i k n hk hn => ?_, fun s' r => ?_⟩
  · rw [freshKids_get, hk] at hn
    simp at hn
    subst hn
    exact regTree_fresh _
  · rw [after_cons, h2]
    have : effect m (.register (up ++ [s]) contObj) (up ++ [s] ++ s' :: r) = none := by
      simp only [effect]
      rw [if_neg (by intro h; have := congrArg List.length h; simp at this)]
      have := hnone (s' :: r)
      simpa using this
    rw [this]
    simp

theorem keyEvs_sigs {loc : List PStep} {kids : List (Meta × Schema)} :
    ∀ (prs : List (Nat × PyVal)) (ch pr : Bool) (ns : List Inst),
      sigsOf (keyEvs loc kids (.cont ch pr ns) prs) = keySigs kids (.cont ch pr ns) prs := by
  intro prs
  induction prs with
  | nil => intros; rfl
  | cons p prs ih =>
    intro ch pr ns
    obtain ⟨j, r⟩ := p
    simp only [keyEvs, keySigs, sigsOf_append]
    have hsame : sigsOf (match kids[j]? with
        | some (m, .leaf L) => passUp loc none kids (leafEvs (loc ++ [⟨m.name, []⟩]) L m.choice r)
        | _ => []) = (keySet kids (.cont ch pr ns) j r).sigs := by
      simp only [keySet]
      cases hk : kids[j]? with
      | none => rfl
      | some k =>
        obtain ⟨m, S⟩ := k
        cases S with
        | leaf L =>
          simp only [passUp_sigs, contPut]
          congr 1
          simp only [leafEvs, leafSet]
          cases L.set r <;> rfl
        | _ => rfl
    have hcont : ∃ ch' pr' ns', (keySet kids (.cont ch pr ns) j r).inst = .cont ch' pr' ns' := by
      simp only [keySet]
      split
      · rename_i heq _
        exact ⟨_, _, (contPut_spec false none kids _ _ _ j _).choose, (contPut_spec false none kids _ _ _ j _).choose_spec.1⟩
      · exact ⟨_, _, _, rfl⟩
    obtain ⟨ch', pr', ns', hc⟩ := hcont
    cases he : (keySet kids (.cont ch pr ns) j r).err with
    | none =>
      rw [hc, ih]
      exact congrArg (· ++ _) hsame
    | some e =>
      simp only [sigsOf, List.append_nil]
      exact hsame

/-- Setting the key leaves of an entry is followed. -/
theorem keyEvs_ok {loc : List PStep} {info : ListInfo} {kids : List (Meta × Schema)} {above : List Str} {own : Option Choice} (hok : Named kids)
    (ha : ∀ k ∈ kids, Addressable k.2) (hf : ChoicesKids st above own (choiceNames kids ++ above) kids)
    (hkeys : ∀ j ∈ info.keys, ∃ m L, kids[j]? = some (m, .leaf L)) :
    ∀ (raws : List PyVal) (i : Nat) (ch pr : Bool) (ns : List Inst) (m : Registry) (e' : Inst),
      raws.length + i = info.keys.length → KidsHere K loc kids ns m → setKeys (entryCls info kids) i raws (.cont ch pr ns) = .ok e' →
      ∃ ch' pr' ns', e' = .cont ch' pr' ns' ∧
        AllOk m (callsOf (keyEvs loc kids (.cont ch pr ns) ((info.keys.drop i).zip raws))) ∧
        CallsUnder loc kids (callsOf (keyEvs loc kids (.cont ch pr ns) ((info.keys.drop i).zip raws))) ∧
        KidsHere K loc kids ns' (after m (callsOf (keyEvs loc kids (.cont ch pr ns) ((info.keys.drop i).zip raws)))) := by
  intro raws
  induction raws with
  | nil =>
    intro i ch pr ns m e' _ hh h
    simp only [setKeys, Except.ok.injEq] at h
    subst h
    simp only [List.zip_nil_right, keyEvs, callsOf]
    exact ⟨ch, pr, ns, rfl, trivial, fun _ h => absurd h (by simp), hh⟩
  | cons r raws ih =>
    intro i ch pr ns m e' hlen hh h
    simp only [setKeys, bind_ok] at h
    obtain ⟨e1, h1, h2⟩ := h
    have hi : i < info.keys.length := by simp at hlen; omega
    have hget : info.keys[i]? = some info.keys[i] := by simp [hi]
    have hdrop : info.keys.drop i = info.keys[i] :: info.keys.drop (i + 1) := List.drop_eq_getElem_cons hi
    obtain ⟨mt, L, hk⟩ := hkeys _ (List.getElem_mem hi)
    simp only [entryCls, hget] at h1
    obtain ⟨he, hinst⟩ := toExcept_ok h1
    have hkl : info.keys[i] < ns.length := by rw [hh.len]; exact (List.getElem?_eq_some_iff.1 hk).1
    have hns : ns[info.keys[i]]? = some ns[info.keys[i]] := by simp [hkl]
    have hks : keySet kids (.cont ch pr ns) info.keys[i] r =
        contPut false none kids ch pr ns info.keys[i] (leafSet L mt.choice ns[info.keys[i]] r) := by
      simp only [keySet, hk, List.getD_eq_getElem?_getD, hns, Option.getD_some]
    have hle : (leafSet L mt.choice ns[info.keys[i]] r).err = none := by
      rw [hks] at he
      exact he
    have hagree := (kidsAgree_iff hok.nodup hh.len).1 hh.agree
    have hleaf := leaf_follows (K := K) (t := mt.name) (L := L) (own := mt.choice) (v := r) hh.held (hh.tree _ _ _ hk hns) (hagree.1 _ _ _ hk hns) (.inl hle)
    obtain ⟨ch1, pr1, ns1, hc, _, hall, hun, hh1⟩ := kids_follow (pres := false) (own := none) (ch := ch) (pr := pr) hok ha hk hns hh hleaf
      fun k' hk' hcl => clearsBy_rival (above := above) (k := (mt, .leaf L)) (st := st) hk' (leafSet_good _ L mt.choice _ r) hcl
    rw [← hks, hinst] at hc
    subst hc
    obtain ⟨ch2, pr2, ns2, g1, g2, g3, g4⟩ := ih (i + 1) ch1 pr1 ns1 _ e' (by simp at hlen; omega) hh1 h2
    have hev : keyEvs loc kids (.cont ch pr ns) ((info.keys.drop i).zip (r :: raws)) =
        passUp loc none kids (leafEvs (loc ++ [⟨mt.name, []⟩]) L mt.choice r) ++
          keyEvs loc kids (.cont ch1 pr1 ns1) ((info.keys.drop (i + 1)).zip raws) := by
      rw [hdrop, List.zip_cons_cons, keyEvs]
      simp only [hk, he, hinst]
    refine ⟨ch2, pr2, ns2, g1, ?_, ?_, ?_⟩
    · rw [hev, callsOf_append, allOk_append]
      exact ⟨hall, g2⟩
    · rw [hev, callsOf_append]
      exact callsUnder_append hun g3
    · rw [hev, callsOf_append, after_append]
      exact g4

theorem entryEvs_calls (loc : List PStep) (info : ListInfo) (kids : List (Meta × Schema)) (raws : List PyVal) :
    callsOf (entryEvs loc info kids raws) = (.register loc contObj :: regKids loc kids) ++
      callsOf (keyEvs loc kids (.cont false false (freshKids kids)) (info.keys.zip raws)) := by
  simp [entryEvs, callsOf, callsOf_append]

theorem entryEvs_sigs (loc : List PStep) (info : ListInfo) (kids : List (Meta × Schema)) (raws : List PyVal) :
    sigsOf (entryEvs loc info kids raws) = keySigs kids (.cont false false (freshKids kids)) (info.keys.zip raws) := by
  simp only [entryEvs, List.cons_append, sigsOf, sigsOf_append, sigsOf_calls, List.nil_append]
  exact keyEvs_sigs ..

/-- Adding an entry is followed. -/
theorem entry_follows {up : List PStep} {t : Str} {info : ListInfo} {kids : List (Meta × Schema)} {above : List Str} {own : Option Choice}
    {ch : Bool} {es : Members Inst} {k : PyVal} {raws : List PyVal} {e : Inst} {m : Registry} {o : Out} (hK : ToldApart K)
    (ha : Addressable (.list info kids)) (hf : Choices st above own (.list info kids)) (hm : Held up m)
    (ht : RegTree K (.list info kids) (.list ch es)) (hg : KidAgree up t (.list info kids) (.list ch es) m)
    (hlen : raws.length = info.keys.length) (htx : entryTexts info.keys.length k = raws.map PyVal.toStr) (hgood : ∀ v ∈ entryTexts info.keys.length k, KeyText v)
    (hk : K k) (hmem : mem es k = false) (hmk : mkEntry (entryCls info kids) false none raws = .ok e)
    (ho : o.inst = .list ch (store es k e)) (hs : o.sigs = keySigs kids (.cont false false (freshKids kids)) (info.keys.zip raws)) :
    Follows K up t (.list info kids) m o (entryEvs (up ++ [entryStep t info kids k]) info kids raws) := by
  cases ha with
  | list _ _ hok ha hne hnd hkeys =>
  cases ht with
  | list _ _ _ _ t1 t2 t3 =>
  have htl : (entryTexts info.keys.length k).length = info.keys.length := by rw [htx]; simpa using hlen
  have hnew : ∀ q ∈ es, entryKeys info kids q.1 ≠ entryKeys info kids k := by
    intro q hq e'
    have h1 := entryKeys_inj (t1 q hq).2.1 htl e'
    have h2 := hK q.1 k (t1 q hq).1 hk (.inr h1)
    have h3 := mem_false.1 hmem q hq
    rw [h2, pyEq_refl] at h3
    cases h3
  have hfind : es.find? (fun e => entryKeys info kids e.1 = entryKeys info kids k) = none := by
    rw [List.find?_eq_none]
    intro q hq
    simpa using hnew q hq
  have hnone : ∀ r, m (up ++ entryStep t info kids k :: r) = none := by
    intro r
    have := hg (entryKeys info kids k) r
    simp only [nodeReg, hfind] at this
    exact this
  obtain ⟨n1, n2, n3⟩ := entry_new (K := K) (kids := kids) hok ha hm hnone
  have hsk : setKeys (entryCls info kids) 0 raws (.cont false false (freshKids kids)) = .ok e := by
    simp only [mkEntry, startEntry] at hmk
    exact hmk
  obtain ⟨ch', pr', ns', rfl, k2, k3, k4⟩ := keyEvs_ok (st := st) (loc := up ++ [entryStep t info kids k]) (info := info) hok ha hf
    (fun j hj => by obtain ⟨mt, L, h, _⟩ := hkeys j hj; exact ⟨mt, L, h⟩) raws 0 false false _ _ e (by simpa using hlen) n3 hsk
  rw [List.drop_zero] at k2 k3 k4
  have hunder : CallsUnder (up ++ [entryStep t info kids k]) kids
      (callsOf (keyEvs (up ++ [entryStep t info kids k]) kids (.cont false false (freshKids kids)) (info.keys.zip raws))) := k3
  have hcalls := entryEvs_calls (up ++ [entryStep t info kids k]) info kids raws
  have hstore : store es k (.cont ch' pr' ns') = es ++ [(k, .cont ch' pr' ns')] := store_new hmem
  have hpair : (es ++ (k, Inst.cont ch' pr' ns') :: []).Pairwise (fun a b => entryKeys info kids a.1 ≠ entryKeys info kids b.1) := by
    rw [List.pairwise_append]
    refine ⟨t2, by simp, fun a ha b hb => ?_⟩
    simp at hb
    subst hb
    exact hnew a ha
  refine ⟨by rw [hs, entryEvs_sigs], ?_, ?_, ?_, ?_⟩
  · rw [hcalls, allOk_append]
    exact ⟨n1, k2⟩
  · rw [hcalls]
    intro c hc
    rcases List.mem_append.1 hc with hc | hc
    · rcases List.mem_cons.1 hc with rfl | hc
      · exact ⟨entryKeys info kids k, [], rfl, entry_path htl hgood trivial⟩
      · exact callsIn_entry htl hgood (regKids_paths _ kids) c hc
    · exact callsIn_entry htl hgood k3 c hc
  · rw [ho, hstore]
    refine .list _ _ _ _ ?_ hpair ?_
    · intro q hq
      rcases List.mem_append.1 hq with hq | hq
      · exact t1 q hq
      · simp at hq
        subst hq
        exact ⟨hk, htl, hgood⟩
    · intro q hq
      rcases List.mem_append.1 hq with hq | hq
      · exact t3 q hq
      · simp at hq
        subst hq
        exact .cont _ _ _ _ _ k4.len k4.tree
  · rw [ho, hstore, hcalls, after_append]
    refine list_put (q := (k, .cont ch' pr' ns')) (m := m) hpair (fun ks r' e' => ?_) (fun ks r' e' => ?_) ?_ k4.agree
    · rw [hg ks r', List.append_nil]
    · rw [under_off k3, after_cons, under_off (regKids_paths _ kids)]
      · simp only [effect]
        rw [if_neg]
        intro h
        simp [entryStep] at h
        exact e' h.1
      · intro s r h
        simp [entryStep] at h
        exact e' h.1
      · intro s r h
        simp [entryStep] at h
        exact e' h.1
    · rw [under_self k3]
      exact n2

/-- Deleting an entry is followed. -/
theorem delete_follows {up : List PStep} {t : Str} {info : ListInfo} {kids : List (Meta × Schema)} {ch : Bool} {es es' : Members Inst} {k : PyVal}
    {m : Registry} {o : Out} (hK : ToldApart K) (ht : RegTree K (.list info kids) (.list ch es)) (hg : KidAgree up t (.list info kids) (.list ch es) m)
    (hk : K k) (he : erase es k = .ok es') (ho : o.inst = .list ch es') (hs : o.sigs = []) :
    Follows K up t (.list info kids) m o [.call (.unregister (up ++ [entryStep t info kids k]))] := by
  obtain ⟨l, q, r, rfl, h2, _, rfl⟩ := erase_ok he
  cases ht with
  | list _ _ _ _ t1 t2 t3 =>
  have hqk : q.1 = k := hK q.1 k (t1 q (by simp)).1 hk (.inl h2)
  subst hqk
  obtain ⟨hKq, htl, hgood⟩ := t1 q (by simp)
  have hcont : ∃ c p ns, q.2 = .cont c p ns := by
    have := t3 q (by simp)
    generalize q.2 = n at this
    cases this
    exact ⟨_, _, _, rfl⟩
  obtain ⟨c, p, ns, hq2⟩ := hcont
  have hsub : (l ++ r).Sublist (l ++ q :: r) := by simp
  refine ⟨hs.symm, ⟨?_, trivial⟩, ?_, ?_, ?_⟩
  · have := hg (entryKeys info kids q.1) []
    simp only [nodeReg, find_split t2, if_true] at this
    obtain ⟨q1, q2⟩ := q
    simp only at hq2
    subst hq2
    simp only [OpAllowed]
    have e : up ++ [entryStep t info kids q1] = up ++ ⟨t, entryKeys info kids q1⟩ :: [] := rfl
    rw [e, this]
    rfl
  · intro c' hc'
    simp [callsOf] at hc'
    subst hc'
    exact ⟨entryKeys info kids q.1, [], rfl, entry_path htl hgood trivial⟩
  · rw [ho]
    refine .list _ _ _ _ (fun x hx => t1 x (hsub.subset hx)) (t2.sublist hsub) fun x hx => t3 x (hsub.subset hx)
  · rw [ho]
    intro ks r'
    simp only [callsOf, after_cons, after_nil, effect]
    by_cases e : ks = entryKeys info kids q.1
    · rw [if_pos]
      · symm
        simp only [nodeReg]
        have : (l ++ r).find? (fun e => decide (entryKeys info kids e.1 = ks)) = none := by
          rw [List.find?_eq_none]
          intro x hx
          simp only [decide_eq_true_eq]
          intro e2
          rw [List.pairwise_append, List.pairwise_cons] at t2
          rcases List.mem_append.1 hx with hx | hx
          · exact t2.2.2 x hx q (by simp) (e2.trans e)
          · exact t2.2.1.1 x hx (e.symm.trans e2.symm)
        rw [this]
      · rw [List.isPrefixOf_iff_prefix]
        exact ⟨r', by rw [e]; simp [entryStep, entryKeys]⟩
    · rw [if_neg, hg ks r', list_rest t2 e]
      rw [List.isPrefixOf_iff_prefix]
      rintro ⟨u, hu⟩
      simp [entryStep] at hu
      exact e hu.1.symm

end Pyb
