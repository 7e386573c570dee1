import Verif.Lemmas.RegList

/-! # The registry follows the tree: operations -/

namespace Pyb
open Py Spec

variable {K : PyVal → Prop} {st : Bool}

theorem add_follows {up : List PStep} {t : Str} {info : ListInfo} {kids : List (Meta × Schema)} {above : List Str} {own po : Option Choice}
    {ch : Bool} {es : Members Inst} {k : PyVal} {m : Registry} (hK : ToldApart K) (ha : Addressable (.list info kids))
    (hf : Choices st above own (.list info kids)) (hm : Held up m) (ht : RegTree K (.list info kids) (.list ch es))
    (hg : KidAgree up t (.list info kids) (.list ch es) m) (hop : OpOk K (.list info kids) (.add k))
    (hs : CallsOk (.add k) (nodeOp (.list info kids) po (.list ch es) (.add k)).err (callsOf (nodeEvs up t (.list info kids) po (.list ch es) (.add k)))) :
    Follows K up t (.list info kids) m (nodeOp (.list info kids) po (.list ch es) (.add k)) (nodeEvs up t (.list info kids) po (.list ch es) (.add k)) := by
  have hne : info.keys ≠ [] := by cases ha; assumption
  simp only [nodeOp, nodeEvs, if_neg hne] at hs ⊢
  cases h : ylAdd (entryCls info kids) info.keys.length es k with
  | ok es' =>
    obtain ⟨hmem, h2⟩ := ylAdd_ok h
    obtain ⟨h3, h4, raws, e, h5, h6, h7⟩ := ylSetPos_ok h2
    simp only [Option.isSome_none, hmem, Bool.or_self] at h6
    have hevs : addEvs up t info kids es k = entryEvs (up ++ [entryStep t info kids k]) info kids raws := by
      simp [addEvs, h3, h4, hmem, h5]
    rw [hevs]
    refine entry_follows (st := st) (k := k) (e := e) hK ha hf hm ht hg (keyParts_ok h5).1 (keyParts_entryTexts h5).symm hop.2 hop.1 hmem h6 (by rw [listOut, h7]) ?_
    simp [listOut, addSigs, setPosSigs, h3, h4, hmem, h5]
  | error er =>
    rw [h] at hs
    simp only [listOut, CallsOk, InPlace, reduceCtorEq, or_false, false_or] at hs
    have hev : addEvs up t info kids es k = [] := by
      simp only [addEvs] at hs ⊢
      repeat' split
      all_goals first | rfl | skip
      simp_all [entryEvs, callsOf]
    have hsig : addSigs info kids es k = [] := by
      simp only [addEvs] at hev
      simp only [addSigs, setPosSigs]
      repeat' split
      all_goals first | rfl | skip
      all_goals simp_all [entryEvs]
    exact follows_nop (n := .list ch es) rfl hsig hev ht hg

theorem addNamed_follows {up : List PStep} {t : Str} {info : ListInfo} {kids : List (Meta × Schema)} {above : List Str} {own po : Option Choice}
    {ch : Bool} {es : Members Inst} {raws : List (Option PyVal)} {m : Registry} (hK : ToldApart K) (ha : Addressable (.list info kids))
    (hf : Choices st above own (.list info kids)) (hm : Held up m) (ht : RegTree K (.list info kids) (.list ch es))
    (hg : KidAgree up t (.list info kids) (.list ch es) m) (hop : OpOk K (.list info kids) (.addNamed raws))
    (hs : CallsOk (.addNamed raws) (nodeOp (.list info kids) po (.list ch es) (.addNamed raws)).err
      (callsOf (nodeEvs up t (.list info kids) po (.list ch es) (.addNamed raws)))) :
    Follows K up t (.list info kids) m (nodeOp (.list info kids) po (.list ch es) (.addNamed raws))
      (nodeEvs up t (.list info kids) po (.list ch es) (.addNamed raws)) := by
  have hne : info.keys ≠ [] := by cases ha; assumption
  simp only [nodeOp, nodeEvs] at hs ⊢
  by_cases hl : info.keys = [] ∨ raws.length ≠ info.keys.length
  · rw [if_pos hl, if_pos hl]
    exact follows_nop (n := .list ch es) rfl rfl rfl ht hg
  rw [if_neg hl] at hs ⊢
  rw [if_neg hl] at hs ⊢
  have hlen : raws.length = info.keys.length := by
    by_cases e : raws.length = info.keys.length
    · exact e
    · exact absurd (.inr e) hl
  cases h : ylAddNamed (entryCls info kids) es raws none with
  | ok es' =>
    obtain ⟨rs, e, h1, hmem, h6, h7⟩ := ylAddNamed_ok h
    obtain ⟨hk, hgood⟩ := hop rs h1
    have hrl : rs.length = info.keys.length := by
      rw [← hlen, allGiven_ok.1 h1]
      simp
    have hkt := entryTexts_named hrl (by intro e; exact hne (List.length_eq_zero_iff.1 e)) hgood
    have hevs : addNamedEvs up t info kids es raws = entryEvs (up ++ [entryStep t info kids (namedKey rs)]) info kids rs := by
      simp [addNamedEvs, h1, hmem]
    rw [hevs]
    refine entry_follows (st := st) (k := namedKey rs) (e := e) hK ha hf hm ht hg hrl hkt ?_ hk hmem h6 (by rw [listOut, h7, store_new hmem]) ?_
    · rw [hkt]
      intro v hv
      obtain ⟨r, hr, rfl⟩ := List.mem_map.1 hv
      exact hgood r hr
    · simp [listOut, addNamedSigs, h1, hmem]
  | error er =>
    rw [h] at hs
    simp only [listOut, CallsOk, InPlace, reduceCtorEq, or_false, false_or] at hs
    have hev : addNamedEvs up t info kids es raws = [] := by
      simp only [addNamedEvs] at hs ⊢
      repeat' split
      all_goals first | rfl | skip
      simp_all [entryEvs, callsOf]
    have hsig : addNamedSigs info kids es raws = [] := by
      simp only [addNamedEvs] at hev
      simp only [addNamedSigs]
      repeat' split
      all_goals first | rfl | skip
      all_goals simp_all [entryEvs]
    exact follows_nop (n := .list ch es) rfl hsig hev ht hg

/-- An operation on an object is followed. -/
theorem node_follows {up : List PStep} {t : Str} {S : Schema} {above : List Str} {own po : Option Choice} {n : Inst} {op : Op} {m : Registry}
    (hK : ToldApart K) (ha : Addressable S) (hf : Choices st above own S) (hm : Held up m) (ht : RegTree K S n)
    (hg : KidAgree up t S n m) (hop : OpOk K S op) (hs : CallsOk op (nodeOp S po n op).err (callsOf (nodeEvs up t S po n op))) :
    Follows K up t S m (nodeOp S po n op) (nodeEvs up t S po n op) := by
  have hnop : ∀ e, Follows K up t S m (fail n e) [] := fun e => follows_nop rfl rfl rfl ht hg
  cases op with
  | unset =>
    have h1 : nodeOp S po n .unset = ⟨fresh S, [], none⟩ := by cases S <;> rfl
    have h2 : nodeEvs up t S po n .unset = (regNew (up ++ [⟨t, []⟩]) S).map .call := by cases S <;> rfl
    have hno : NoLists S := by cases S <;> exact hop
    obtain ⟨h3, h4⟩ := regNew_agree hno ha ht hm hg
    rw [h1, h2]
    refine ⟨by simp, ?_, ?_, regTree_fresh _, ?_⟩
    · rw [callsOf_calls]; exact h3
    · rw [callsOf_calls]; exact regNew_paths up t S
    · rw [callsOf_calls]; exact h4
  | set v l =>
    cases S with
    | leaf L =>
      refine leaf_follows hm ht hg ?_
      rcases hs with h | h | h
      · exact .inl h
      · exact .inr h
      · exact absurd h (by simp [InPlace])
    | _ => cases n <;> exact hnop _
  | ll op =>
    cases ht with
    | leafList L vs ch => exact llApply_follows hm hg hs
    | _ => exact hnop _
  | present b =>
    cases ht with
    | cont pres kids ch pr ns h1 h2 =>
      cases b with
      | true => exact ⟨rfl, trivial, by intro c hc; simp [nodeEvs, callsOf] at hc, .cont _ _ _ _ _ h1 h2, hg⟩
      | false => exact ⟨rfl, trivial, by intro c hc; simp [nodeEvs, callsOf] at hc, .cont _ _ _ _ _ h1 h2, hg⟩
    | _ => cases b <;> exact hnop _
  | add k =>
    have ht' := ht
    cases ht with
    | list info kids ch es => exact add_follows (st := st) hK ha hf hm ht' hg hop hs
    | _ => exact hnop _
  | addNamed raws =>
    have ht' := ht
    cases ht with
    | list info kids ch es => exact addNamed_follows (st := st) hK ha hf hm ht' hg hop hs
    | _ => exact hnop _
  | delete k =>
    have ht' := ht
    cases ht with
    | list info kids ch es =>
      simp only [nodeOp, nodeEvs, deleteEvs] at hs ⊢
      cases h : ylDelete es k with
      | ok es' =>
        simp only [ylDelete] at h
        split at h
        · cases h
        · exact delete_follows hK ht' hg hop h rfl rfl
      | error e => exact follows_nop (n := .list ch es) rfl rfl rfl ht' hg
    | _ => exact hnop _
  | assign v => cases S <;> exact hop.elim
  | addAnon u => cases S <;> exact hop.elim
  | append v => cases S <;> exact hop.elim
  | setitem k v => cases S <;> exact hop.elim

theorem passUp_nil {loc : List PStep} {own : Option Choice} {kids : List (Meta × Schema)} {es : List Ev}
    (h : callsOf (passUp loc own kids es) = []) : callsOf es = [] := by
  induction es with
  | nil => rfl
  | cons e es ih =>
    rcases e with (_ | c) | r
    · exact ih h
    · simp only [passUp, callsOf_append, callsOf, List.append_eq_nil_iff] at h ⊢
      exact ih h.2
    · simp [passUp, callsOf] at h

/-- An operation below an object is followed. -/
theorem run_follows (hK : ToldApart K) {op : Op} : ∀ (p : Path) {up : List PStep} {t : Str} {S : Schema} {above : List Str} {own : Option Choice} {n : Inst}
    {m : Registry}, Addressable S → Choices st above own S → Held up m → RegTree K S n → KidAgree up t S n m →
    (∀ S', schemaAt S p = some S' → OpOk K S' op) → CallsOk op (run S own n p op).err (callsOf (runEvs up t S own n p op)) →
    Follows K up t S m (run S own n p op) (runEvs up t S own n p op)
  | [], up, t, S, above, own, n, m, ha, hf, hm, ht, hg, hop, hs => by
    have h1 : runEvs up t S own n [] op = nodeEvs up t S own n op := by cases S <;> rfl
    rw [run_nil, h1] at hs ⊢
    exact node_follows (st := st) hK ha hf hm ht hg (hop S (by cases S <;> rfl)) hs
  | .field i :: p, up, t, S, above, own, n, m, ha, hf, hm, ht, hg, hop, hs => by
    have ht' := ht
    cases ht with
    | cont pres kids ch pr ns hl htr =>
      cases ha with
      | cont _ _ hok ha =>
      simp only [run, runEvs] at hs ⊢
      cases hk : kids[i]? with
      | none => exact follows_nop (n := .cont ch pr ns) rfl rfl rfl ht' hg
      | some k =>
        have hlt : i < ns.length := by rw [hl]; exact (List.getElem?_eq_some_iff.1 hk).1
        have hc : ns[i]? = some ns[i] := by simp [hlt]
        simp only [hk, hc] at hs ⊢
        have hkm := List.mem_of_getElem? hk
        have hself : m (up ++ [⟨t, []⟩]) = some contObj := by
          have := hg [] []
          simpa [nodeReg] using this
        have hh : KidsHere K (up ++ [⟨t, []⟩]) kids ns m := by
          refine ⟨.inr (by rw [hself]; rfl), hl, htr, fun s r => ?_⟩
          have := hg [] (s :: r)
          simpa [nodeReg] using this
        have hag := (kidsAgree_iff hok.nodup hl).1 hh.agree
        have hfol := run_follows hK (op := op) p (up := up ++ [⟨t, []⟩]) (t := k.1.name) (n := ns[i]) (ha k hkm) (flatKids_mem hf hkm).2.2 hh.held
          (htr i k _ hk hc) (hag.1 i k _ hk hc) (fun S' h => hop S' (by simp only [schemaAt, hk]; exact h)) (by
            rcases hs with h | h | h
            · exact .inl h
            · exact .inr (.inl (passUp_nil h))
            · exact .inr (.inr h))
        obtain ⟨ch', pr', ns', g1, g2, g3, g4, g5⟩ := kids_follow (pres := pres) (own := own) (ch := ch) (pr := pr) hok ha hk hc hh hfol
          fun k' hk' hcl => clearsBy_rival (st := st) (above := above) hk' (run_good (flatKids_mem hf hkm).2.2 (.inl rfl)) hcl
        refine ⟨g2, g3, callsIn_cont g4, by rw [g1]; exact .cont _ _ _ _ _ g5.len g5.tree, ?_⟩
        rw [g1]
        intro ks r
        simp only [nodeReg]
        by_cases e : ks = []
        · subst e
          rw [if_pos rfl]
          cases r with
          | nil => rw [if_pos rfl, under_self g4]; exact hself
          | cons s r =>
            rw [if_neg (by simp)]
            have := g5.agree s r
            simpa using this
        · rw [if_neg e, under_off g4, hg ks r]
          · simp [nodeReg, e]
          · intro s r' h
            simp at h
            exact e h.1
    | leaf => exact follows_nop rfl rfl rfl ht' hg
    | leafList => exact follows_nop rfl rfl rfl ht' hg
    | list => exact follows_nop rfl rfl rfl ht' hg
  | .key key :: p, up, t, S, above, own, n, m, ha, hf, hm, ht, hg, hop, hs => by
    have ht' := ht
    cases ht with
    | list info kids ch es t1 t2 t3 =>
      cases ha with
      | list _ _ hok ha hne hnd hkeys =>
      by_cases hh : hashable key = true
      case neg =>
        refine follows_nop (n := .list ch es) ?_ ?_ ?_ ht' hg
        · simp [run, hh, fail]
        · simp [run, hh, fail]
        · cases p with
          | nil => rfl
          | cons s p => cases s <;> simp [runEvs, hh]
      case pos =>
      cases hfind : es.find? fun q => pyEq q.1 key with
      | none =>
        refine follows_nop (n := .list ch es) ?_ ?_ ?_ ht' hg
        · simp [run, hh, hfind, fail]
        · simp [run, hh, hfind, fail]
        · cases p with
          | nil => rfl
          | cons s p => cases s <;> simp [runEvs, hh, hfind]
      | some q =>
        obtain ⟨q1, q2⟩ := q
        have hmem : (q1, q2) ∈ es := List.mem_of_find?_eq_some hfind
        have htq := t3 _ hmem
        obtain ⟨hKq, htl, hgood⟩ := t1 _ hmem
        simp only at htl hgood hKq
        simp only at htq
        cases htq with
        | cont _ _ ch0 pr0 ns hl htr =>
        have hstep : ∀ o : Inst, ∃ l r, es = l ++ (q1, .cont ch0 pr0 ns) :: r ∧ store es key o = l ++ (q1, o) :: r := by
          intro o
          have hm2 : mem es key = true := mem_true.2 ⟨_, hmem, by simpa using List.find?_some hfind⟩
          obtain ⟨l, p', r, e1, e2, e3, e4⟩ := store_old (e := o) hm2
          have : p' = (q1, .cont ch0 pr0 ns) := by
            rw [e1, List.find?_append, List.find?_cons, e2] at hfind
            have hn : l.find? (fun q => pyEq q.1 key) = none := by
              rw [List.find?_eq_none]
              intro x hx
              simp [e3 x hx]
            rw [hn] at hfind
            simpa using hfind
          subst this
          exact ⟨l, r, e1, e4⟩
        have hput : ∀ o : Out, (o.inst = .cont ch0 pr0 ns) → o.sigs = [] →
            Follows K up t (.list info kids) m ⟨.list ch (store es key o.inst), o.sigs, o.err⟩ [] := by
          intro o h1 h2
          obtain ⟨l, r, e1, e2⟩ := hstep o.inst
          refine follows_nop (n := .list ch es) ?_ h2 rfl ht' hg
          show Inst.list ch (store es key o.inst) = _
          rw [e2, h1, ← e1]
        cases p with
        | nil => exact follows_nop (n := .list ch es) (by simp [run, hh, hfind, fail]) (by simp [run, hh, hfind, fail]) rfl ht' hg
        | cons s p =>
        by_cases hgd : keyGuard info (s :: p) op = true
        · refine follows_nop (n := .list ch es) (by simp [run, hh, hfind, fail, hgd]) (by simp [run, hh, hfind, fail, hgd]) ?_ ht' hg
          cases s with
          | key k => rfl
          | field i => simp [runEvs, hh, hfind, hgd]
        simp only [Bool.not_eq_true] at hgd
        have hrun : run (.list info kids) own (.list ch es) (.key key :: s :: p) op =
            ⟨.list ch (store es key (run (.cont false kids) none (.cont ch0 pr0 ns) (s :: p) op).inst),
              (run (.cont false kids) none (.cont ch0 pr0 ns) (s :: p) op).sigs, (run (.cont false kids) none (.cont ch0 pr0 ns) (s :: p) op).err⟩ := by
          simp [run, hh, hfind, hgd]
        rw [hrun] at hs ⊢
        cases s with
        | key k => exact hput _ rfl rfl
        | field i =>
        simp only [runEvs, hh, hfind, hgd, Bool.not_true, Bool.false_eq_true, if_false] at hs ⊢
        cases hk : kids[i]? with
        | none => exact hput _ (by simp [run, hk, fail]) (by simp [run, hk, fail])
        | some k =>
        have hlt : i < ns.length := by rw [hl]; exact (List.getElem?_eq_some_iff.1 hk).1
        have hc : ns[i]? = some ns[i] := by simp [hlt]
        simp only [run, hk, hc] at hs ⊢
        have hkm := List.mem_of_getElem? hk
        have hfind2 : es.find? (fun e => decide (entryKeys info kids e.1 = entryKeys info kids q1)) = some (q1, .cont ch0 pr0 ns) := by
          obtain ⟨l, r, e1, _⟩ := hstep (.cont ch0 pr0 ns)
          rw [e1] at t2 ⊢
          rw [find_split t2]
          simp
        have hself : m (up ++ [entryStep t info kids q1]) = some contObj := by
          have := hg (entryKeys info kids q1) []
          simp only [nodeReg, hfind2] at this
          exact this
        have hkh : KidsHere K (up ++ [entryStep t info kids q1]) kids ns m := by
          refine ⟨.inr (by rw [hself]; rfl), hl, htr, fun s r => ?_⟩
          have := hg (entryKeys info kids q1) (s :: r)
          simp only [nodeReg, hfind2] at this
          rw [List.append_assoc]
          exact this
        have hag := (kidsAgree_iff hok.nodup hl).1 hkh.agree
        have hf' : ChoicesKids st above own (choiceNames kids ++ above) kids := hf
        have hfol := run_follows hK (op := op) p (up := up ++ [entryStep t info kids q1]) (t := k.1.name) (n := ns[i]) (ha k hkm) (flatKids_mem hf' hkm).2.2
          hkh.held (htr i k _ hk hc) (hag.1 i k _ hk hc) (fun S' h => hop S' (by simp only [schemaAt, hk]; exact h)) (by
            rcases hs with h | h | h
            · exact .inl h
            · exact .inr (.inl (passUp_nil h))
            · exact .inr (.inr h))
        obtain ⟨ch', pr', ns', g1, g2, g3, g4, g5⟩ := kids_follow (pres := false) (own := none) (ch := ch0) (pr := pr0) hok ha hk hc hkh hfol
          fun k' hk' hcl => clearsBy_rival (st := st) (above := above) hk' (run_good (flatKids_mem hf' hkm).2.2 (.inl rfl)) hcl
        obtain ⟨l, r, e1, e2⟩ := hstep (.cont ch' pr' ns')
        subst e1
        rw [g1, e2]
        refine ⟨g2, g3, callsIn_entry htl hgood g4, ?_, ?_⟩
        · refine .list _ _ _ _ ?_ (split_pairwise (q := (q1, .cont ch0 pr0 ns)) rfl t2) ?_
          · intro x hx
            simp only [List.mem_append, List.mem_cons] at hx
            rcases hx with hx | rfl | hx
            · exact t1 x (by simp [hx])
            · exact ⟨hKq, htl, hgood⟩
            · exact t1 x (by simp [hx])
          · intro x hx
            simp only [List.mem_append, List.mem_cons] at hx
            rcases hx with hx | rfl | hx
            · exact t3 x (by simp [hx])
            · exact .cont _ _ _ _ _ g5.len g5.tree
            · exact t3 x (by simp [hx])
        · refine list_put (q := (q1, .cont ch0 pr0 ns)) (m := m) t2 (fun ks r' e' => ?_) (fun ks r' e' => ?_) ?_ g5.agree
          · rw [hg ks r']
            exact list_rest t2 e'
          · rw [under_off g4]
            intro s r'' h
            simp [entryStep] at h
            exact e' h.1
          · rw [under_self g4]
            exact hself
    | leaf => exact follows_nop rfl rfl (by cases p with | nil => rfl | cons s p => cases s <;> rfl) ht' hg
    | leafList => exact follows_nop rfl rfl (by cases p with | nil => rfl | cons s p => cases s <;> rfl) ht' hg
    | cont => exact follows_nop rfl rfl (by cases p with | nil => rfl | cons s p => cases s <;> rfl) ht' hg

end Pyb
