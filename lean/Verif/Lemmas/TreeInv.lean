import Verif.Lemmas.TreeFlat

namespace Pyb
open Py Spec

variable {st : Bool}

/-! ## Tree invariants

`TreeInv I` says that the tree has the shape of its class and that `I` holds of every
container in it (given as: presence, children of the class, changed, present, children). -/

abbrev CInv := Bool → List (Meta × Schema) → Bool → Bool → List Inst → Prop

inductive TreeInv (I : CInv) : Schema → Inst → Prop where
  | leaf (L v ch) : TreeInv I (.leaf L) (.leaf v ch)
  | leafList (L vs ch) : TreeInv I (.leafList L) (.leafList vs ch)
  | cont (pres kids ch pr ns) : I pres kids ch pr ns → ns.length = kids.length →
      (∀ (i : Nat) (k : Meta × Schema) c, kids[i]? = some k → ns[i]? = some c → TreeInv I k.2 c) →
      TreeInv I (.cont pres kids) (.cont ch pr ns)
  | list (info kids ch es) : (∀ q ∈ es, TreeInv I (.cont false kids) q.2) → TreeInv I (.list info kids) (.list ch es)

theorem TreeInv.cont_inv {I : CInv} {pres kids n} (h : TreeInv I (.cont pres kids) n) :
    ∃ ch pr ns, n = .cont ch pr ns ∧ I pres kids ch pr ns ∧ ns.length = kids.length ∧
      ∀ (i : Nat) (k : Meta × Schema) c, kids[i]? = some k → ns[i]? = some c → TreeInv I k.2 c := by
  cases h with
  | cont _ _ ch pr ns h1 h2 h3 => exact ⟨ch, pr, ns, rfl, h1, h2, h3⟩

/-- What makes `I` an invariant.  `fl`: only for flat classes; `b`: the notion of data
`I` is about; `ok`: the operations considered. -/
structure Stable (st fl b : Bool) (ok : Op → Prop) (I : CInv) : Prop where
  fresh : ∀ pres kids, I pres kids false false (freshKids kids)
  new : ∀ pres kids, I pres kids true pres (freshKids kids)
  put : ∀ (above : List Str) (own po : Option Choice) (pres : Bool) (kids : List (Meta × Schema)) (ch pr : Bool)
    (ns : List Inst) (i : Nat) (k : Meta × Schema) (c : Inst) (o : Out) (ch' pr' : Bool) (ns' : List Inst),
    (fl = true → ChoicesKids st above own (choiceNames kids ++ above) kids) → kids[i]? = some k → ns[i]? = some c →
    I pres kids ch pr ns → (fl = true → GoodSigs st (choiceNames kids ++ above) k.1.choice o.sigs) →
    (o.sigs = [] → Has b o.inst → Has b c) → (o.sigs = [] → o.inst.changed = true → c.changed = true) → (contPut pres po kids ch pr ns i o).inst = .cont ch' pr' ns' →
    I pres kids ch' pr' ns'
  present : ∀ pres kids ch pr ns, I pres kids ch pr ns → I pres kids true true ns
  absent : ok (.present false) → ∀ pres kids ch pr ns, I pres kids ch pr ns → I pres kids false false ns
  anon : b = true → ∀ u, ¬ ok (.addAnon u)

variable {fl b : Bool} {ok : Op → Prop} {I : CInv}

theorem fresh_inv (hI : Stable st fl b ok I) : ∀ S, TreeInv I S (fresh S) := by
  intro S
  induction S using Schema.ind with
  | hleaf L => exact .leaf ..
  | hll L => exact .leafList ..
  | hcont pres kids ih =>
    refine .cont _ _ _ _ _ (hI.fresh ..) (freshKids_length _) ?_
    intro i k c hk hc
    rw [freshKids_get, hk] at hc
    simp at hc
    subst hc
    exact ih k (List.mem_of_getElem? hk)
  | hlist info kids ih => exact .list _ _ _ _ (by simp)

theorem freshKids_inv (hI : Stable st fl b ok I) (pres : Bool) (kids : List (Meta × Schema)) {ch pr : Bool}
    (h : I pres kids ch pr (freshKids kids)) : TreeInv I (.cont pres kids) (.cont ch pr (freshKids kids)) := by
  refine .cont _ _ _ _ _ h (freshKids_length _) ?_
  intro i k c hk hc
  rw [freshKids_get, hk] at hc
  simp at hc
  subst hc
  exact fresh_inv hI _

theorem contPut_inv (hI : Stable st fl b ok I) {above : List Str} {own po : Option Choice} {pres : Bool}
    {kids : List (Meta × Schema)} {ch pr : Bool} {ns : List Inst} {i : Nat} {k : Meta × Schema} {c : Inst} {o : Out}
    (hf : fl = true → ChoicesKids st above own (choiceNames kids ++ above) kids) (hk : kids[i]? = some k)
    (hc : ns[i]? = some c) (hn : TreeInv I (.cont pres kids) (.cont ch pr ns)) (ho : TreeInv I k.2 o.inst)
    (hg : fl = true → GoodSigs st (choiceNames kids ++ above) k.1.choice o.sigs)
    (hq : o.sigs = [] → Has b o.inst → Has b c) (hq' : o.sigs = [] → o.inst.changed = true → c.changed = true) :
    TreeInv I (.cont pres kids) (contPut pres po kids ch pr ns i o).inst := by
  obtain ⟨ns', h1, h2⟩ := contPut_spec pres po kids ch pr ns i o
  obtain ⟨_, _, _, he, i1, i2, i3⟩ := hn.cont_inv
  simp only [Inst.cont.injEq] at he
  obtain ⟨rfl, rfl, rfl⟩ := he
  have hl : ∀ j : Nat, ns'[j]? = none ↔ ns[j]? = none := by
    intro j
    rw [h2 j]
    by_cases e : j = i
    · subst e
      simp only [hc, reduceCtorEq, iff_false]
      have : j < ns.length := (List.getElem?_eq_some_iff.1 hc).1
      rw [List.getElem?_set_self this]
      cases kids[j]? <;> simp [clr]
    · rw [List.getElem?_set_ne (Ne.symm e)]
      cases kids[j]? <;> cases ns[j]? <;> simp [clr]
  rw [h1]
  refine .cont _ _ _ _ _ (hI.put above own po pres kids ch pr ns i k c o _ _ ns' hf hk hc i1 hg hq hq' h1) ?_ ?_
  · have a := hl ns.length
    have b := hl ns'.length
    simp only [List.getElem?_eq_none_iff] at a b
    omega
  · intro j k' c' hk' hc'
    rw [h2 j, hk'] at hc'
    cases hx : (ns.set i o.inst)[j]? with
    | none => simp [hx, clr] at hc'
    | some x =>
      simp only [hx, clr, Option.some.injEq] at hc'
      subst hc'
      split
      · exact fresh_inv hI _
      · by_cases e : i = j
        · subst e
          rw [List.getElem?_set_self (List.getElem?_eq_some_iff.1 hc).1] at hx
          simp at hx; subst hx
          rw [hk] at hk'; simp at hk'; subst hk'
          exact ho
        · rw [List.getElem?_set_ne e] at hx
          exact i3 j k' x hk' hx

theorem leafSet_inv {L : LeafCls} {own : Option Choice} {n : Inst} {v : PyVal} (hn : TreeInv I (.leaf L) n) :
    TreeInv I (.leaf L) (leafSet L own n v).inst := by
  simp only [leafSet]
  split
  · exact hn
  · exact hn
  · exact .leaf ..

theorem copyKids_inv (hI : Stable st fl b ok I) {above : List Str} {own po : Option Choice} {pres : Bool}
    {kids : List (Meta × Schema)} (hf : fl = true → ChoicesKids st above own (choiceNames kids ++ above) kids)
    (hkid : ∀ k ∈ kids, ∀ v, TreeInv I k.2 (copyNode k.2 k.1.choice (fresh k.2) v).inst)
    (vs : List Inst) (sg : List (Option Choice)) :
    TreeInv I (.cont pres kids)
      (copyKids pres po kids kids vs 0 ⟨.cont true pres (freshKids kids), sg, none⟩).inst := by
  refine copyKids_ind (P := fun o => TreeInv I (.cont pres kids) o.inst) pres po kids ?_ kids vs 0 _ (by simp) rfl
    (freshKids_inv hI pres kids (hI.new ..))
  intro i k v o ch pr ns hk ho hinv
  have hmem := List.mem_of_getElem? hk
  rw [ho] at hinv
  obtain ⟨_, _, _, he, _, i2, _⟩ := hinv.cont_inv
  simp only [Inst.cont.injEq] at he
  obtain ⟨rfl, rfl, rfl⟩ := he
  have hi : i < ns.length := by rw [i2]; exact (List.getElem?_eq_some_iff.1 hk).1
  refine contPut_inv (po := po) hI hf hk (List.getElem?_eq_getElem hi) hinv (hkid k hmem v)
    (fun h => copyNode_good _ _ _ _ v (flatKids_mem (hf h) hmem).2.2) ?_ ?_
  · intro hs hd
    rw [(copyNode_quiet hs).1] at hd
    exact absurd hd (has_fresh b _)
  · intro hs hd
    rw [(copyNode_quiet hs).1, fresh_changed] at hd
    simp at hd

theorem copyNode_inv (hI : Stable st fl b ok I) : ∀ (S : Schema) (above : List Str) (own : Option Choice) (n v : Inst),
    (fl = true → Choices st above own S) → TreeInv I S n → TreeInv I S (copyNode S own n v).inst := by
  intro S
  induction S using Schema.ind with
  | hleaf L =>
    intro above own n v _ hn
    cases v <;> simp only [copyNode] <;> first | exact leafSet_inv hn | exact hn
  | hll L =>
    intro above own n v _ hn
    cases v <;> simp only [copyNode] <;> try exact hn
    split
    · exact .leafList ..
    · exact hn
  | hcont pres kids ih =>
    intro above own n v hf hn
    cases v <;> simp only [copyNode] <;> try exact hn
    rename_i _ _ ns
    split
    · exact copyKids_inv hI hf (fun k hk v => ih k hk (choiceNames kids ++ above) _ _ v
        (fun h => (flatKids_mem (hf h) hk).2.2) (fresh_inv hI _)) ns _
    · exact hn
  | hlist info kids ih =>
    intro above own n v _ hn
    cases v <;> simp only [copyNode] <;> first | exact hn | exact .list _ _ _ _ (by simp)

theorem keySet_inv (hI : Stable st fl b ok I) {above : List Str} {own : Option Choice} {kids : List (Meta × Schema)}
    (hf : fl = true → ChoicesKids st above own (choiceNames kids ++ above) kids) {e : Inst}
    (he : TreeInv I (.cont false kids) e) (j : Nat) (v : PyVal) :
    TreeInv I (.cont false kids) (keySet kids e j v).inst := by
  simp only [keySet]
  split
  · rename_i m L ch pr ns hk
    obtain ⟨_, _, _, h, _, i2, i3⟩ := he.cont_inv
    simp only [Inst.cont.injEq] at h
    obtain ⟨rfl, rfl, rfl⟩ := h
    have hi : j < ns.length := by rw [i2]; exact (List.getElem?_eq_some_iff.1 hk).1
    have hc : ns[j]? = some ns[j] := List.getElem?_eq_getElem hi
    have hg : ns.getD j (fresh (.leaf L)) = ns[j] := by simp [List.getD, hc]
    refine contPut_inv hI hf hk hc he ?_ (fun h => leafSet_good ..) ?_ ?_
    · rw [hg]; exact leafSet_inv (i3 j _ _ hk hc)
    · intro hs hd
      rw [(leafSet_quiet hs).1, hg] at hd
      exact hd
    · intro hs hd
      rw [(leafSet_quiet hs).1, hg] at hd
      exact hd
  · exact he

theorem setKeys_inv (hI : Stable st fl b ok I) {above : List Str} {own : Option Choice} {info : ListInfo}
    {kids : List (Meta × Schema)} (hf : fl = true → ChoicesKids st above own (choiceNames kids ++ above) kids)
    {raws : List PyVal} : ∀ {i : Nat} {e e' : Inst}, TreeInv I (.cont false kids) e →
      setKeys (entryCls info kids) i raws e = .ok e' → TreeInv I (.cont false kids) e' := by
  induction raws with
  | nil => intro i e e' he h; simp only [setKeys, Except.ok.injEq] at h; subst h; exact he
  | cons r rs ih =>
    intro i e e' he h
    simp only [setKeys, bind_ok] at h
    obtain ⟨e1, h1, h2⟩ := h
    refine ih ?_ h2
    simp only [entryCls] at h1
    split at h1
    · rw [← (toExcept_ok h1).2]; exact keySet_inv hI hf he ..
    · simp at h1

theorem made_inv (hI : Stable st fl b ok I) {above : List Str} {own : Option Choice} {info : ListInfo}
    {kids : List (Meta × Schema)} (hf : fl = true → ChoicesKids st above own (choiceNames kids ++ above) kids)
    {e : Inst} (h : Made info kids e) : TreeInv I (.cont false kids) e := by
  rcases h with rfl | ⟨u, v, raws, _, h⟩
  · exact fresh_inv hI (.cont false kids)
  · simp only [mkEntry, bind_ok] at h
    obtain ⟨e0, h0, h1⟩ := h
    refine setKeys_inv hI hf ?_ h1
    unfold startEntry at h0
    split at h0
    · simp only [Except.ok.injEq] at h0; subst h0; exact fresh_inv hI (.cont false kids)
    · rename_i v
      obtain ⟨g1, g2⟩ := toExcept_ok h0
      subst g2
      cases v <;> simp only [copyEntry, fail, reduceCtorEq] at g1 ⊢
      exact copyKids_inv (pres := false) hI hf (fun k hk v => copyNode_inv hI _ _ _ _ _
        (fun h => (flatKids_mem (hf h) hk).2.2) (fresh_inv hI _)) _ _
    · simp at h0

theorem nodeOp_inv (hI : Stable st fl b ok I) {above : List Str} {own : Option Choice} {S : Schema} {n : Inst} {op : Op}
    (hf : fl = true → Choices st above own S) (hop : ok op) (hn : TreeInv I S n) :
    TreeInv I S (nodeOp S own n op).inst := by
  by_cases hu : op = .unset
  · subst hu; cases S <;> exact fresh_inv hI _
  by_cases ha : ∃ v, op = .assign v
  · obtain ⟨v, rfl⟩ := ha
    have e : nodeOp S own n (.assign v) = copyNode S own n v := by cases S <;> rfl
    rw [e]
    exact copyNode_inv hI _ _ _ _ _ hf hn
  have ha : ∀ v, op ≠ .assign v := fun v hv => ha ⟨v, hv⟩
  cases hn with
  | leaf L v ch =>
    cases op with
    | set v l => exact leafSet_inv (.leaf ..)
    | present x => cases x <;> exact .leaf ..
    | unset => exact absurd rfl hu
    | assign v => exact absurd rfl (ha _)
    | _ => exact .leaf ..
  | leafList L vs ch =>
    cases op with
    | ll op =>
      simp only [nodeOp, llApply]
      split
      · split <;> exact .leafList ..
      · split <;> exact .leafList ..
      · split <;> exact .leafList ..
    | present x => cases x <;> exact .leafList ..
    | unset => exact absurd rfl hu
    | assign v => exact absurd rfl (ha _)
    | _ => exact .leafList ..
  | cont pres kids ch pr ns h1 h2 h3 =>
    cases op with
    | present x =>
      cases x with
      | true => exact .cont _ _ _ _ _ (hI.present _ _ _ _ _ h1) h2 h3
      | false => exact .cont _ _ _ _ _ (hI.absent hop _ _ _ _ _ h1) h2 h3
    | unset => exact absurd rfl hu
    | assign v => exact absurd rfl (ha _)
    | _ => exact .cont _ _ _ _ _ h1 h2 h3
  | list info kids ch es h =>
    have hs := nodeOp_list_shape info kids own ch es op hu ha
    generalize nodeOp (.list info kids) own (.list ch es) op = o at hs
    cases hs with
    | refused ch' sg e => exact .list _ _ _ _ h
    | stored ch' k e sg hm hne =>
      refine .list _ _ _ _ fun q hq => ?_
      rcases store_mem hq with h1 | ⟨h1, _⟩
      · exact h q h1
      · rw [h1]; exact made_inv hI hf hm
    | removed k es' he =>
      obtain ⟨l, p, r, h1, _, _, h4⟩ := erase_ok he
      subst h1; subst h4
      refine .list _ _ _ _ fun q hq => h q ?_
      simp only [List.mem_append, List.mem_cons] at hq ⊢
      rcases hq with hq | hq <;> simp [hq]
    | anon u _ =>
      refine .list _ _ _ _ fun q hq => ?_
      rcases store_mem hq with h1 | ⟨h1, _⟩
      · exact h q h1
      · rw [h1]; exact fresh_inv hI (.cont false kids)

/-- Every operation keeps an invariant. -/
theorem run_inv (hI : Stable st fl b ok I) {p : Path} : ∀ {above : List Str} {own po : Option Choice} {S : Schema}
    {n : Inst} {op : Op}, (fl = true → Choices st above own S) → (po = own ∨ (po = none ∧ p ≠ [])) → ok op →
    TreeInv I S n → TreeInv I S (run S po n p op).inst := by
  induction p with
  | nil =>
    intro above own po S n op hf hpo hop hn
    simp at hpo
    subst hpo
    rw [run_nil]
    exact nodeOp_inv hI hf hop hn
  | cons s p ih =>
    intro above own po S n op hf hpo hop hn
    have hs := run_shape S po n s p op
    generalize run S po n (s :: p) op = o at hs
    cases hs with
    | stuck => exact hn
    | field pres kids ch pr ns i k c hk hc =>
      obtain ⟨_, _, _, he, _, _, i3⟩ := hn.cont_inv
      simp only [Inst.cont.injEq] at he
      obtain ⟨rfl, rfl, rfl⟩ := he
      have hkf : fl = true → Choices st (choiceNames kids ++ above) k.1.choice k.2 :=
        fun h => (flatKids_mem (hf h) (List.mem_of_getElem? hk)).2.2
      refine contPut_inv hI hf hk hc hn (ih hkf (.inl rfl) hop (i3 i k c hk hc)) (fun h => run_good (hkf h) (.inl rfl)) ?_
        run_quiet_changed
      intro hs hd
      exact run_quiet (fun hb u hu => hI.anon hb u (hu ▸ hop)) hs hd
    | entry info kids ch es k q hk hq hp hg =>
      cases hn with
      | list _ _ _ _ h =>
        refine .list _ _ _ _ fun x hx => ?_
        rcases store_mem hx with h1 | ⟨h1, _⟩
        · exact h x h1
        · rw [h1]
          exact ih (S := .cont false kids) hf (.inr ⟨rfl, hp⟩) hop (h q (List.mem_of_find?_eq_some hq))

/-- The same for a whole binding: every top-level child keeps it. -/
def RootInv (I : CInv) (kids : List (Meta × Schema)) (ns : List Inst) : Prop :=
  ns.length = kids.length ∧ ∀ (i : Nat) (k : Meta × Schema) c, kids[i]? = some k → ns[i]? = some c → TreeInv I k.2 c

theorem rootInv_fresh (hI : Stable st fl b ok I) (kids : List (Meta × Schema)) : RootInv I kids (freshKids kids) := by
  refine ⟨freshKids_length _, ?_⟩
  intro i k c hk hc
  rw [freshKids_get, hk] at hc
  simp at hc
  subst hc
  exact fresh_inv hI _

theorem runRoot_inv (hI : Stable st fl b ok I) {kids : List (Meta × Schema)} {ns : List Inst} {p : Path} {op : Op}
    (hf : fl = true → ChoicesRoot st kids) (hop : ok op) (h : RootInv I kids ns) : RootInv I kids (runRoot kids ns p op).1 := by
  cases p with
  | nil => exact h
  | cons s p =>
    cases s with
    | key k => exact h
    | field i =>
      simp only [runRoot]
      split
      · rename_i k c hk hc
        refine ⟨by simpa using h.1, ?_⟩
        intro j k' c' hk' hc'
        simp only at hc'
        by_cases e : i = j
        · subst e
          rw [List.getElem?_set_self (List.getElem?_eq_some_iff.1 hc).1] at hc'
          rw [hk] at hk'; simp at hk' hc'; subst hk'; subst hc'
          exact run_inv hI (fun hh => hf hh k (List.mem_of_getElem? hk)) (.inl rfl) hop (h.2 i k c hk hc)
        · rw [List.getElem?_set_ne e] at hc'
          exact h.2 j k' c' hk' hc'
      · exact h

theorem history_inv (hI : Stable st fl b ok I) {kids : List (Meta × Schema)} (hf : fl = true → ChoicesRoot st kids)
    {ops : List (Path × Op)} (hop : ∀ x ∈ ops, ok x.2) : ∀ {ns : List Inst}, RootInv I kids ns →
    RootInv I kids (history kids ns ops) := by
  induction ops with
  | nil => intro ns h; exact h
  | cons x ops ih =>
    intro ns h
    obtain ⟨p, op⟩ := x
    exact ih (fun y hy => hop y (List.mem_cons_of_mem _ hy)) (runRoot_inv hI hf (hop (p, op) (List.mem_cons_self ..)) h)

/-! ## Reading an invariant along a path -/

theorem treeInv_at {p : Path} : ∀ {S : Schema} {n : Inst}, TreeInv I S n → ∀ {T m}, schemaAt S p = some T →
    nodeAt n p = some m → TreeInv I T m := by
  induction p with
  | nil => intro S n h T m hT hm; simp at hT hm; subst hT; subst hm; exact h
  | cons s p ih =>
    intro S n h T m hT hm
    cases h with
    | leaf => rw [nodeAt_leaf] at hm; simp at hm
    | leafList => rw [nodeAt_leafList] at hm; simp at hm
    | cont pres kids ch pr ns h1 h2 h3 =>
      cases s with
      | key k => simp [nodeAt_cont_key] at hm
      | field i =>
        rw [nodeAt_cont] at hm
        rw [schemaAt_cont] at hT
        cases hc : ns[i]? with
        | none => simp [hc] at hm
        | some c =>
          cases hk : kids[i]? with
          | none => simp [hk] at hT
          | some k =>
            simp only [hc, hk, Option.bind_some] at hm hT
            exact ih (h3 i k c hk hc) hT hm
    | list info kids ch es h =>
      cases s with
      | field k => simp [nodeAt_list_field] at hm
      | key k =>
        rw [nodeAt_list] at hm
        cases hc : es.find? (fun q => pyEq q.1 k) with
        | none => simp [hc] at hm
        | some q =>
          simp only [hc, Option.bind_some] at hm
          exact ih (h q (List.mem_of_find?_eq_some hc)) hT hm

/-! ## The invariants -/

/-- At most one case of a choice holds data. -/
def IExcl : CInv := fun _ kids _ _ ns =>
  ∀ (i j : Nat) a b x y, kids[i]? = some a → kids[j]? = some b → ns[i]? = some x → ns[j]? = some y →
    Rivals a.1 b.1 → ¬ (Has true x ∧ Has true y)

/-- A container with a set leaf below is changed, and present if it has presence. -/
def IMark : CInv := fun pres _ ch pr ns => (∃ c ∈ ns, Has false c) → ch = true ∧ (pres = true → pr = true)

theorem noData_freshKids {b : Bool} {kids : List (Meta × Schema)} {c : Inst} (h : c ∈ freshKids kids) : ¬ Has b c := by
  obtain ⟨T, rfl⟩ := freshKids_mem h
  exact has_fresh b T

theorem stable_mark : Stable st false false (fun op => op ≠ .present false) IMark where
  fresh pres kids := by rintro ⟨c, hc, h⟩; exact absurd h (noData_freshKids hc)
  new pres kids := by rintro ⟨c, hc, h⟩; exact absurd h (noData_freshKids hc)
  present _ _ _ _ _ _ _ := ⟨rfl, fun _ => rfl⟩
  absent h := absurd rfl h
  anon h := by simp at h
  put above own po pres kids ch pr ns i k c o ch' pr' ns' _ hk hc hI _ hq _ he := by
    by_cases hs : o.sigs = []
    · rw [contPut_quiet _ _ _ _ _ _ _ _ hs] at he
      simp only [Inst.cont.injEq] at he
      obtain ⟨rfl, rfl, rfl⟩ := he
      rintro ⟨x, hx, hd⟩
      rcases List.mem_or_eq_of_mem_set hx with hx | rfl
      · exact hI ⟨x, hx, hd⟩
      · exact hI ⟨c, List.mem_of_getElem? hc, hq hs hd⟩
    · obtain ⟨ns'', h1, _⟩ := contPut_spec pres po kids ch pr ns i o
      rw [h1] at he
      simp only [Inst.cont.injEq] at he
      obtain ⟨rfl, rfl, rfl⟩ := he
      intro _
      cases h : o.sigs with
      | nil => exact absurd h hs
      | cons s t => simp; intro hp; exact .inr hp

theorem stable_excl : Stable true true true (fun op => ∀ u, op ≠ .addAnon u) IExcl where
  fresh pres kids := by
    intro i j a b x y _ _ hx _ _ h
    exact absurd h.1 (noData_freshKids (List.mem_of_getElem? hx))
  new pres kids := by
    intro i j a b x y _ _ hx _ _ h
    exact absurd h.1 (noData_freshKids (List.mem_of_getElem? hx))
  present _ _ _ _ _ h := h
  absent _ _ _ _ _ _ h := h
  anon _ u h := h u rfl
  put above own po pres kids ch pr ns i k c o ch' pr' ns' hf hk hc hI hg hq _ he := by
    have hi := (List.getElem?_eq_some_iff.1 hc).1
    obtain ⟨ns'', h1, h2, h3, h4, h5, h6⟩ := contPut_flat (pres := pres) (po := po) (ch := ch) (pr := pr) (hf rfl) hk hi (hg rfl)
    rw [h1] at he
    simp only [Inst.cont.injEq] at he
    obtain ⟨rfl, rfl, rfl⟩ := he
    -- a rival of the changed child has no data if the child has some
    have key : ∀ (j : Nat) b y, kids[j]? = some b → ns''[j]? = some y → Rivals k.1 b.1 →
        ¬ (Has true o.inst ∧ Has true y) := by
      intro j b y hb hy hr ⟨hd1, hd2⟩
      by_cases hs : o.sigs = []
      · have e : j ≠ i := by
          rintro rfl; rw [hk] at hb; simp at hb; subst hb; exact rivals_irrefl _ hr
        rw [h6 j b hb e (fun _ => hs)] at hy
        exact hI i j k b c y hk hb hc hy hr ⟨hq hs hd1, hd2⟩
      · rw [h5 rfl j b hb hr hs] at hy
        simp only [Option.map_eq_some_iff] at hy
        obtain ⟨_, _, rfl⟩ := hy
        exact has_fresh true _ hd2
    intro j l a b x y ha hb hx hy hr ⟨hd1, hd2⟩
    by_cases ej : j = i
    · subst ej
      rw [hk] at ha; simp at ha; subst ha
      rw [h2] at hx; simp at hx; subst hx
      exact key l b y hb hy hr ⟨hd1, hd2⟩
    · by_cases el : l = i
      · subst el
        rw [hk] at hb; simp at hb; subst hb
        rw [h2] at hy; simp at hy; subst hy
        exact key j a x ha hx (rivals_symm hr) ⟨hd2, hd1⟩
      · have old : ∀ (j : Nat) a x, j ≠ i → kids[j]? = some a → ns''[j]? = some x → Has true x → ns[j]? = some x := by
          intro j a x e ha hx hd
          by_cases hr : Rivals k.1 a.1 ∧ o.sigs ≠ []
          · rw [h5 rfl j a ha hr.1 hr.2] at hx
            simp only [Option.map_eq_some_iff] at hx
            obtain ⟨_, _, rfl⟩ := hx
            exact absurd hd (has_fresh true _)
          · rw [h6 j a ha e (fun h => Decidable.not_not.1 fun h' => hr ⟨h, h'⟩)] at hx
            exact hx
        exact hI j l a b x y ha hb (old j a x ej ha hx hd1) (old l b y el hb hy hd2) hr ⟨hd1, hd2⟩

theorem exclusive_of_inv {S : Schema} {n : Inst} (h : TreeInv IExcl S n) : Exclusive S n := by
  intro p pres kids ch pr ns hS hn i j a b x y ha hb hx hy hr ⟨h1, h2⟩
  obtain ⟨_, _, _, he, hI, _, _⟩ := (treeInv_at h hS hn).cont_inv
  simp only [Inst.cont.injEq] at he
  obtain ⟨rfl, rfl, rfl⟩ := he
  exact hI i j a b x y ha hb hx hy hr ⟨(hasData_iff _).1 h1, (hasData_iff _).1 h2⟩

/-- At most one case of a choice is changed. -/
def IChg : CInv := fun _ kids _ _ ns =>
  ∀ (i j : Nat) a b x y, kids[i]? = some a → kids[j]? = some b → ns[i]? = some x → ns[j]? = some y →
    Rivals a.1 b.1 → ¬ (x.changed = true ∧ y.changed = true)

theorem changed_freshKids {kids : List (Meta × Schema)} {c : Inst} (h : c ∈ freshKids kids) : c.changed = false := by
  obtain ⟨T, rfl⟩ := freshKids_mem h
  exact fresh_changed T

theorem stable_chg : Stable true true false (fun op => op ≠ .present false) IChg where
  fresh pres kids := by
    intro i j a b x y _ _ hx _ _ h
    rw [changed_freshKids (List.mem_of_getElem? hx)] at h
    simp at h
  new pres kids := by
    intro i j a b x y _ _ hx _ _ h
    rw [changed_freshKids (List.mem_of_getElem? hx)] at h
    simp at h
  present _ _ _ _ _ h := h
  absent _ _ _ _ _ _ h := h
  anon h := by simp at h
  put above own po pres kids ch pr ns i k c o ch' pr' ns' hf hk hc hI hg _ hq he := by
    have hi := (List.getElem?_eq_some_iff.1 hc).1
    obtain ⟨ns'', h1, h2, h3, h4, h5, h6⟩ := contPut_flat (pres := pres) (po := po) (ch := ch) (pr := pr) (hf rfl) hk hi (hg rfl)
    rw [h1] at he
    simp only [Inst.cont.injEq] at he
    obtain ⟨rfl, rfl, rfl⟩ := he
    have key : ∀ (j : Nat) b y, kids[j]? = some b → ns''[j]? = some y → Rivals k.1 b.1 →
        ¬ (o.inst.changed = true ∧ y.changed = true) := by
      intro j b y hb hy hr ⟨hd1, hd2⟩
      by_cases hs : o.sigs = []
      · have e : j ≠ i := by
          rintro rfl; rw [hk] at hb; simp at hb; subst hb; exact rivals_irrefl _ hr
        rw [h6 j b hb e (fun _ => hs)] at hy
        exact hI i j k b c y hk hb hc hy hr ⟨hq hs hd1, hd2⟩
      · rw [h5 rfl j b hb hr hs] at hy
        simp only [Option.map_eq_some_iff] at hy
        obtain ⟨_, _, rfl⟩ := hy
        rw [fresh_changed] at hd2
        simp at hd2
    intro j l a b x y ha hb hx hy hr ⟨hd1, hd2⟩
    by_cases ej : j = i
    · subst ej
      rw [hk] at ha; simp at ha; subst ha
      rw [h2] at hx; simp at hx; subst hx
      exact key l b y hb hy hr ⟨hd1, hd2⟩
    · by_cases el : l = i
      · subst el
        rw [hk] at hb; simp at hb; subst hb
        rw [h2] at hy; simp at hy; subst hy
        exact key j a x ha hx (rivals_symm hr) ⟨hd2, hd1⟩
      · have old : ∀ (j : Nat) a x, j ≠ i → kids[j]? = some a → ns''[j]? = some x → x.changed = true → ns[j]? = some x := by
          intro j a x e ha hx hd
          by_cases hr : Rivals k.1 a.1 ∧ o.sigs ≠ []
          · rw [h5 rfl j a ha hr.1 hr.2] at hx
            simp only [Option.map_eq_some_iff] at hx
            obtain ⟨_, _, rfl⟩ := hx
            rw [fresh_changed] at hd
            simp at hd
          · rw [h6 j a ha e (fun h => Decidable.not_not.1 fun h' => hr ⟨h, h'⟩)] at hx
            exact hx
        exact hI j l a b x y ha hb (old j a x ej ha hx hd1) (old l b y el hb hy hd2) hr ⟨hd1, hd2⟩

/-- A present container is changed; a presence container is present iff it is changed. -/
def IPres : CInv := fun pres _ ch pr _ => (pr = true → ch = true) ∧ (pres = true → ch = pr)

theorem stable_pres : Stable st false false (fun _ => True) IPres where
  fresh _ _ := ⟨id, fun _ => rfl⟩
  new _ _ := ⟨fun _ => rfl, fun h => h.symm⟩
  present _ _ _ _ _ _ := ⟨id, fun _ => rfl⟩
  absent _ _ _ _ _ _ _ := ⟨id, fun _ => rfl⟩
  anon h := by simp at h
  put above own po pres kids ch pr ns i k c o ch' pr' ns' _ hk hc hI _ _ _ he := by
    obtain ⟨ns'', h1, _⟩ := contPut_spec pres po kids ch pr ns i o
    rw [h1] at he
    simp only [Inst.cont.injEq] at he
    obtain ⟨rfl, rfl, rfl⟩ := he
    refine ⟨?_, ?_⟩
    · intro h
      simp only [Bool.or_eq_true, Bool.and_eq_true] at h ⊢
      rcases h with h | h
      · exact .inl (hI.1 h)
      · exact .inr h.2
    · intro hp
      rw [hI.2 hp, hp, Bool.true_and]

/-- A container with data below is changed. -/
def IMarkD : CInv := fun _ _ ch _ ns => (∃ c ∈ ns, Has true c) → ch = true

theorem stable_markD : Stable st false true (fun op => op ≠ .present false ∧ ∀ u, op ≠ .addAnon u) IMarkD where
  fresh pres kids := by rintro ⟨c, hc, h⟩; exact absurd h (noData_freshKids hc)
  new pres kids := by rintro ⟨c, hc, h⟩; exact absurd h (noData_freshKids hc)
  present _ _ _ _ _ _ _ := rfl
  absent h := absurd rfl h.1
  anon _ u h := h.2 u rfl
  put above own po pres kids ch pr ns i k c o ch' pr' ns' _ hk hc hI _ hq _ he := by
    by_cases hs : o.sigs = []
    · rw [contPut_quiet _ _ _ _ _ _ _ _ hs] at he
      simp only [Inst.cont.injEq] at he
      obtain ⟨rfl, rfl, rfl⟩ := he
      rintro ⟨x, hx, hd⟩
      rcases List.mem_or_eq_of_mem_set hx with hx | rfl
      · exact hI ⟨x, hx, hd⟩
      · exact hI ⟨c, List.mem_of_getElem? hc, hq hs hd⟩
    · obtain ⟨ns'', h1, _⟩ := contPut_spec pres po kids ch pr ns i o
      rw [h1] at he
      simp only [Inst.cont.injEq] at he
      obtain ⟨rfl, rfl, rfl⟩ := he
      intro _
      cases h : o.sigs with
      | nil => exact absurd h hs
      | cons s t => simp

end Pyb
