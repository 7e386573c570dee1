import Verif.Lemmas.Tree

namespace Pyb
open Py Spec

/-! ## Induction over classes -/

theorem Schema.ind {P : Schema → Prop} (hleaf : ∀ L, P (.leaf L)) (hll : ∀ L, P (.leafList L))
    (hcont : ∀ pres kids, (∀ k ∈ kids, P k.2) → P (.cont pres kids))
    (hlist : ∀ info kids, (∀ k ∈ kids, P k.2) → P (.list info kids)) : ∀ S, P S
  | .leaf L => hleaf L
  | .leafList L => hll L
  | .cont pres kids => hcont pres kids fun k hk => Schema.ind hleaf hll hcont hlist k.2
  | .list info kids => hlist info kids fun k hk => Schema.ind hleaf hll hcont hlist k.2
termination_by S => sizeOf S
decreasing_by
  all_goals
    have := List.sizeOf_lt_of_mem hk
    rcases k with ⟨m, T⟩
    simp at this ⊢
    omega

/-- A property kept by every turn of the copying loop holds of its result. -/
theorem copyKids_ind {P : Out → Prop} (pres : Bool) (own : Option Choice) (all : List (Meta × Schema))
    (hstep : ∀ (i : Nat) (k : Meta × Schema) (v : Inst) (o : Out) (ch pr : Bool) (ns : List Inst),
      all[i]? = some k → o.inst = .cont ch pr ns → P o →
      P ⟨(contPut pres own all ch pr ns i (copyNode k.2 k.1.choice (fresh k.2) v)).inst,
         o.sigs ++ (contPut pres own all ch pr ns i (copyNode k.2 k.1.choice (fresh k.2) v)).sigs,
         (copyNode k.2 k.1.choice (fresh k.2) v).err⟩) :
    ∀ (ks : List (Meta × Schema)) (vs : List Inst) (i : Nat) (o : Out),
      (∀ j : Nat, ks[j]? = all[i + j]?) → o.err = none → P o → P (copyKids pres own all ks vs i o) := by
  intro ks
  induction ks with
  | nil => intro vs i o _ _ h; simpa [copyKids] using h
  | cons k ks ih =>
    intro vs i o hks he h
    have h0 : all[i]? = some k := by have := hks 0; simpa using this.symm
    have hn : ∀ j : Nat, ks[j]? = all[i + 1 + j]? := by
      intro j; have := hks (j + 1); simpa [Nat.add_assoc, Nat.add_comm 1 j] using this
    cases vs with
    | nil => simpa [copyKids] using h
    | cons v vs =>
      simp only [copyKids]
      split
      · split
        · rename_i ch pr ns hi
          have hs := hstep i k v o ch pr ns h0 hi h
          split
          · rename_i e he'
            rw [he'] at hs
            exact hs
          · rename_i he'
            rw [he'] at hs
            exact ih vs (i + 1) _ hn rfl hs
        · exact h
      · exact ih vs (i + 1) o hn he h

/-! ## Which calls of `_set` can come out of a flat class -/

/-- A call a flat class makes on the container it is in. -/
def Compat (above : List Str) (own s : Option Choice) : Prop :=
  s = none ∨ s = own ∨ ∀ c, s = some c → c.name ∉ above

/-- All calls are compatible, and if there are any the class's own choice is among them
(in strict classes). -/
def GoodSigs (st : Bool) (above : List Str) (own : Option Choice) (sigs : List (Option Choice)) : Prop :=
  (∀ s ∈ sigs, Compat above own s) ∧ (st = true → ∀ c, own = some c → sigs ≠ [] → some c ∈ sigs)

variable {st : Bool}

theorem good_nil (above : List Str) (own : Option Choice) : GoodSigs st above own [] := by
  constructor <;> simp

theorem good_own (above : List Str) (own : Option Choice) : GoodSigs st above own [own] := by
  constructor
  · intro s hs; simp at hs; exact .inr (.inl hs)
  · rintro _ c rfl _; simp

theorem good_own_none (above : List Str) (own : Option Choice) : GoodSigs st above own [own, none] := by
  constructor
  · intro s hs; simp at hs; rcases hs with hs | hs
    · exact .inr (.inl hs)
    · exact .inl hs
  · rintro _ c rfl _; simp

theorem good_append {above : List Str} {own : Option Choice} {a b : List (Option Choice)}
    (ha : GoodSigs st above own a) (hb : GoodSigs st above own b) : GoodSigs st above own (a ++ b) := by
  refine ⟨fun s hs => ?_, fun hst c hc hne => ?_⟩
  · rcases List.mem_append.1 hs with h | h
    · exact ha.1 s h
    · exact hb.1 s h
  · by_cases h : a = []
    · subst h; exact List.mem_append_right _ (hb.2 hst c hc (by simpa using hne))
    · exact List.mem_append_left _ (ha.2 hst c hc h)

/-- After a call with the class's own choice, more compatible calls do no harm. -/
theorem good_cons {above : List Str} {own : Option Choice} {a : List (Option Choice)}
    (ha : ∀ s ∈ a, Compat above own s) : GoodSigs st above own (own :: a) := by
  refine ⟨fun s hs => ?_, fun _ c hc _ => by simp [hc]⟩
  rcases List.mem_cons.1 hs with h | h
  · exact .inr (.inl h)
  · exact ha s h

theorem flatKids_mem {above here : List Str} {own : Option Choice} {ks : List (Meta × Schema)}
    (h : ChoicesKids st above own here ks) {k : Meta × Schema} (hk : k ∈ ks) :
    (st = true → ∀ c, own = some c → k.1.choice = some c) ∧ (k.1.choice = own ∨ ∀ c, k.1.choice = some c → c.name ∉ above) ∧
    Choices st here k.1.choice k.2 := by
  induction ks with
  | nil => simp at hk
  | cons k' ks ih =>
    simp only [ChoicesKids] at h
    rcases List.mem_cons.1 hk with rfl | hk
    · refine ⟨?_, h.1.imp id (·.2), h.2.1⟩
      rintro hst c rfl
      rcases h.1 with h | h
      · exact h
      · simp at h; exact absurd hst (by simp [h.1])
    · exact ih h.2.2 hk

/-- What a child's calls become when the container passes them on. -/
theorem good_pass {above : List Str} {own po : Option Choice} {kids : List (Meta × Schema)}
    (hf : ChoicesKids st above own (choiceNames kids ++ above) kids) {k : Meta × Schema} (hk : k ∈ kids)
    (hpo : po = own ∨ po = none) {sigs : List (Option Choice)}
    (hg : GoodSigs st (choiceNames kids ++ above) k.1.choice sigs) : GoodSigs st above own (sigs.map (·.or po)) := by
  obtain ⟨h1, h2, _⟩ := flatKids_mem hf hk
  have hpass : Compat above own po := by
    rcases hpo with rfl | rfl
    · exact .inr (.inl rfl)
    · exact .inl rfl
  refine ⟨fun s hs => ?_, fun hst c hc hne => ?_⟩
  · obtain ⟨t, ht, rfl⟩ := List.mem_map.1 hs
    cases t with
    | none => simpa using hpass
    | some c =>
      simp only [Option.some_or]
      rcases hg.1 _ ht with h | h | h
      · simp at h
      · rcases h2 with h2 | h2
        · exact .inr (.inl (h.trans h2))
        · exact .inr (.inr (fun d e => h2 d (by rw [← h, e])))
      · refine .inr (.inr fun d e => ?_)
        have := h d e
        simp at this
        exact this.2
  · have hne' : sigs ≠ [] := by intro e; simp [e] at hne
    have := hg.2 hst c (h1 hst c hc) hne'
    exact List.mem_map.2 ⟨_, this, by simp⟩

theorem leafSet_good (above : List Str) (L : LeafCls) (own : Option Choice) (n : Inst) (v : PyVal) :
    GoodSigs st above own (leafSet L own n v).sigs := by
  simp only [leafSet]
  cases L.set v
  · exact good_nil ..
  · exact good_own ..
  · exact good_own_none ..

theorem copyKids_good {above : List Str} {own po : Option Choice} {pres : Bool} {kids : List (Meta × Schema)}
    (hf : ChoicesKids st above own (choiceNames kids ++ above) kids) (hpo : po = own ∨ po = none)
    (hkid : ∀ k ∈ kids, ∀ v, GoodSigs st (choiceNames kids ++ above) k.1.choice
      (copyNode k.2 k.1.choice (fresh k.2) v).sigs)
    {n : Inst} {sg : List (Option Choice)} (vs : List Inst) (h0 : ∀ s ∈ sg, Compat above own s) :
    ∀ s ∈ (copyKids pres po kids kids vs 0 ⟨n, sg, none⟩).sigs, Compat above own s := by
  refine copyKids_ind (P := fun o => ∀ s ∈ o.sigs, Compat above own s) pres po kids ?_ kids vs 0 _
    (by simp) rfl h0
  intro i k v o ch pr ns hk _ ho s hs
  rcases List.mem_append.1 hs with h | h
  · exact ho s h
  · exact (good_pass hf (List.mem_of_getElem? hk) hpo (hkid k (List.mem_of_getElem? hk) v)).1 s h

theorem copyNode_good : ∀ (S : Schema) (above : List Str) (own : Option Choice) (n v : Inst),
    Choices st above own S → GoodSigs st above own (copyNode S own n v).sigs := by
  intro S
  induction S using Schema.ind with
  | hleaf L =>
    intro above own n v _
    cases v <;> simp only [copyNode] <;> first | exact leafSet_good .. | exact good_nil ..
  | hll L =>
    intro above own n v _
    cases v <;> simp only [copyNode] <;> try exact good_nil ..
    split
    · exact good_own_none ..
    · exact good_own ..
  | hcont pres kids ih =>
    intro above own n v hf
    cases v <;> simp only [copyNode] <;> try exact good_own ..
    rename_i _ _ ns
    simp only [Choices] at hf
    have h1 := copyKids_good (pres := pres) (n := .cont true pres (freshKids kids)) (sg := [own]) hf (.inl rfl)
      (fun k hk v => ih k hk _ _ _ v (flatKids_mem hf hk).2.2) ns
      (by intro s hs; simp at hs; exact .inr (.inl hs))
    obtain ⟨rest, hr⟩ := copyKids_sigs pres own kids kids ns 0 ⟨.cont true pres (freshKids kids), [own], none⟩
    simp only at hr
    have h2 : GoodSigs st above own (copyKids pres own kids kids ns 0 ⟨.cont true pres (freshKids kids), [own], none⟩).sigs := by
      rw [hr] at h1 ⊢
      exact good_cons fun s hs => h1 s (List.mem_append_right _ hs)
    split
    · refine ⟨fun s hs => ?_, fun hst c hc _ => List.mem_append_left _ (h2.2 hst c hc (by rw [hr]; simp))⟩
      rcases List.mem_append.1 hs with h | h
      · exact h2.1 s h
      · simp at h; exact .inl h
    · exact h2
  | hlist info kids ih =>
    intro above own n v _
    cases v <;> simp only [copyNode] <;> first | exact good_own_none .. | exact good_nil ..

theorem copyEntry_good {above : List Str} {own : Option Choice} {kids : List (Meta × Schema)}
    (hf : ChoicesKids st above own (choiceNames kids ++ above) kids) (v : Inst) :
    ∀ s ∈ (copyEntry kids v).sigs, Compat above own s := by
  cases v <;> simp only [copyEntry] <;> try (intro s hs; simp [fail] at hs; done)
  exact copyKids_good hf (.inr rfl) (fun k hk v => copyNode_good _ _ _ _ v (flatKids_mem hf hk).2.2) _
    (by intro s hs; simp at hs; exact .inl hs)

theorem keySet_good {above : List Str} {own : Option Choice} {kids : List (Meta × Schema)}
    (hf : ChoicesKids st above own (choiceNames kids ++ above) kids) (e : Inst) (j : Nat) (v : PyVal) :
    GoodSigs st above own (keySet kids e j v).sigs := by
  simp only [keySet]
  split
  · rename_i m L ch pr ns hk
    exact good_pass hf (List.mem_of_getElem? hk) (.inr rfl) (leafSet_good ..)
  · exact good_nil ..

theorem keySigs_good {above : List Str} {own : Option Choice} {kids : List (Meta × Schema)}
    (hf : ChoicesKids st above own (choiceNames kids ++ above) kids) :
    ∀ (rs : List (Nat × PyVal)) (e : Inst), GoodSigs st above own (keySigs kids e rs) := by
  intro rs
  induction rs with
  | nil => intro e; exact good_nil ..
  | cons r rs ih =>
    intro e
    obtain ⟨j, v⟩ := r
    simp only [keySigs]
    split
    · exact good_append (keySet_good hf ..) (ih _)
    · exact keySet_good hf ..

theorem setPosSigs_good {above : List Str} {own : Option Choice} {info : ListInfo} {kids : List (Meta × Schema)}
    (hf : ChoicesKids st above own (choiceNames kids ++ above) kids) (ms : Members Inst) (k : PyVal) (v : Option Inst) :
    (∀ s ∈ setPosSigs info kids ms k v, Compat above own s) ∧
    (v = none → GoodSigs st above own (setPosSigs info kids ms k v)) := by
  have nil : (∀ s ∈ ([] : List (Option Choice)), Compat above own s) ∧
    (v = none → GoodSigs st above own []) := ⟨by simp, fun _ => good_nil ..⟩
  simp only [setPosSigs]
  split
  · exact nil
  · split
    · exact nil
    · split
      · exact nil
      · cases v with
        | none =>
          simp only
          split
          · exact ⟨nil.1, fun _ => good_nil ..⟩
          · exact ⟨(keySigs_good hf _ _).1, fun _ => keySigs_good hf _ _⟩
        | some v =>
          simp only
          refine ⟨fun s hs => ?_, by simp⟩
          split at hs
          · exact copyEntry_good hf v s hs
          · rcases List.mem_append.1 hs with h | h
            · exact copyEntry_good hf v s h
            · exact (keySigs_good hf _ _).1 s h

theorem listOut_sigs (ch : Bool) (es : Members Inst) (sg : List (Option Choice)) (r : Except Err (Members Inst)) :
    (listOut ch es sg r).sigs = sg := by cases r <;> rfl

theorem llApply_good (above : List Str) (L : LLCls) (own : Option Choice) (xs : List PyVal) (ch : Bool) (op : LLOp) :
    GoodSigs st above own (llApply L own xs ch op).sigs := by
  simp only [llApply]
  split
  · split
    · exact good_own_none ..
    · exact good_own ..
  · split
    · exact good_own_none ..
    · exact good_own ..
  · split
    · exact good_own ..
    · exact good_nil ..

theorem nodeOp_good {above : List Str} {own : Option Choice} {S : Schema} (hf : Choices st above own S) (n : Inst) (op : Op) :
    GoodSigs st above own (nodeOp S own n op).sigs := by
  have hfail : ∀ e, GoodSigs st above own (fail n e).sigs := fun _ => good_nil ..
  cases op with
  | unset => have : (nodeOp S own n .unset).sigs = [] := by cases S <;> rfl
             rw [this]; exact good_nil ..
  | assign v =>
    have : nodeOp S own n (.assign v) = copyNode S own n v := by cases S <;> rfl
    rw [this]; exact copyNode_good _ _ _ _ _ hf
  | set v l => cases S <;> first | exact leafSet_good .. | (cases n <;> exact good_nil ..)
  | ll op => cases S <;> cases n <;> first | exact llApply_good .. | exact good_nil ..
  | present b => cases b <;> cases S <;> cases n <;> first | exact good_own .. | exact good_nil ..
  | add k =>
    cases S <;> cases n <;> try exact good_nil ..
    rename_i info kids ch es
    simp only [nodeOp]
    split
    · exact good_nil ..
    · rw [listOut_sigs]
      simp only [addSigs]
      split
      · exact good_nil ..
      · split
        · exact good_nil ..
        · exact (setPosSigs_good hf es k none).2 rfl
  | addNamed raws =>
    cases S <;> cases n <;> try exact good_nil ..
    rename_i info kids ch es
    simp only [nodeOp]
    split
    · exact good_nil ..
    · rw [listOut_sigs]
      simp only [addNamedSigs]
      split
      · exact good_nil ..
      · split
        · exact good_nil ..
        · exact keySigs_good hf _ _
  | addAnon u =>
    cases S <;> cases n <;> try exact good_nil ..
    simp only [nodeOp]
    split <;> exact good_nil ..
  | append v =>
    cases S <;> cases n <;> try exact good_nil ..
    simp only [nodeOp]
    split
    · exact good_own ..
    · rw [listOut_sigs]; exact good_cons (setPosSigs_good hf _ _ _).1
  | setitem k v =>
    cases S <;> cases n <;> try exact good_nil ..
    simp only [nodeOp]
    split
    · split <;> exact good_own ..
    · rw [listOut_sigs]; exact good_cons (setPosSigs_good hf _ _ _).1
  | delete k =>
    cases S <;> cases n <;> try exact good_nil ..
    simp only [nodeOp, listOut_sigs]
    exact good_nil ..

theorem run_good {p : Path} : ∀ {above : List Str} {own po : Option Choice} {S : Schema} {n : Inst} {op : Op},
    Choices st above own S → (po = own ∨ (po = none ∧ p ≠ [])) → GoodSigs st above own (run S po n p op).sigs := by
  induction p with
  | nil =>
    intro above own po S n op hf hpo
    simp at hpo
    subst hpo
    rw [run_nil]
    exact nodeOp_good hf n op
  | cons s p ih =>
    intro above own po S n op hf hpo
    have hs := run_shape S po n s p op
    generalize run S po n (s :: p) op = o at hs
    cases hs with
    | stuck => exact good_nil ..
    | field pres kids ch pr ns i k c hk hc =>
      exact good_pass hf (List.mem_of_getElem? hk) (hpo.imp id (·.1))
        (ih (flatKids_mem hf (List.mem_of_getElem? hk)).2.2 (.inl rfl))
    | entry info kids ch es k q hk hq hp hg =>
      exact ih (S := .cont false kids) hf (.inr ⟨rfl, hp⟩)

/-- The conditions without `strict` are weaker. -/
theorem choices_apart : ∀ (S : Schema) (above : List Str) (own : Option Choice), Choices true above own S → Choices false above own S := by
  have kids : ∀ (ks : List (Meta × Schema)) (above here : List Str) (own : Option Choice),
      (∀ k ∈ ks, ∀ above own, Choices true above own k.2 → Choices false above own k.2) →
      ChoicesKids true above own here ks → ChoicesKids false above own here ks := by
    intro ks
    induction ks with
    | nil => intros; simp [ChoicesKids]
    | cons k ks ih =>
      intro above here own hk h
      simp only [ChoicesKids] at h ⊢
      exact ⟨h.1.imp id fun h => ⟨by simp, h.2⟩, hk k (by simp) _ _ h.2.1, ih _ _ _ (fun k h => hk k (by simp [h])) h.2.2⟩
  intro S
  induction S using Schema.ind with
  | hleaf L => intros; simp [Choices]
  | hll L => intros; simp [Choices]
  | hcont pres ks ih => intro above own h; simp only [Choices] at h ⊢; exact kids _ _ _ _ ih h
  | hlist info ks ih => intro above own h; simp only [Choices] at h ⊢; exact kids _ _ _ _ ih h

theorem _root_.Spec.ChoicesRoot.apart {kids : List (Meta × Schema)} (h : FlatRoot kids) : ApartRoot kids := fun k hk => choices_apart _ _ _ (h k hk)

/-! ## What the container's children look like afterwards -/

theorem competes_iff {c : Choice} {d : Option Choice} :
    competes c d = true ↔ ∃ d', d = some d' ∧ d'.name = c.name ∧ d'.case_ ≠ c.case_ := by
  cases d <;> simp [competes]

theorem choiceNames_mem {kids : List (Meta × Schema)} {k : Meta × Schema} {c : Choice} (hk : k ∈ kids)
    (hc : k.1.choice = some c) : c.name ∈ choiceNames kids := by
  simp only [choiceNames, List.mem_filterMap]
  exact ⟨k, hk, by simp [hc]⟩

/-- A flat class's calls clear a sibling only if it is a rival. -/
theorem clearsBy_rival {above : List Str} {kids : List (Meta × Schema)} {k k' : Meta × Schema} (hk' : k' ∈ kids)
    {sigs : List (Option Choice)} (hg : GoodSigs st (choiceNames kids ++ above) k.1.choice sigs)
    (h : clearsBy sigs k'.1.choice = true) : Rivals k.1 k'.1 := by
  simp only [clearsBy, List.any_eq_true] at h
  obtain ⟨s, hs, h⟩ := h
  cases s with
  | none => simp at h
  | some c =>
    simp only [Option.any_some, competes_iff] at h
    obtain ⟨d, hd, hn, hcase⟩ := h
    rcases hg.1 _ hs with h | h | h
    · simp at h
    · exact ⟨c, d, h.symm, hd, hn.symm, fun e => hcase e.symm⟩
    · exact absurd (List.mem_append_left _ (hn ▸ choiceNames_mem hk' hd)) (h c rfl)

theorem rivals_irrefl (m : Meta) : ¬ Rivals m m := by
  rintro ⟨c, d, h1, h2, _, h4⟩
  rw [h1] at h2; simp at h2; exact h4 (by rw [h2])

theorem rivals_symm {a b : Meta} (h : Rivals a b) : Rivals b a := by
  obtain ⟨c, d, h1, h2, h3, h4⟩ := h
  exact ⟨d, c, h2, h1, h3.symm, fun e => h4 e.symm⟩

theorem clearsBy_of_rival {above : List Str} {k k' : Meta} {sigs : List (Option Choice)}
    (hst : st = true) (hg : GoodSigs st above k.choice sigs) (hne : sigs ≠ []) (h : Rivals k k') : clearsBy sigs k'.choice = true := by
  obtain ⟨c, d, h1, h2, h3, h4⟩ := h
  simp only [clearsBy, List.any_eq_true]
  exact ⟨some c, hg.2 hst c h1 hne, by simp only [Option.any_some, competes_iff]; exact ⟨d, h2, h3.symm, fun e => h4 e.symm⟩⟩

/-- The children of a flat container after an operation on child `i`: child `i` is as the
operation left it, rivals are new if `_set` was called, the others are untouched. -/
theorem contPut_flat {above : List Str} {pres : Bool} {own po : Option Choice} {kids : List (Meta × Schema)}
    (hf : ChoicesKids st above own (choiceNames kids ++ above) kids) {ch pr : Bool} {ns : List Inst} {i : Nat}
    {k : Meta × Schema} {o : Out} (hk : kids[i]? = some k) (hi : i < ns.length)
    (hg : GoodSigs st (choiceNames kids ++ above) k.1.choice o.sigs) :
    ∃ ns' : List Inst, (contPut pres po kids ch pr ns i o).inst
        = .cont (ch || !o.sigs.isEmpty) (pr || (pres && !o.sigs.isEmpty)) ns' ∧
      ns'[i]? = some o.inst ∧ ns'.length = ns.length ∧
      (∀ (j : Nat), kids[j]? = none → j ≠ i → ns'[j]? = ns[j]?) ∧
      (st = true → ∀ (j : Nat) (k' : Meta × Schema), kids[j]? = some k' → Rivals k.1 k'.1 → o.sigs ≠ [] →
        ns'[j]? = ns[j]?.map fun _ => fresh k'.2) ∧
      (∀ (j : Nat) (k' : Meta × Schema), kids[j]? = some k' → j ≠ i → (Rivals k.1 k'.1 → o.sigs = []) →
        ns'[j]? = ns[j]?) := by
  obtain ⟨ns', h1, h2⟩ := contPut_spec pres po kids ch pr ns i o
  refine ⟨ns', h1, ?_, ?_, ?_, ?_, ?_⟩
  · rw [h2 i, hk, List.getElem?_set_self hi]
    simp only [clr]
    rw [if_neg]
    intro hc
    exact rivals_irrefl _ (clearsBy_rival (List.mem_of_getElem? hk) hg hc)
  · have hnone : ∀ j : Nat, ns'[j]? = none ↔ ns[j]? = none := by
      intro j
      rw [h2 j]
      by_cases e : j = i
      · subst e
        rw [List.getElem?_set_self hi]
        have : ns[j]? ≠ none := by simp [hi]
        simp only [this, iff_false]
        cases kids[j]? <;> simp [clr]
      · rw [List.getElem?_set_ne (Ne.symm e)]
        cases kids[j]? <;> cases ns[j]? <;> simp [clr]
    have a := hnone ns.length
    have b := hnone ns'.length
    simp only [List.getElem?_eq_none_iff] at a b
    omega
  · intro j hj e
    rw [h2 j, hj, List.getElem?_set_ne (Ne.symm e)]
    rfl
  · intro hst j k' hj hr hne
    have e : i ≠ j := by
      rintro rfl; rw [hk] at hj; simp at hj; subst hj; exact rivals_irrefl _ hr
    rw [h2 j, hj, List.getElem?_set_ne e]
    cases ns[j]? with
    | none => rfl
    | some n => simp [clr, clearsBy_of_rival hst hg hne hr]
  · intro j k' hj e hr
    rw [h2 j, hj, List.getElem?_set_ne (Ne.symm e)]
    cases hn : ns[j]? with
    | none => rfl
    | some n =>
      simp only [clr]
      rw [if_neg]
      intro hc
      have := hr (clearsBy_rival (List.mem_of_getElem? hj) hg hc)
      simp [this, clearsBy] at hc

/-- Any other child stays as it is, or is new. -/
theorem contPut_either {pres : Bool} {po : Option Choice} {kids : List (Meta × Schema)} {ch pr ch' pr' : Bool} {ns ns' : List Inst} {i j : Nat}
    {k' : Meta × Schema} {o : Out} (h : (contPut pres po kids ch pr ns i o).inst = .cont ch' pr' ns') (hj : kids[j]? = some k') (e : j ≠ i) :
    ns'[j]? = ns[j]? ∨ ns'[j]? = ns[j]?.map fun _ => fresh k'.2 := by
  obtain ⟨ns'', h1, h2⟩ := contPut_spec pres po kids ch pr ns i o
  rw [h1] at h
  simp only [Inst.cont.injEq] at h
  obtain ⟨_, _, rfl⟩ := h
  rw [h2 j, hj, List.getElem?_set_ne (Ne.symm e)]
  cases hn : ns[j]? with
  | none => exact .inl rfl
  | some n =>
    simp only [clr, Option.map_some]
    split
    · exact .inr rfl
    · exact .inl rfl

end Pyb
