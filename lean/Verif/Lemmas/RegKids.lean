import Verif.Lemmas.Reg
import Verif.Lemmas.TreePoint

/-! # The registry follows the tree: containers and entries -/

namespace Pyb
open Py Spec

variable {K : PyVal → Prop}

theorem callsOf_append (a b : List Ev) : callsOf (a ++ b) = callsOf a ++ callsOf b := by
  induction a with
  | nil => rfl
  | cons e a ih => cases e <;> simp [callsOf, ih]

theorem sigsOf_append (a b : List Ev) : sigsOf (a ++ b) = sigsOf a ++ sigsOf b := by
  induction a with
  | nil => rfl
  | cons e a ih => cases e <;> simp [sigsOf, ih]

@[simp] theorem callsOf_calls (cs : List RegOp) : callsOf (cs.map .call) = cs := by
  induction cs with
  | nil => rfl
  | cons c cs ih => simp [callsOf, ih]

@[simp] theorem sigsOf_calls (cs : List RegOp) : sigsOf (cs.map .call) = [] := by
  induction cs with
  | nil => rfl
  | cons c cs ih => simp [sigsOf, ih]

/-- The calls of `_set` passed on are those of `contPut`. -/
theorem passUp_sigs (loc : List PStep) (own : Option Choice) (kids : List (Meta × Schema)) (es : List Ev) :
    sigsOf (passUp loc own kids es) = (sigsOf es).map (·.or own) := by
  induction es with
  | nil => rfl
  | cons e es ih =>
    rcases e with (_ | c) | r
    · simp [passUp, sigsOf, ih]
    · simp [passUp, sigsOf_append, sigsOf, ih]
    · simp [passUp, sigsOf, ih]

theorem regClear_calls {loc : List PStep} {c : Choice} {kids : List (Meta × Schema)} : ∀ r ∈ regClear loc c kids,
    ∃ k ∈ kids, competes c k.1.choice = true ∧ r ∈ regNew (loc ++ [⟨k.1.name, []⟩]) k.2 := by
  induction kids with
  | nil => intro r h; simp [regClear] at h
  | cons k ks ih =>
    intro r h
    simp only [regClear, List.mem_append] at h
    rcases h with h | h
    · split at h
      · exact ⟨k, by simp, by assumption, h⟩
      · simp at h
    · obtain ⟨k', h1, h2⟩ := ih r h
      exact ⟨k', by simp [h1], h2⟩

theorem regClear_off {loc : List PStep} {c : Choice} {kids : List (Meta × Schema)} {m : Registry} {q : List PStep}
    (h : ∀ k ∈ kids, competes c k.1.choice = true → ¬ Below loc k.1.name q) : after m (regClear loc c kids) q = m q := by
  induction kids generalizing m with
  | nil => rfl
  | cons k ks ih =>
    rw [regClear, after_append, ih fun k h' => h k (by simp [h'])]
    split
    · exact after_off regNew_calls (h k (by simp) (by assumption))
    · rfl

theorem regClear_ok {loc : List PStep} {c : Choice} {kids : List (Meta × Schema)} (hn : (kids.map fun k => k.1.name).Nodup) :
    ∀ {m : Registry}, Held loc m →
      (∀ k ∈ kids, competes c k.1.choice = true → NoLists k.2 ∧ Addressable k.2 ∧ ∃ x, RegTree K k.2 x ∧ KidAgree loc k.1.name k.2 x m) →
      AllOk m (regClear loc c kids) ∧
      ∀ k ∈ kids, competes c k.1.choice = true → KidAgree loc k.1.name k.2 (fresh k.2) (after m (regClear loc c kids)) := by
  induction kids with
  | nil => intro m _ _; exact ⟨trivial, by simp⟩
  | cons k ks ih =>
    intro m hm h
    simp at hn
    simp only [regClear]
    by_cases hc : competes c k.1.choice = true
    · rw [if_pos hc]
      obtain ⟨h1, h2, x, h3, h4⟩ := h k (by simp) hc
      obtain ⟨h5, h6⟩ := regNew_agree h1 h2 h3 hm h4
      have hloc : after m (regNew (loc ++ [⟨k.1.name, []⟩]) k.2) loc = m loc := after_off regNew_calls not_below_self
      obtain ⟨h7, h8⟩ := ih hn.2 ((held_congr hloc).2 hm) (by
        intro k' hk' hc'
        obtain ⟨g1, g2, x', g3, g4⟩ := h k' (by simp [hk']) hc'
        refine ⟨g1, g2, x', g3, fun ks' r => ?_⟩
        rw [after_off regNew_calls, g4]
        intro hb
        exact hn.1 _ _ hk' (below_unique hb ⟨_, r, rfl, rfl⟩).symm)
      refine ⟨allOk_append.2 ⟨h5, h7⟩, fun k' hk' hc' => ?_⟩
      rw [after_append]
      rcases List.mem_cons.1 hk' with rfl | hk'
      · intro ks' r
        rw [regClear_off, h6]
        intro k2 hk2 _ hb
        exact hn.1 _ _ hk2 (below_unique hb ⟨_, r, rfl, rfl⟩)
      · exact h8 k' hk' hc'
    · rw [if_neg hc]
      obtain ⟨h7, h8⟩ := ih hn.2 hm fun k' hk' => h k' (by simp [hk'])
      refine ⟨h7, fun k' hk' hc' => ?_⟩
      rcases List.mem_cons.1 hk' with rfl | hk'
      · exact absurd hc' hc
      · exact h8 k' hk' hc'

theorem clearsBy_cons (s : Option Choice) (sigs : List (Option Choice)) (ch : Option Choice) :
    clearsBy (s :: sigs) ch = ((s.any fun c => competes c ch) || clearsBy sigs ch) := by simp [clearsBy]

theorem kid_unique {kids : List (Meta × Schema)} (hok : Named kids) {k k' : Meta × Schema} (hk : k ∈ kids) (hk' : k' ∈ kids)
    (e : k.1.name = k'.1.name) : k = k' := by
  obtain ⟨i, hi⟩ := List.getElem?_of_mem hk
  obtain ⟨j, hj⟩ := List.getElem?_of_mem hk'
  have hlt := (List.getElem?_eq_some_iff.1 hi).1
  have hij : (kids.map fun k => k.1.name)[i]? = (kids.map fun k => k.1.name)[j]? := by
    rw [List.getElem?_map, List.getElem?_map, hi, hj]
    simp only [Option.map_some, Option.some.injEq]
    exact e
  have := (List.getElem?_inj (by simpa using hlt) hok.nodup).1 hij
  subst this
  rw [hi] at hj
  simpa using hj

theorem competes_some {c : Choice} {d : Option Choice} (h : competes c d = true) : d ≠ none := by
  cases d with
  | none => simp [competes] at h
  | some d => simp

/-- What a container's calls leave: those of the child it holds, and its cleared children. -/
theorem passUp_ok {loc : List PStep} {own : Option Choice} {kids : List (Meta × Schema)} {t : Str} (hok : Named kids)
    (ha : ∀ k ∈ kids, Addressable k.2) (es : List Ev) : ∀ {m : Registry} {x : Meta × Schema → Inst}, Held loc m →
      (∀ c ∈ callsOf es, Below loc t c.path) → AllOk m (callsOf es) →
      (∀ k ∈ kids, k.1.name ≠ t → RegTree K k.2 (x k) ∧ KidAgree loc k.1.name k.2 (x k) m) →
      (∀ k ∈ kids, clearsBy (sigsOf es) k.1.choice = true → k.1.name ≠ t) →
      AllOk m (callsOf (passUp loc own kids es)) ∧
      EqOn loc t (after m (callsOf es)) (after m (callsOf (passUp loc own kids es))) ∧
      (∀ k ∈ kids, k.1.name ≠ t →
        KidAgree loc k.1.name k.2 (if clearsBy (sigsOf es) k.1.choice then fresh k.2 else x k) (after m (callsOf (passUp loc own kids es)))) ∧
      (∀ q, ¬ Below loc t q → (∀ k ∈ kids, ¬ Below loc k.1.name q) → after m (callsOf (passUp loc own kids es)) q = m q) := by
  induction es with
  | nil =>
    intro m x hm _ _ hx _
    refine ⟨trivial, eqOn_refl .., fun k hk hne => ?_, fun _ _ _ => rfl⟩
    simpa [sigsOf, clearsBy, passUp, callsOf] using (hx k hk hne).2
  | cons e es ih =>
    intro m x hm hb hall hx hcl
    rcases e with (_ | c) | r
    · simp only [passUp, callsOf, sigsOf] at hb hall hcl ⊢
      have h0 : ∀ ch, clearsBy (none :: sigsOf es) ch = clearsBy (sigsOf es) ch := fun ch => by simp [clearsBy_cons]
      simp only [h0] at hcl ⊢
      exact ih hm hb hall hx hcl
    · simp only [passUp, callsOf_append, callsOf_calls, callsOf, sigsOf] at hb hall hcl ⊢
      have hcl' : ∀ k ∈ kids, competes c k.1.choice = true → k.1.name ≠ t := fun k hk h => hcl k hk (by simp [clearsBy_cons, h])
      obtain ⟨h1, h2⟩ := regClear_ok (K := K) (c := c) hok.nodup hm (by
        intro k hk hc
        obtain ⟨g1, g2⟩ := hx k hk (hcl' k hk hc)
        exact ⟨hok.cases_ k hk (competes_some hc), ha k hk, x k, g1, g2⟩)
      have hoff : ∀ q, (q = loc ∨ Below loc t q) → after m (regClear loc c kids) q = m q := by
        intro q hq
        refine regClear_off fun k hk hc hb' => ?_
        rcases hq with rfl | hq
        · exact not_below_self hb'
        · exact hcl' k hk hc (below_unique hb' hq)
      have heq : EqOn loc t (after m (regClear loc c kids)) m := ⟨hoff _ (.inl rfl), fun q hq => hoff q (.inr hq)⟩
      obtain ⟨hc1, hc2⟩ := allOk_congr hb heq
      obtain ⟨i1, i2, i3, i4⟩ := ih (m := after m (regClear loc c kids))
        (x := fun k => if competes c k.1.choice then fresh k.2 else x k) ((held_congr heq.1).2 hm) hb (hc1.2 hall) (by
          intro k hk hne
          by_cases hc : competes c k.1.choice = true
          · rw [if_pos hc]
            exact ⟨regTree_fresh _, h2 k hk hc⟩
          · rw [if_neg hc]
            obtain ⟨g1, g2⟩ := hx k hk hne
            refine ⟨g1, fun ks r => ?_⟩
            rw [regClear_off, g2]
            intro k' hk' hc' hb'
            have e := below_unique hb' ⟨_, r, rfl, rfl⟩
            have := kid_unique hok hk' hk e
            subst this
            exact hc hc')
        fun k hk h => hcl k hk (by simp [clearsBy_cons, h])
      refine ⟨allOk_append.2 ⟨h1, i1⟩, ?_, fun k hk hne => ?_, fun q hq hqk => ?_⟩
      · rw [after_append]
        exact ⟨hc2.1.symm.trans i2.1, fun q hq => (hc2.2 q hq).symm.trans (i2.2 q hq)⟩
      · rw [after_append]
        have := i3 k hk hne
        simp only [clearsBy_cons, Option.any_some]
        cases h : clearsBy (sigsOf es) k.1.choice <;> cases h' : competes c k.1.choice <;> simp [h, h'] at this ⊢ <;> exact this
      · rw [after_append, i4 q hq hqk, regClear_off fun k hk _ => hqk k hk]
    · simp only [passUp, callsOf, sigsOf, AllOk, after_cons] at hb hall hcl ⊢
      have hbr := hb r (by simp)
      obtain ⟨i1, i2, i3, i4⟩ := ih (m := effect m r) (x := x) ((held_congr (effect_off hbr not_below_self)).2 hm)
        (fun c hc => hb c (by simp [hc])) hall.2 (by
          intro k hk hne
          refine ⟨(hx k hk hne).1, fun ks r' => ?_⟩
          rw [effect_off hbr fun hb' => hne (below_unique ⟨_, r', rfl, rfl⟩ hb'), (hx k hk hne).2])
        hcl
      exact ⟨⟨hall.1, i1⟩, i2, i3, fun q hq hqk => by rw [i4 q hq hqk, effect_off hbr hq]⟩

/-- An operation on a child, followed by the registry. -/
structure Follows (K : PyVal → Prop) (loc : List PStep) (t : Str) (S : Schema) (m : Registry) (o : Out) (es : List Ev) : Prop where
  sigs : sigsOf es = o.sigs
  ok : AllOk m (callsOf es)
  paths : CallsIn loc t S (callsOf es)
  tree : RegTree K S o.inst
  agree : KidAgree loc t S o.inst (after m (callsOf es))

/-- The children of an object that are followed by the registry. -/
structure KidsHere (K : PyVal → Prop) (loc : List PStep) (kids : List (Meta × Schema)) (ns : List Inst) (m : Registry) : Prop where
  held : Held loc m
  len : ns.length = kids.length
  tree : ∀ (i : Nat) k n, kids[i]? = some k → ns[i]? = some n → RegTree K k.2 n
  agree : KidsAgree loc kids ns m

/-- Calls below an object change nothing else. -/
theorem under_off {loc : List PStep} {kids : List (Meta × Schema)} {cs : List RegOp} (hc : CallsUnder loc kids cs) :
    ∀ {m : Registry} {q : List PStep}, (∀ s r, q ≠ loc ++ s :: r) → after m cs q = m q := by
  induction cs with
  | nil => intros; rfl
  | cons c cs ih =>
    intro m q hq
    obtain ⟨s, r, h, _⟩ := hc c (by simp)
    rw [after_cons, ih (fun c h => hc c (by simp [h])) hq]
    exact effect_off (loc := loc) (t := s.tag) ⟨s, r, h, rfl⟩ fun ⟨s', r', h', _⟩ => hq s' r' h'

theorem under_self {loc : List PStep} {kids : List (Meta × Schema)} {cs : List RegOp} (hc : CallsUnder loc kids cs) (m : Registry) :
    after m cs loc = m loc := by
  refine under_off hc fun s r h => ?_
  have := congrArg List.length h
  simp at this

theorem passUp_under {loc : List PStep} {own : Option Choice} {kids : List (Meta × Schema)} {es : List Ev} (h : CallsUnder loc kids (callsOf es)) :
    CallsUnder loc kids (callsOf (passUp loc own kids es)) := by
  induction es with
  | nil => exact h
  | cons e es ih =>
    rcases e with (_ | c) | r
    · exact ih h
    · simp only [passUp, callsOf_append, callsOf_calls, callsOf] at h ⊢
      refine callsUnder_append (fun r hr => ?_) (ih h)
      obtain ⟨k, hk, _, hr⟩ := regClear_calls r hr
      exact CallsIn.under hk (regNew_paths loc k.1.name k.2) r hr
    · simp only [passUp, callsOf] at h ⊢
      intro c hc
      rcases List.mem_cons.1 hc with rfl | hc
      · exact h _ (by simp)
      · exact ih (fun c hc => h c (by simp [hc])) c hc

/-- An operation on a child is followed by its container, or entry. -/
theorem kids_follow {loc : List PStep} {pres : Bool} {own : Option Choice} {kids : List (Meta × Schema)} {ch pr : Bool} {ns : List Inst} {i : Nat}
    {k : Meta × Schema} {c : Inst} {m : Registry} {o : Out} {es : List Ev} (hok : Named kids) (ha : ∀ k ∈ kids, Addressable k.2)
    (hk : kids[i]? = some k) (hc : ns[i]? = some c) (hh : KidsHere K loc kids ns m) (hf : Follows K loc k.1.name k.2 m o es)
    (hriv : ∀ k' ∈ kids, clearsBy o.sigs k'.1.choice = true → Rivals k.1 k'.1) :
    ∃ ch' pr' ns', (contPut pres own kids ch pr ns i o).inst = .cont ch' pr' ns' ∧
      sigsOf (passUp loc own kids es) = (contPut pres own kids ch pr ns i o).sigs ∧
      AllOk m (callsOf (passUp loc own kids es)) ∧ CallsUnder loc kids (callsOf (passUp loc own kids es)) ∧
      KidsHere K loc kids ns' (after m (callsOf (passUp loc own kids es))) := by
  obtain ⟨ns', h1, h2⟩ := contPut_spec pres own kids ch pr ns i o
  have hkm := List.mem_of_getElem? hk
  have hi : i < ns.length := (List.getElem?_eq_some_iff.1 hc).1
  have hagree := (kidsAgree_iff hok.nodup hh.len).1 hh.agree
  have hun : CallsUnder loc kids (callsOf (passUp loc own kids es)) := passUp_under (hf.paths.under hkm)
  have hpos : ∀ k' ∈ kids, ∃ j, kids[j]? = some k' ∧ ns[j]? = some (ns.getD j (.leaf .none false)) := by
    intro k' hk'
    obtain ⟨j, hj⟩ := List.getElem?_of_mem hk'
    have : j < ns.length := by rw [hh.len]; exact (List.getElem?_eq_some_iff.1 hj).1
    exact ⟨j, hj, by simp [List.getD_eq_getElem?_getD, this]⟩
  -- the state of a child, by the child
  let x : Meta × Schema → Inst := fun k' => ((kidNamed k'.1.name kids ns).map Prod.snd).getD (.leaf .none false)
  have hx : ∀ (j : Nat) k' n, kids[j]? = some k' → ns[j]? = some n → x k' = n := by
    intro j k' n hj hn
    simp only [x, kidNamed_get hok.nodup hj hn]
    rfl
  have hpass := passUp_ok (K := K) (own := own) hok ha es (m := m) (x := x) hh.held hf.paths.below hf.ok (by
      intro k' hk' hne
      obtain ⟨j, hj, hn⟩ := hpos k' hk'
      rw [hx j k' _ hj hn]
      exact ⟨hh.tree j k' _ hj hn, hagree.1 j k' _ hj hn⟩) (by
      intro k' hk' hcl e
      have := kid_unique hok hk' hkm e
      subst this
      rw [hf.sigs] at hcl
      exact rivals_irrefl _ (hriv _ hk' hcl))
  obtain ⟨p1, p2, p3, p4⟩ := hpass
  have hlen : ns'.length = kids.length := by
    have : ∀ j : Nat, ns'[j]? = none ↔ ns[j]? = none := by
      intro j
      rw [h2 j]
      by_cases e : i = j
      · subst e
        rw [List.getElem?_set_self hi, hk, hc]
        simp [clr]
      · rw [List.getElem?_set_ne e]
        cases kids[j]? <;> cases ns[j]? <;> simp [clr]
    have a := this ns.length
    have b := this ns'.length
    simp only [List.getElem?_eq_none_iff] at a b
    have := hh.len
    omega
  refine ⟨_, _, ns', h1, ?_, p1, hun, ?_, hlen, ?_, ?_⟩
  · rw [passUp_sigs, hf.sigs]
    rfl
  · exact (held_congr (under_self hun m)).2 hh.held
  · intro j k' n hj hn
    rw [h2 j, hj] at hn
    by_cases e : i = j
    · subst e
      rw [List.getElem?_set_self hi] at hn
      simp only [clr, Option.some.injEq] at hn
      subst hn
      rw [hk] at hj
      cases hj
      split
      · exact regTree_fresh _
      · exact hf.tree
    · rw [List.getElem?_set_ne e] at hn
      cases hx : ns[j]? with
      | none => rw [hx] at hn; simp [clr] at hn
      | some y =>
        rw [hx] at hn
        simp only [clr, Option.some.injEq] at hn
        subst hn
        split
        · exact regTree_fresh _
        · exact hh.tree j k' y hj hx
  · rw [kidsAgree_iff hok.nodup hlen]
    refine ⟨fun j k' n hj hn => ?_, fun s r hs => ?_⟩
    · have hjm := List.mem_of_getElem? hj
      rw [h2 j, hj] at hn
      by_cases e : i = j
      · subst e
        rw [List.getElem?_set_self hi] at hn
        simp only [clr, Option.some.injEq] at hn
        rw [hk] at hj
        cases hj
        rw [if_neg (fun hcl => rivals_irrefl _ (hriv _ hjm hcl))] at hn
        subst hn
        intro ks r
        rw [← p2.2 _ ⟨_, r, rfl, rfl⟩]
        exact hf.agree ks r
      · rw [List.getElem?_set_ne e] at hn
        cases hy : ns[j]? with
        | none => rw [hy] at hn; simp [clr] at hn
        | some y =>
          rw [hy] at hn
          simp only [clr, Option.some.injEq] at hn
          have hne : k'.1.name ≠ k.1.name := by
            intro e'
            have := kid_unique hok hjm hkm e'
            subst this
            have hij : (kids.map fun k => k.1.name)[i]? = (kids.map fun k => k.1.name)[j]? := by
              rw [List.getElem?_map, List.getElem?_map, hk, hj]
            exact e ((List.getElem?_inj (by simpa [hh.len] using hi) hok.nodup).1 hij)
          have := p3 k' hjm hne
          rw [hx j k' y hj hy, hf.sigs, hn] at this
          exact this
    · rw [p4]
      · exact hagree.2 s r hs
      · intro hb
        exact hs k hkm (below_unique hb ⟨s, r, rfl, rfl⟩)
      · intro k' hk' hb
        exact hs k' hk' (below_unique hb ⟨s, r, rfl, rfl⟩)

end Pyb
