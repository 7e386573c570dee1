import Verif.Spec.Shared
import Verif.Props.Reg

/-! # One registry for several bindings -/

namespace Pyb
open Py Spec

variable {K : PyVal → Prop}

/-- The part of the registry for the modules with those children. -/
def only (kids : List (Meta × Schema)) (m : Registry) : Registry
  | [] => none
  | s :: r => if s.tag ∈ kids.map (·.1.name) then m (s :: r) else none

theorem only_some {kids : List (Meta × Schema)} {m : Registry} {q : List PStep} (h : (only kids m q).isSome = true) : (m q).isSome = true := by
  cases q with
  | nil => cases h
  | cons s r =>
    simp only [only] at h
    split at h
    · exact h
    · cases h

theorem only_allowed {kids : List (Meta × Schema)} {m : Registry} {c : RegOp} (h : OpAllowed (only kids m) c) : OpAllowed m c := by
  cases c with
  | register p o =>
    rcases h with h | h | h
    · exact .inl (only_some h)
    · exact .inr (.inl h)
    · exact .inr (.inr (only_some h))
  | unregister p => exact only_some (q := p) h

theorem only_effect {kids : List (Meta × Schema)} {m : Registry} {c : RegOp} {s : PStep} {r : List PStep} (hc : c.path = s :: r)
    (hs : s.tag ∈ kids.map (·.1.name)) : only kids (effect m c) = effect (only kids m) c := by
  funext q
  cases q with
  | nil =>
    cases c with
    | register p o =>
      have : p = s :: r := hc
      subst this
      simp [only, effect]
    | unregister p =>
      simp only [only, effect]
      split <;> rfl
  | cons s' r' =>
    cases c with
    | register p o =>
      have : p = s :: r := hc
      subst this
      simp only [only, effect]
      by_cases e : s' :: r' = s :: r
      · have : s' = s := (List.cons.inj e).1
        subst this
        rw [if_pos hs, if_pos e, if_pos e]
      · rw [if_neg e, if_neg e]
    | unregister p =>
      simp only [only, effect]
      by_cases e : p.isPrefixOf (s' :: r') = true
      · rw [if_pos e, if_pos e]
        split <;> rfl
      · rw [if_neg e, if_neg e]

theorem underHead {kids : List (Meta × Schema)} {cs : List RegOp} (h : CallsUnder [] kids cs) {c : RegOp} (hc : c ∈ cs) :
    ∃ s r, c.path = s :: r ∧ s.tag ∈ kids.map (·.1.name) := by
  obtain ⟨s, r, e, k, hk, hn, _⟩ := h c hc
  exact ⟨s, r, e, List.mem_map.2 ⟨k, hk, hn⟩⟩

theorem only_after {kids : List (Meta × Schema)} : ∀ (cs : List RegOp) (m : Registry), CallsUnder [] kids cs → AllOk (only kids m) cs →
    AllOk m cs ∧ only kids (after m cs) = after (only kids m) cs := by
  intro cs
  induction cs with
  | nil => intro m _ _; exact ⟨trivial, rfl⟩
  | cons c cs ih =>
    intro m hu ha
    obtain ⟨s, r, e, hs⟩ := underHead hu (c := c) (by simp)
    have he := only_effect (m := m) e hs
    obtain ⟨h1, h2⟩ := ih (effect m c) (fun c hc => hu c (by simp [hc])) (by rw [he]; exact ha.2)
    exact ⟨⟨only_allowed ha.1, h1⟩, by rw [after_cons, after_cons, h2, he]⟩

/-- The same without the other bindings' part being empty: what is in the smaller registry stays
in the larger one. -/
theorem more_after : ∀ (cs : List RegOp) (a b : Registry), (∀ q o, a q = some o → b q = some o) → AllOk a cs →
    AllOk b cs ∧ ∀ q o, after a cs q = some o → after b cs q = some o := by
  intro cs
  induction cs with
  | nil => intro a b h _; exact ⟨trivial, h⟩
  | cons c cs ih =>
    intro a b h hok
    have hsome : ∀ q, (a q).isSome = true → (b q).isSome = true := by
      intro q hq
      obtain ⟨o, ho⟩ := Option.isSome_iff_exists.1 hq
      rw [h q o ho]
      rfl
    have hal : OpAllowed b c := by
      have h1 := hok.1
      cases c with
      | register p o =>
        rcases h1 with h1 | h1 | h1
        · exact .inl (hsome _ h1)
        · exact .inr (.inl h1)
        · exact .inr (.inr (hsome _ h1))
      | unregister p => exact hsome p h1
    have hef : ∀ q o, effect a c q = some o → effect b c q = some o := by
      intro q o ho
      cases c with
      | register p o' =>
        simp only [effect] at ho ⊢
        split
        · rename_i e
          rw [if_pos e] at ho
          exact ho
        · rename_i e
          rw [if_neg e] at ho
          exact h q o ho
      | unregister p =>
        simp only [effect] at ho ⊢
        split
        · rename_i e
          rw [if_pos e] at ho
          cases ho
        · rename_i e
          rw [if_neg e] at ho
          exact h q o ho
    obtain ⟨h1, h2⟩ := ih _ _ hef hok.2
    exact ⟨⟨hal, h1⟩, h2⟩

theorem other_after {kids kids' : List (Meta × Schema)} (hd : ∀ x ∈ kids.map (·.1.name), x ∉ kids'.map (·.1.name)) :
    ∀ (cs : List RegOp) (m : Registry), CallsUnder [] kids cs → only kids' (after m cs) = only kids' m := by
  intro cs
  induction cs with
  | nil => intros; rfl
  | cons c cs ih =>
    intro m hu
    obtain ⟨s, r, e, hs⟩ := underHead hu (c := c) (by simp)
    rw [after_cons, ih _ fun c hc => hu c (by simp [hc])]
    funext q
    cases q with
    | nil => rfl
    | cons s' r' =>
      simp only [only]
      split
      · rename_i h'
        have hne : s' ≠ s := fun x => hd _ hs (x ▸ h')
        cases c with
        | register p o =>
          have : p = s :: r := e
          subst this
          simp [effect, hne]
        | unregister p =>
          have : p = s :: r := e
          subst this
          simp [effect, List.isPrefixOf]
          exact fun x => absurd x.symm hne
      · rfl

theorem CallsUnder.mono {kids all : List (Meta × Schema)} (h : ∀ k ∈ kids, k ∈ all) {cs : List RegOp} (hc : CallsUnder [] kids cs) :
    CallsUnder [] all cs := by
  intro c hcm
  obtain ⟨s, r, e, k, hk, hp⟩ := hc c hcm
  exact ⟨s, r, e, k, h k hk, hp⟩

theorem pathOk_mono {kids all : List (Meta × Schema)} (h : ∀ k ∈ kids, k ∈ all) : ∀ {q : List PStep}, PathOk q kids → PathOk q all
  | [], _ => trivial
  | _ :: _, ⟨k, hk, hp⟩ => ⟨k, h k hk, hp⟩

/-! ## Making the bindings -/

/-- No name is in two of the modules. -/
def NamesApart (mods : List (List (Meta × Schema))) : Prop :=
  mods.Pairwise fun a b => ∀ x ∈ a.map (·.1.name), x ∉ b.map (·.1.name)

theorem namesApart_of {mods : List (List (Meta × Schema))} (h : Named mods.flatten) : NamesApart mods ∧ ∀ kids ∈ mods, Named kids := by
  have h0 : List.Pairwise (fun a b : Meta × Schema => a.1.name ≠ b.1.name) mods.flatten := List.pairwise_map.1 h.nodup
  rw [List.pairwise_flatten] at h0
  refine ⟨h0.2.imp ?_, fun kids hk => ⟨List.pairwise_map.2 (h0.1 kids hk), fun k hm => h.ident k (List.mem_flatten.2 ⟨kids, hk, hm⟩),
    fun k hm => h.cases_ k (List.mem_flatten.2 ⟨kids, hk, hm⟩)⟩⟩
  intro a b hab x hx hx'
  obtain ⟨k, hk, rfl⟩ := List.mem_map.1 hx
  obtain ⟨k', hk', e⟩ := List.mem_map.1 hx'
  exact hab k hk k' hk' e.symm

theorem makeAll_under : ∀ (mods : List (List (Meta × Schema))), CallsUnder [] mods.flatten (makeAll mods)
  | [] => callsUnder_nil _ _
  | kids :: mods => by
    simp only [makeAll, List.flatten_cons]
    exact callsUnder_append ((regKids_paths [] kids).mono fun k hk => by simp [hk]) ((makeAll_under mods).mono fun k hk => List.mem_append_right _ hk)

theorem fresh_here {kids : List (Meta × Schema)} (hok : Named kids) (ha : ∀ k ∈ kids, Addressable k.2) :
    AllOk (fun _ => none) (regKids [] kids) ∧ KidsHere K [] kids (freshKids kids) (after (fun _ => none) (regKids [] kids)) := by
  obtain ⟨h1, h2⟩ := regKids_ok (loc := []) hok.nodup (fun k hk => newOk (ha k hk) _ _) (fun _ => none) (.inl rfl)
  refine ⟨h1, .inl rfl, freshKids_length _, fun i k n hk hn => ?_, fun s r => ?_⟩
  · rw [freshKids_get, hk] at hn
    simp at hn
    subst hn
    exact regTree_fresh _
  · rw [h2]
    simp

theorem notIn_flatten {kids : List (Meta × Schema)} {mods : List (List (Meta × Schema))}
    (h : ∀ b ∈ mods, ∀ x ∈ kids.map (·.1.name), x ∉ b.map (·.1.name)) : ∀ x ∈ mods.flatten.map (·.1.name), x ∉ kids.map (·.1.name) := by
  intro x hx hx'
  obtain ⟨k, hk, rfl⟩ := List.mem_map.1 hx
  obtain ⟨b, hb, hkb⟩ := List.mem_flatten.1 hk
  exact h b hb _ hx' (List.mem_map.2 ⟨k, hkb, rfl⟩)

theorem makes : ∀ (mods : List (List (Meta × Schema))) (m : Registry), NamesApart mods → (∀ kids ∈ mods, Named kids) →
    (∀ kids ∈ mods, ∀ k ∈ kids, Addressable k.2) → (∀ kids ∈ mods, only kids m = fun _ => none) →
    AllOk m (makeAll mods) ∧ ∀ kids ∈ mods, KidsHere K [] kids (freshKids kids) (only kids (after m (makeAll mods))) := by
  intro mods
  induction mods with
  | nil => intro m _ _ _ _; exact ⟨trivial, fun _ h => by cases h⟩
  | cons kids mods ih =>
    intro m hap hok ha hm
    rw [NamesApart, List.pairwise_cons] at hap
    obtain ⟨f1, f2⟩ := fresh_here (K := K) (hok kids (by simp)) (ha kids (by simp))
    have e0 := hm kids (by simp)
    obtain ⟨g1, g2⟩ := only_after (regKids [] kids) m (regKids_paths _ _) (by rw [e0]; exact f1)
    rw [e0] at g2
    obtain ⟨i1, i2⟩ := ih (after m (regKids [] kids)) hap.2 (fun x hx => hok x (by simp [hx])) (fun x hx => ha x (by simp [hx]))
      (fun x hx => by rw [other_after (hap.1 x hx) _ _ (regKids_paths _ _)]; exact hm x (by simp [hx]))
    refine ⟨allOk_append.2 ⟨g1, i1⟩, fun x hx => ?_⟩
    rw [makeAll, after_append]
    rcases List.mem_cons.1 hx with rfl | hx
    · rw [other_after (notIn_flatten hap.1) _ _ (makeAll_under mods), g2]
      exact f2
    · exact i2 x hx

/-! ## Using them in turns -/

theorem opsOf_cons (i j : Nat) (x : Path × Op) (evs : List SharedOp) : opsOf i ((j, x) :: evs) = if j = i then x :: opsOf i evs else opsOf i evs := by
  simp only [opsOf, List.filterMap_cons]
  split <;> rename_i h <;> split at h <;> simp_all

theorem shared_follows (hK : ToldApart K) {mods : List (List (Meta × Schema))} (hap : NamesApart mods) (hok : ∀ kids ∈ mods, Named kids)
    (ha : ∀ kids ∈ mods, ∀ k ∈ kids, Addressable k.2) (hf : ∀ kids ∈ mods, ApartRoot kids) :
    ∀ (evs : List SharedOp) (nss : List (List Inst)) (m : Registry), nss.length = mods.length →
      (∀ (i : Nat) kids ns, mods[i]? = some kids → nss[i]? = some ns → KidsHere K [] kids ns (only kids m) ∧ HistOk K kids ns (opsOf i evs)) →
      AllOk m (sharedCalls mods nss evs) ∧ CallsUnder [] mods.flatten (sharedCalls mods nss evs) ∧
      ∀ (i : Nat) kids ns, mods[i]? = some kids → nss[i]? = some ns →
        KidsHere K [] kids (history kids ns (opsOf i evs)) (only kids (after m (sharedCalls mods nss evs))) := by
  intro evs
  induction evs with
  | nil =>
    intro nss m _ h
    exact ⟨trivial, callsUnder_nil _ _, fun i kids ns h1 h2 => (h i kids ns h1 h2).1⟩
  | cons e evs ih =>
    intro nss m hlen h
    obtain ⟨j, p, op⟩ := e
    have hskip : (mods[j]? = none) → sharedCalls mods nss ((j, p, op) :: evs) = sharedCalls mods nss evs := by
      intro hj
      simp only [sharedCalls, hj]
    cases hj : mods[j]? with
    | none =>
      rw [hskip hj]
      have hne : ∀ (i : Nat) kids, mods[i]? = some kids → opsOf i ((j, p, op) :: evs) = opsOf i evs := by
        intro i kids hi
        rw [opsOf_cons, if_neg]
        rintro rfl
        rw [hj] at hi
        cases hi
      obtain ⟨i1, i2, i3⟩ := ih nss m hlen (fun i kids ns h1 h2 => by have := h i kids ns h1 h2; rw [hne i kids h1] at this; exact this)
      exact ⟨i1, i2, fun i kids ns h1 h2 => by rw [hne i kids h1]; exact i3 i kids ns h1 h2⟩
    | some kids =>
      have hjl : j < nss.length := by rw [hlen]; exact (List.getElem?_eq_some_iff.1 hj).1
      have hn : nss[j]? = some nss[j] := by simp [hjl]
      generalize nss[j] = ns at hn
      have hkm := List.mem_of_getElem? hj
      have hcalls : sharedCalls mods nss ((j, p, op) :: evs) =
          rootCalls kids ns p op ++ sharedCalls mods (nss.set j (runRoot kids ns p op).1) evs := by simp only [sharedCalls, hj, hn]
      obtain ⟨hh, hist⟩ := h j kids ns hj hn
      rw [opsOf_cons, if_pos rfl] at hist
      obtain ⟨f1, f2, f3⟩ := history_follows hK (hok kids hkm) (ha kids hkm) (hf kids hkm) [(p, op)] ns (only kids m) hh ⟨hist.1, hist.2.1, trivial⟩
      have e1 : historyCalls kids ns [(p, op)] = rootCalls kids ns p op := by simp [historyCalls]
      have e2 : history kids ns [(p, op)] = (runRoot kids ns p op).1 := rfl
      rw [e1] at f1 f2 f3
      rw [e2] at f3
      obtain ⟨g1, g2⟩ := only_after _ m f2 f1
      rw [← g2] at f3
      have hoth : ∀ (i : Nat) kids', i ≠ j → mods[i]? = some kids' → only kids' (after m (rootCalls kids ns p op)) = only kids' m := by
        intro i kids' hij hi
        refine other_after ?_ _ _ f2
        have hi' := List.getElem?_eq_some_iff.1 hi
        have hj' := List.getElem?_eq_some_iff.1 hj
        obtain ⟨li, ei⟩ := hi'
        obtain ⟨lj, ej⟩ := hj'
        rw [NamesApart, List.pairwise_iff_getElem] at hap
        intro x hx hx'
        rcases Nat.lt_or_gt_of_ne hij with hlt | hgt
        · exact hap i j li lj hlt x (by rw [ei]; exact hx') (by rw [ej]; exact hx)
        · exact hap j i lj li hgt x (by rw [ej]; exact hx) (by rw [ei]; exact hx')
      obtain ⟨i1, i2, i3⟩ := ih (nss.set j (runRoot kids ns p op).1) (after m (rootCalls kids ns p op)) (by simpa using hlen) (by
        intro i kids' ns' hi hi'
        by_cases e : j = i
        · subst e
          rw [List.getElem?_set_self hjl] at hi'
          cases hi'
          rw [hj] at hi
          cases hi
          exact ⟨f3, hist.2.2⟩
        · rw [List.getElem?_set_ne e] at hi'
          have := h i kids' ns' hi hi'
          rw [opsOf_cons, if_neg e] at this
          rw [hoth i kids' (Ne.symm e) hi]
          exact this)
      rw [hcalls]
      refine ⟨allOk_append.2 ⟨g1, i1⟩, callsUnder_append (f2.mono fun k hk => List.mem_flatten.2 ⟨kids, hkm, hk⟩) i2, ?_⟩
      intro i kids' ns' hi hi'
      rw [after_append]
      by_cases e : j = i
      · subst e
        rw [hj] at hi
        cases hi
        rw [hn] at hi'
        cases hi'
        rw [opsOf_cons, if_pos rfl]
        exact i3 j kids _ hj (List.getElem?_set_self hjl)
      · rw [opsOf_cons, if_neg e]
        exact i3 i kids' ns' hi (by rw [List.getElem?_set_ne e]; exact hi')

/-! ## Bindings of one module, one after the other -/

theorem series_append (kids : List (Meta × Schema)) : ∀ (a b : List (List (Path × Op))), seriesCalls kids (a ++ b) = seriesCalls kids a ++ seriesCalls kids b
  | [], b => by simp [seriesCalls]
  | x :: a, b => by simp [seriesCalls, series_append kids a b]

theorem series_follows (hK : ToldApart K) {kids : List (Meta × Schema)} (hok : Named kids) (ha : ∀ k ∈ kids, Addressable k.2) (hf : ApartRoot kids) :
    ∀ (hist : List (List (Path × Op))) (m : Registry), (∀ ops ∈ hist, HistOk K kids (freshKids kids) ops) →
      AllOk m (seriesCalls kids hist) ∧ CallsUnder [] kids (seriesCalls kids hist) := by
  intro hist
  induction hist with
  | nil => intro m _; exact ⟨trivial, callsUnder_nil _ _⟩
  | cons ops hist ih =>
    intro m h
    obtain ⟨h1, h2, _⟩ := binding_follows hK hok ha hf (h ops (by simp))
    obtain ⟨g1, _⟩ := more_after _ _ m (fun q o ho => by cases ho) h1
    obtain ⟨i1, i2⟩ := ih (after m (regKids [] kids ++ historyCalls kids (freshKids kids) ops)) fun x hx => h x (by simp [hx])
    exact ⟨allOk_append.2 ⟨g1, i1⟩, callsUnder_append h2 i2⟩

end Pyb
