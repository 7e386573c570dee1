import Verif.Lemmas.LeafInv
import Verif.Lemmas.JsonTypes

/-! # Reachable trees are ready to be written -/

namespace Pyb
open Py Spec

variable {st : Bool}

/-- A container with a changed child is changed. -/
def IUp : CInv := fun _ _ ch _ ns => ∀ c ∈ ns, c.changed = true → ch = true

theorem stable_up : Stable st false false (fun op => op ≠ .present false) IUp where
  fresh pres kids := by intro c hc h; rw [changed_freshKids hc] at h; simp at h
  new pres kids := by intro c hc h; rfl
  present _ _ _ _ _ _ := fun _ _ _ => rfl
  absent h := absurd rfl h
  anon h := by simp at h
  put above own po pres kids ch pr ns i k c o ch' pr' ns' _ hk hc hI _ _ hq he := by
    by_cases hs : o.sigs = []
    · rw [contPut_quiet _ _ _ _ _ _ _ _ hs] at he
      simp only [Inst.cont.injEq] at he
      obtain ⟨rfl, rfl, rfl⟩ := he
      intro x hx hd
      rcases List.mem_or_eq_of_mem_set hx with hx | rfl
      · exact hI x hx hd
      · exact hI c (List.mem_of_getElem? hc) (hq hs hd)
    · obtain ⟨ns'', h1, _⟩ := contPut_spec pres po kids ch pr ns i o
      rw [h1] at he
      simp only [Inst.cont.injEq] at he
      obtain ⟨rfl, rfl, rfl⟩ := he
      intro _ _ _
      cases h : o.sigs with
      | nil => exact absurd h hs
      | cons s t => simp

/-- The structural facts about reachable trees. -/
structure Sound (S : Schema) (n : Inst) : Prop where
  pres : TreeInv IPres S n
  markD : TreeInv IMarkD S n
  up : TreeInv IUp S n
  excl : TreeInv IExcl S n
  vals : ObjInv fromClass S n

theorem treeInv_kid {I : CInv} {pres kids ch pr ns} (h : TreeInv I (.cont pres kids) (.cont ch pr ns)) {c : Inst} (hc : c ∈ ns) :
    ∃ k ∈ kids, TreeInv I k.2 c := by
  obtain ⟨_, _, _, he, _, i2, i3⟩ := h.cont_inv
  simp only [Inst.cont.injEq] at he
  obtain ⟨rfl, rfl, rfl⟩ := he
  obtain ⟨i, hi, rfl⟩ := List.getElem_of_mem hc
  have hk : i < kids.length := by omega
  exact ⟨kids[i], List.getElem_mem hk, i3 i _ _ (List.getElem?_eq_getElem hk) (List.getElem?_eq_getElem hi)⟩

theorem untouched_of {S : Schema} : ∀ {n : Inst}, TreeInv IPres S n → TreeInv IUp S n →
    n.changed = false → ¬ Has true n → Untouched n := by
  induction S using Schema.ind with
  | hleaf L =>
    intro n h1 h2 hc hn
    cases h1
    intro m hm
    cases hm
    exact hc
  | hll L =>
    intro n h1 h2 hc hn
    cases h1
    intro m hm
    cases hm
    simp only [has_leafList, true_and, ne_eq, Decidable.not_not] at hn
    exact ⟨hn, hc⟩
  | hcont pres kids ih =>
    intro n h1 h2 hc hn
    obtain ⟨ch, pr, ns, rfl, i1, i2, i3⟩ := h1.cont_inv
    obtain ⟨_, _, _, he, j1, _, j3⟩ := h2.cont_inv
    simp only [Inst.cont.injEq] at he
    obtain ⟨rfl, rfl, rfl⟩ := he
    simp only [Inst.changed] at hc
    intro m hm
    cases hm with
    | here =>
      show pr = false
      cases pr with
      | false => rfl
      | true => rw [i1.1 rfl] at hc; exact hc
    | field hcm hw =>
      rename_i c
      obtain ⟨i, hi, rfl⟩ := List.getElem_of_mem hcm
      have hk : i < kids.length := by omega
      refine ih kids[i] (List.getElem_mem hk) (i3 i _ _ (List.getElem?_eq_getElem hk) (List.getElem?_eq_getElem hi))
        (j3 i _ _ (List.getElem?_eq_getElem hk) (List.getElem?_eq_getElem hi)) ?_ ?_ m hw
      · cases hx : ns[i].changed with
        | false => rfl
        | true => rw [j1 _ hcm hx] at hc; exact hc
      · intro hx
        exact hn ((has_cont ..).2 (.inr ⟨_, hcm, hx⟩))
  | hlist info kids ih =>
    intro n h1 h2 hc hn
    cases h1 with
    | list _ _ ch es h =>
      have he : es = [] := by
        cases es with
        | nil => rfl
        | cons q es => exact absurd ((has_list ..).2 (.inl ⟨rfl, by simp⟩)) hn
      subst he
      intro m hm
      cases hm with
      | here => rfl
      | entry h' => simp at h'

theorem Sound.kid {pres kids ch pr ns} (h : Sound (.cont pres kids) (.cont ch pr ns)) {i : Nat} {k : Meta × Schema} {c : Inst}
    (hk : kids[i]? = some k) (hc : ns[i]? = some c) : Sound k.2 c := by
  obtain ⟨h1, h2, h3, h4, h5⟩ := h
  cases h1 with
  | cont _ _ _ _ _ _ _ a1 =>
  cases h2 with
  | cont _ _ _ _ _ _ _ a2 =>
  cases h3 with
  | cont _ _ _ _ _ _ _ a3 =>
  cases h4 with
  | cont _ _ _ _ _ _ _ a4 =>
  cases h5 with
  | cont _ _ _ _ _ _ a5 =>
  exact ⟨a1 i k c hk hc, a2 i k c hk hc, a3 i k c hk hc, a4 i k c hk hc, a5 i k c hk hc⟩

theorem Sound.entry {info kids ch es} (h : Sound (.list info kids) (.list ch es)) {q : PyVal × Inst} (hq : q ∈ es) :
    Sound (.cont false kids) q.2 := by
  obtain ⟨h1, h2, h3, h4, h5⟩ := h
  cases h1 with
  | list _ _ _ _ a1 =>
  cases h2 with
  | list _ _ _ _ a2 =>
  cases h3 with
  | list _ _ _ _ a3 =>
  cases h4 with
  | list _ _ _ _ a4 =>
  cases h5 with
  | list _ _ _ _ a5 =>
  exact ⟨a1 q hq, a2 q hq, a3 q hq, a4 q hq, a5 q hq⟩

theorem Sound.oneCase {pres kids ch pr ns} (h : Sound (.cont pres kids) (.cont ch pr ns)) : OneCase kids ns := by
  cases h.excl with
  | cont _ _ _ _ _ a1 =>
    intro i j a b x y ha hb hx hy hr hd
    rw [hasData_iff, hasData_iff] at hd
    exact a1 i j a b x y ha hb hx hy hr hd

theorem Sound.absent {kids ch ns} (h : Sound (.cont true kids) (.cont ch false ns)) : ∀ n ∈ ns, Untouched n := by
  intro n hn
  obtain ⟨k1, _, h1⟩ := treeInv_kid h.pres hn
  obtain ⟨i, hi, rfl⟩ := List.getElem_of_mem hn
  cases h.pres with
  | cont _ _ _ _ _ a1 a2 a3 =>
  cases h.up with
  | cont _ _ _ _ _ b1 b2 b3 =>
  cases h.markD with
  | cont _ _ _ _ _ c1 c2 c3 =>
    have hch : ch = false := a1.2 rfl
    have hk : i < kids.length := by omega
    refine untouched_of (a3 i _ _ (List.getElem?_eq_getElem hk) (List.getElem?_eq_getElem hi))
      (b3 i _ _ (List.getElem?_eq_getElem hk) (List.getElem?_eq_getElem hi)) ?_ ?_
    · cases hx : ns[i].changed with
      | false => rfl
      | true => rw [b1 _ hn hx] at hch; exact hch
    · intro hx
      rw [c1 ⟨_, hn, hx⟩] at hch
      simp at hch

theorem sound_cont {pres kids n} (h : Sound (.cont pres kids) n) : ∃ ch pr ns, n = .cont ch pr ns ∧ ns.length = kids.length := by
  obtain ⟨ch, pr, ns, rfl, _, h2, _⟩ := h.pres.cont_inv
  exact ⟨ch, pr, ns, rfl, h2⟩

/-- Values ready and a reachable tree: everything ready. -/
theorem jsonReady_of {rx : Str → Str → Bool} : ∀ (S : Schema) (m : Meta) (n : Inst), Sound S n → Every (ValuesReady rx) m S n →
    Every (JsonReady rx) m S n := by
  intro S
  induction S using Schema.ind with
  | hleaf L =>
    intro m n hs h
    cases hs.pres
    exact h
  | hll L =>
    intro m n hs h
    cases hs.vals with
    | leafList _ vs ch hv =>
      intro hne
      exact ⟨hv.1 hne, h hne⟩
  | hcont pres kids ih =>
    intro m n hs h
    obtain ⟨ch, pr, ns, rfl, hl⟩ := sound_cont hs
    simp only [Every] at h ⊢
    refine ⟨⟨hs.oneCase, h.1, ?_⟩, ?_⟩
    · rintro rfl rfl
      exact hs.absent
    · rw [everyKids_iff] at h ⊢
      exact ⟨h.2.1, fun i k c hk hc => ih k (List.mem_of_getElem? hk) _ _ (hs.kid hk hc) (h.2.2 i k c hk hc)⟩
  | hlist info kids ih =>
    intro m n hs h
    have hl : ∃ ch es, n = .list ch es := by
      cases hs.pres with
      | list _ _ ch es _ => exact ⟨ch, es, rfl⟩
    obtain ⟨ch, es, rfl⟩ := hl
    simp only [Every] at h ⊢
    refine ⟨⟨h.1.1, ?_, h.1.2⟩, ?_⟩
    · intro q hq
      have hq' := hs.entry hq
      obtain ⟨_, _, ns, e, _⟩ := sound_cont hq'
      rw [e] at hq' ⊢
      exact hq'.oneCase
    · intro q hq
      have hq' := hs.entry hq
      obtain ⟨_, _, ns, e, _⟩ := sound_cont hq'
      have h2 := h.2 q hq
      rw [e] at hq' h2 ⊢
      rw [everyKids_iff] at h2 ⊢
      exact ⟨h2.1, fun i k c hk hc => ih k (List.mem_of_getElem? hk) _ _ (hq'.kid hk hc) (h2.2 i k c hk hc)⟩

theorem history_sound {kids : List (Meta × Schema)} (hf : FlatRoot kids) {ops : List (Path × Op)}
    (hops : ∀ x ∈ ops, Plain x.2) {i : Nat} {k : Meta × Schema} {c : Inst} (hk : kids[i]? = some k)
    (hc : (history kids (freshKids kids) ops)[i]? = some c) : Sound k.2 c where
  pres := (history_inv (st := true) stable_pres (by simp) (fun _ _ => trivial) (rootInv_fresh (st := true) stable_pres kids)).2 i k c hk hc
  markD := (history_inv (st := true) stable_markD (by simp) hops (rootInv_fresh (st := true) stable_markD kids)).2 i k c hk hc
  up := (history_inv (st := true) stable_up (by simp) (fun x hx => (hops x hx).1) (rootInv_fresh (st := true) stable_up kids)).2 i k c hk hc
  excl := (history_inv (st := true) stable_excl (fun _ => hf) (fun x hx => (hops x hx).2) (rootInv_fresh (st := true) stable_excl kids)).2 i k c hk hc
  vals := (history_obj fromClass_stable (rootObj_fresh fromClass_stable kids)).2 i k c hk hc

end Pyb
