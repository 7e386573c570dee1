import Verif.Lemmas.TreePoint
import Verif.Spec.Copy

namespace Pyb
open Py Spec

variable {st : Bool}

theorem leavesOnly_mem {kids : List (Meta × Schema)} (h : LeavesOnlyKids kids) {k : Meta × Schema} (hk : k ∈ kids) :
    LeavesOnly k.2 := by
  induction kids with
  | nil => simp at hk
  | cons a kids ih =>
    simp only [LeavesOnlyKids] at h
    rcases List.mem_cons.1 hk with rfl | hk
    · exact h.1
    · exact ih h.2 hk

/-- The state of the copying loop before child `i`. -/
def CopyState (pres : Bool) (kids : List (Meta × Schema)) (vs : List Inst) (i : Nat) (n : Inst) : Prop :=
  ∃ ns : List Inst, n = .cont true pres ns ∧ ns.length = kids.length ∧
    ∀ (j : Nat) (k : Meta × Schema) (v : Inst), kids[j]? = some k → vs[j]? = some v →
      ns[j]? = some (if j < i ∧ v.changed = true then (copyNode k.2 k.1.choice (fresh k.2) v).inst else fresh k.2) ∧
      (j < i → v.changed = true → (copyNode k.2 k.1.choice (fresh k.2) v).err = none)

theorem copyKids_state {above : List Str} {own po : Option Choice} {pres : Bool} {kids : List (Meta × Schema)}
    (hf : ChoicesKids st above own (choiceNames kids ++ above) kids) {vs : List Inst} (hl : vs.length = kids.length)
    (hx : ∀ c p, IChg pres kids c p vs) :
    ∀ (ks : List (Meta × Schema)) (us : List Inst) (i : Nat) (o : Out), kids.drop i = ks → vs.drop i = us →
      o.err = none → CopyState pres kids vs i o.inst → (copyKids pres po kids ks us i o).err = none →
      CopyState pres kids vs kids.length (copyKids pres po kids ks us i o).inst := by
  intro ks
  induction ks with
  | nil =>
    intro us i o hk hu he hst hok
    simp only [copyKids]
    obtain ⟨ns, h1, h2, h3⟩ := hst
    refine ⟨ns, h1, h2, fun j k v hj hv => ?_⟩
    have hi : kids.length ≤ i := List.drop_eq_nil_iff.1 hk
    have hj' := (List.getElem?_eq_some_iff.1 hj).1
    have := h3 j k v hj hv
    have e1 : j < i := by omega
    simpa [e1, hj'] using this
  | cons k ks ih =>
    intro us i o hk hu he hst hok
    have hi : i < kids.length := by
      rcases Nat.lt_or_ge i kids.length with h | h
      · exact h
      · rw [List.drop_eq_nil_iff.2 h] at hk; simp at hk
    have hvi : i < vs.length := by omega
    rw [List.drop_eq_getElem_cons hi] at hk
    rw [List.drop_eq_getElem_cons hvi] at hu
    simp only [List.cons.injEq] at hk
    obtain ⟨hk1, hk2⟩ := hk
    subst hu
    have hki : kids[i]? = some k := by rw [List.getElem?_eq_getElem hi, hk1]
    have hvi' : vs[i]? = some vs[i] := List.getElem?_eq_getElem hvi
    simp only [copyKids] at hok ⊢
    obtain ⟨ns, h1, h2, h3⟩ := hst
    by_cases hc : vs[i].changed = true
    · simp only [hc, if_true, h1] at hok ⊢
      cases hce : (copyNode k.2 k.1.choice (fresh k.2) vs[i]).err with
      | some e => simp [hce] at hok
      | none =>
        simp only [hce] at hok ⊢
        refine ih _ (i + 1) _ hk2 rfl rfl ?_ hok
        obtain ⟨ns', g1, g2, g3, _, g5, g6⟩ := contPut_flat (pres := pres) (po := po) (ch := true) (pr := pres) hf hki
          (by omega : i < ns.length) (copyNode_good k.2 _ k.1.choice (fresh k.2) vs[i]
            (flatKids_mem hf (List.mem_of_getElem? hki)).2.2)
        refine ⟨ns', ?_, by omega, fun j k' v hj hv => ?_⟩
        · rw [g1]; cases pres <;> simp
        by_cases e : j = i
        · subst e
          rw [hki] at hj; simp at hj; subst hj
          rw [hvi'] at hv; simp at hv; subst hv
          rw [g2]
          simp [hc, hce]
        · obtain ⟨a1, a2⟩ := h3 j k' v hj hv
          have lt : j < i + 1 ↔ j < i := by omega
          simp only [lt]
          refine ⟨?_, a2⟩
          by_cases hr : Rivals k.1 k'.1 ∧ (copyNode k.2 k.1.choice (fresh k.2) vs[i]).sigs ≠ []
          · have : v.changed ≠ true := fun h => hx true true i j k k' _ _ hki hj hvi' hv hr.1 ⟨hc, h⟩
            rcases contPut_either g1 hj e with g | g
            · rw [g, a1]
            · rw [g, a1]
              simp [this]
          · rw [g6 j k' hj e (fun h => Decidable.not_not.1 fun h' => hr ⟨h, h'⟩), a1]
    · simp only [hc, Bool.false_eq_true, if_false] at hok ⊢
      refine ih _ (i + 1) o hk2 rfl he ⟨ns, h1, h2, fun j k' v hj hv => ?_⟩ hok
      obtain ⟨a1, a2⟩ := h3 j k' v hj hv
      by_cases e : j = i
      · subst e
        rw [hvi'] at hv; simp at hv; subst hv
        simpa [hc] using a1
      · have lt : j < i + 1 ↔ j < i := by omega
        simp only [lt]
        exact ⟨a1, a2⟩

theorem within_of_nodeAt {q : Path} : ∀ {n m : Inst}, nodeAt n q = some m → Within m n := by
  induction q with
  | nil => intro n m h; simp at h; subst h; exact .here
  | cons s q ih =>
    intro n m h
    cases n with
    | leaf => simp [nodeAt_leaf] at h
    | leafList => simp [nodeAt_leafList] at h
    | cont ch pr ns =>
      cases s with
      | key k => simp [nodeAt_cont_key] at h
      | field i =>
        rw [nodeAt_cont] at h
        cases hc : ns[i]? with
        | none => simp [hc] at h
        | some c => simp only [hc, Option.bind_some] at h; exact .field (List.mem_of_getElem? hc) (ih h)
    | list ch es =>
      cases s with
      | field k => simp [nodeAt_list_field] at h
      | key k =>
        rw [nodeAt_list] at h
        cases hc : es.find? (fun q => pyEq q.1 k) with
        | none => simp [hc] at h
        | some c => simp only [hc, Option.bind_some] at h; exact .entry (List.mem_of_find?_eq_some hc) (ih h)

theorem no_leaf_of {n : Inst} (h : ¬ Has true n) (q : Path) (w : PyVal) : nodeAt n q ≠ some (.leaf w true) :=
  fun hn => h ((hasData_iff _).1 ⟨_, within_of_nodeAt hn, rfl⟩)

theorem no_present_of {n : Inst} (h : ¬ Has true n) (q : Path) (ch : Bool) (ns : List Inst) :
    nodeAt n q ≠ some (.cont ch true ns) :=
  fun hn => h ((hasData_iff _).1 ⟨_, within_of_nodeAt hn, rfl⟩)

/-- An unchanged object of such a class holds no data. -/
theorem no_data_of_unchanged {S : Schema} {v : Inst} (hlo : LeavesOnly S) (hm : TreeInv IMarkD S v) (hp : TreeInv IPres S v)
    (hc : v.changed = false) : ¬ Has true v := by
  intro h
  cases hm with
  | leaf L y ch =>
    simp only [Inst.changed] at hc
    subst hc
    rw [← hasData_iff] at h
    obtain ⟨m, hw, hd⟩ := h
    cases hw
    simp [IsDatum] at hd
  | leafList => exact hlo
  | list => exact hlo
  | cont pres kids ch pr ns i1 =>
    cases hp with
    | cont _ _ _ _ _ p1 =>
      simp only [Inst.changed] at hc
      subst hc
      rw [has_cont] at h
      rcases h with h | h
      · have := p1.1 (by simpa using h)
        simp at this
      · have := i1 h
        simp at this

theorem copyNode_cont_inst {pres : Bool} {kids : List (Meta × Schema)} {po : Option Choice} {old : Inst} {ch pr : Bool} {vs : List Inst}
    {above : List Str} {own : Option Choice}
    (hf : ChoicesKids st above own (choiceNames kids ++ above) kids) (hl : vs.length = kids.length)
    (hx : ∀ c p, IChg pres kids c p vs) (he : (copyNode (.cont pres kids) po old (.cont ch pr vs)).err = none) :
    CopyState pres kids vs kids.length (copyNode (.cont pres kids) po old (.cont ch pr vs)).inst := by
  simp only [copyNode] at he ⊢
  cases hce : (copyKids pres po kids kids vs 0 ⟨.cont true pres (freshKids kids), [po], none⟩).err with
  | some e => simp [hce] at he
  | none =>
    simp only
    exact copyKids_state (po := po) hf hl hx kids vs 0 ⟨.cont true pres (freshKids kids), [po], none⟩
      rfl rfl rfl ⟨freshKids kids, rfl, freshKids_length _, fun j k v hj hv => by simp [freshKids_get, hj]⟩ hce

theorem copyNode_copied : ∀ (S : Schema) (above : List Str) (own po : Option Choice) (old v : Inst), LeavesOnly S →
    Choices st above own S → TreeInv IMarkD S v → TreeInv IChg S v → TreeInv IPres S v → (∀ L, S = .leaf L → v.changed = true) →
    (copyNode S po old v).err = none → Copied S v (copyNode S po old v).inst := by
  intro S
  induction S using Schema.ind with
  | hleaf L =>
    intro above own po old v _ _ hm _ _ hc he
    cases hm with
    | leaf _ x ch =>
      have := hc L rfl
      simp only [Inst.changed] at this
      subst this
      simp only [copyNode, leafSet] at he ⊢
      cases hs : L.set x with
      | refused e => simp [hs] at he
      | marked e => simp [hs] at he
      | ok w =>
        simp only
        refine ⟨?_, ?_, ?_⟩
        · intro q L' x' hq hx
          cases q with
          | cons s q => simp [nodeAt_leaf] at hx
          | nil => simp at hq hx; subst hq; subst hx; exact ⟨w, hs, by simp⟩
        · intro q L' w' hq hx
          cases q with
          | cons s q => simp [nodeAt_leaf] at hx
          | nil => exact ⟨x, by simp⟩
        · intro q ks hq hs
          cases q with
          | cons s q => simp [schemaAt] at hs
          | nil => exact absurd rfl hq
  | hll L => intro _ _ _ _ _ h; exact absurd h id
  | hlist info kids ih => intro _ _ _ _ _ h; exact absurd h id
  | hcont pres kids ih =>
    intro above own po old v hlo hf hm hx hp _ he
    cases hm with
    | cont _ _ ch pr vs m1 m2 m3 =>
    cases hx with
    | cont _ _ _ _ _ x1 x2 x3 =>
    cases hp with
    | cont _ _ _ _ _ p1 p2 p3 =>
    obtain ⟨ns, h1, h2, h3⟩ := copyNode_cont_inst hf m2 (fun _ _ => x1) he
    rw [h1]
    -- each child
    have hchild : ∀ (j : Nat) k v, kids[j]? = some k → vs[j]? = some v → ∃ n, ns[j]? = some n ∧
        ((v.changed = true ∧ n = (copyNode k.2 k.1.choice (fresh k.2) v).inst ∧
          (copyNode k.2 k.1.choice (fresh k.2) v).err = none ∧ Copied k.2 v n) ∨
         (¬ Has true v ∧ ¬ Has true n)) := by
      intro j k v hj hv
      obtain ⟨a1, a2⟩ := h3 j k v hj hv
      have hj' := (List.getElem?_eq_some_iff.1 hj).1
      have hmem := List.mem_of_getElem? hj
      cases hc : v.changed with
      | false =>
        refine ⟨fresh k.2, by simpa [hc] using a1, .inr ⟨?_, has_fresh true _⟩⟩
        exact no_data_of_unchanged (leavesOnly_mem hlo hmem) (m3 j k v hj hv) (p3 j k v hj hv) hc
      | true =>
        refine ⟨_, by simpa [hc, hj'] using a1, .inl ⟨rfl, rfl, a2 hj' hc, ?_⟩⟩
        exact ih k hmem _ _ _ _ v (leavesOnly_mem hlo hmem) (flatKids_mem hf hmem).2.2 (m3 j k v hj hv)
          (x3 j k v hj hv) (p3 j k v hj hv) (fun _ _ => hc) (a2 hj' hc)
    -- a path into the class
    have hpath : ∀ (s : Step) (q : Path) (T : Schema), schemaAt (.cont pres kids) (s :: q) = some T →
        ∃ j k v n, s = .field j ∧ kids[j]? = some k ∧ vs[j]? = some v ∧ ns[j]? = some n ∧ schemaAt k.2 q = some T ∧
          nodeAt (.cont ch pr vs) (s :: q) = nodeAt v q ∧ nodeAt (.cont true pres ns) (s :: q) = nodeAt n q := by
      intro s q T hs
      cases s with
      | key k => simp [schemaAt] at hs
      | field j =>
        rw [schemaAt_cont] at hs
        cases hk : kids[j]? with
        | none => simp [hk] at hs
        | some k =>
          have hj' := (List.getElem?_eq_some_iff.1 hk).1
          have a : vs[j]? = some vs[j] := List.getElem?_eq_getElem (by omega)
          have b : ns[j]? = some ns[j] := List.getElem?_eq_getElem (by omega)
          refine ⟨j, k, _, _, rfl, hk, a, b, by simpa [hk] using hs, ?_, ?_⟩
          · rw [nodeAt_cont, a]; rfl
          · rw [nodeAt_cont, b]; rfl
    refine ⟨?_, ?_, ?_⟩
    · intro q L x hS hx
      cases q with
      | nil => simp at hS
      | cons s q =>
        obtain ⟨j, k, v, n, rfl, hk, hv, hn, hS', e1, e2⟩ := hpath s q _ hS
        rw [e1] at hx
        rw [e2]
        obtain ⟨n', hn', hh⟩ := hchild j k v hk hv
        rw [hn] at hn'; simp at hn'; subst hn'
        rcases hh with ⟨_, _, _, hcp⟩ | ⟨hq, _⟩
        · exact hcp.1 q L x hS' hx
        · exact absurd hx (no_leaf_of hq _ _)
    · intro q L x hS hx
      cases q with
      | nil => simp at hS
      | cons s q =>
        obtain ⟨j, k, v, n, rfl, hk, hv, hn, hS', e1, e2⟩ := hpath s q _ hS
        rw [e2] at hx
        rw [e1]
        obtain ⟨n', hn', hh⟩ := hchild j k v hk hv
        rw [hn] at hn'; simp at hn'; subst hn'
        rcases hh with ⟨_, _, _, hcp⟩ | ⟨_, hq⟩
        · exact hcp.2.1 q L x hS' hx
        · exact absurd hx (no_leaf_of hq _ _)
    · intro q ks hq hS
      cases q with
      | nil => exact absurd rfl hq
      | cons s q =>
        obtain ⟨j, k, v, n, rfl, hk, hv, hn, hS', e1, e2⟩ := hpath s q _ hS
        rw [e1, e2]
        obtain ⟨n', hn', hh⟩ := hchild j k v hk hv
        rw [hn] at hn'; simp at hn'; subst hn'
        rcases hh with ⟨hc, he', herr, hcp⟩ | ⟨hq1, hq2⟩
        · cases q with
          | cons s q => exact hcp.2.2 _ ks (by simp) hS'
          | nil =>
            simp only [schemaAt_nil, Option.some.injEq] at hS'
            have hpk := p3 j k v hk hv
            have hxk := x3 j k v hk hv
            have hkf := (flatKids_mem hf (List.mem_of_getElem? hk)).2.2
            rw [hS'] at hpk hxk he' herr hkf
            cases hpk with
            | cont _ _ ch' pr' vs' q1 q2 q3 =>
              cases hxk with
              | cont _ _ _ _ _ y1 y2 y3 =>
              obtain ⟨ns', g1, _⟩ := copyNode_cont_inst hkf q2 (fun _ _ => y1) herr
              rw [he', g1]
              simp only [Inst.changed] at hc
              have := q1.2 rfl
              subst hc
              subst this
              simp
        · constructor
          · rintro ⟨c, m, h⟩; exact absurd h (no_present_of hq1 _ _ _)
          · rintro ⟨c, m, h⟩; exact absurd h (no_present_of hq2 _ _ _)

/-- Classes below a flat class are flat. -/
theorem flat_at {p : Path} : ∀ {above : List Str} {own : Option Choice} {S T : Schema}, Choices st above own S →
    schemaAt S p = some T → ∃ above' own', Choices st above' own' T := by
  induction p with
  | nil => intro above own S T h hS; simp at hS; subst hS; exact ⟨_, _, h⟩
  | cons s p ih =>
    intro above own S T h hS
    cases s with
    | field i =>
      cases S <;> simp only [schemaAt, reduceCtorEq] at hS
      split at hS
      · rename_i k hk
        exact ih (flatKids_mem h (List.mem_of_getElem? hk)).2.2 hS
      · simp at hS
    | key k =>
      cases S <;> simp only [schemaAt, reduceCtorEq] at hS
      rename_i kids
      exact ih (S := .cont false kids) (own := own) (above := above) h hS

/-- An invariant at a path of a binding. -/
theorem rootInv_at {I : CInv} {kids : List (Meta × Schema)} {ns : List Inst} (h : RootInv I kids ns) {p : Path} (hp : p ≠ [])
    {T : Schema} {m : Inst} (hS : clsAt kids p = some T) (hn : objAt ns p = some m) : TreeInv I T m := by
  cases p with
  | nil => exact absurd rfl hp
  | cons s p =>
    cases s with
    | key k => simp [objAt, nodeAt_cont_key] at hn
    | field i =>
      rw [objAt_field] at hn
      rw [clsAt_field] at hS
      cases hc : ns[i]? with
      | none => simp [hc] at hn
      | some c =>
        cases hk : kids[i]? with
        | none => simp [hk] at hS
        | some k =>
          simp only [hc, hk, Option.bind_some] at hn hS
          exact treeInv_at (h.2 i k c hk hc) hS hn

end Pyb
