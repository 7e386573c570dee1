import Verif.Model.DecLayer
import Verif.Props.DecRange

/-! # C85: a range on a typedef with a range -/

namespace Pyb
open Py Spec

def DChk.bounds : DChk → List Dec
  | .pair lo hi => lo.toList ++ hi.toList
  | .single v => [v]

/-- What the class of the inner range returns has passed its tests, so that the test the outer
`__init__` makes again cannot fail. -/
theorem decCall_checked {fd : Option Nat} {ts : List DChk} {v : DArg} {x : Dec} (h : decCall fd ts v = .ok x) :
    decRangeCheck ts x = true := by
  unfold decCall decNew decInit at h
  cases hn : newCheck fd ts v with
  | error e => simp [hn, bind, Except.bind] at h
  | ok b =>
    cases b with
    | false => simp [hn, bind, Except.bind] at h
    | true =>
      cases hb : decBase fd v with
      | error e => cases e <;> simp [hn, hb, bind, Except.bind] at h
      | ok y =>
        cases hc : decRangeCheck ts y with
        | false => simp [hn, hb, hc, bind, Except.bind] at h
        | true =>
          simp [hn, hb, hc, bind, Except.bind, pure, Except.pure] at h
          subst h; exact hc

theorem layerInit_call (fd : Option Nat) (ts : List DChk) (v : DArg) : layerInit fd ts v = (decCall fd ts v).map fun _ => () := by
  unfold layerInit
  cases h : decCall fd ts v with
  | error e => rfl
  | ok x => simp [bind, Except.bind, decCall_checked h, Except.map, pure, Except.pure]

theorem new_check {fd : Option Nat} {ws : List DecWritten} {ts : List DChk} (hc : ∀ x, decRangeCheck ts x = true ↔ DecAllowed ws x)
    {v : DArg} {x : Dec} (hv : decBase fd v = .ok x)
    (hf : v.truthy = false → (∃ n, v = .int n ∧ DecSame ⟨n, 0⟩ x) ∨ ∃ y, v = .dec y ∧ DecSame y x) :
    newCheck fd ts v = .ok (decRangeCheck ts x) := by
  have hb : ∀ y, DecSame y x → decRangeCheck ts y = decRangeCheck ts x := by
    intro y hy
    have h3 : DecAllowed ws y ↔ DecAllowed ws x := ⟨allowed_same hy, allowed_same ⟨hy.2, hy.1⟩⟩
    rw [Bool.eq_iff_iff, hc y, hc x, h3]
  unfold newCheck
  cases ht : v.truthy with
  | true => simp [hv]
  | false =>
    rcases hf ht with ⟨n, rfl, hs⟩ | ⟨y, rfl, hs⟩
    · simp [hb _ hs]
    · simp [hb _ hs]

theorem call_of {fd : Option Nat} {ts : List DChk} {v : DArg} {x : Dec} (hv : decBase fd v = .ok x)
    (hn : newCheck fd ts v = .ok (decRangeCheck ts x)) :
    decNew fd ts v = (if decRangeCheck ts x then .ok x else .error .valueError) ∧
    decCall fd ts v = (if decRangeCheck ts x then .ok x else .error .valueError) := by
  have h1 : decNew fd ts v = (if decRangeCheck ts x then .ok x else .error .valueError) := by
    simp only [decNew, hn, bind, Except.bind, hv]
  refine ⟨h1, ?_⟩
  simp only [decCall, h1, decInit, hv, bind, Except.bind, pure, Except.pure]
  cases decRangeCheck ts x <;> rfl

theorem call_text {fd : Option Nat} {ts : List DChk} {s : Str} {y : Dec} (h : decBase fd (.text s) = .ok y) (hy : decRangeCheck ts y = true) :
    decCall fd ts (.text s) = .ok y := by
  have hn : newCheck fd ts (.text s) = .ok (decRangeCheck ts y) := by
    unfold newCheck
    cases ht : (DArg.text s).truthy with
    | true => simp [h]
    | false =>
      have : s = [] := by simpa [DArg.truthy] using ht
      subst this
      cases fd <;> exact absurd h (by simp [decBase, DArg.decimal, decOfStr, decOfBare, strip, rstripBy, lstripBy, decOfUnsigned, bind, Except.bind, Except.map])
  rw [(call_of h hn).2, hy]; rfl

theorem bound_agree {fd : Option Nat} {ts : List DChk} {w s : Str} {a : Option Dec} (h : decBound fd w s = .ok a)
    (ha : ∀ y, a = some y → decRangeCheck ts y = true) : decBoundBy (decCall fd ts) w s = .ok a := by
  unfold decBound at h
  unfold decBoundBy
  split
  · rw [if_pos (by assumption)] at h; exact h
  · rw [if_neg (by assumption)] at h
    cases hb : decBase fd (.text s) with
    | error e => rw [hb] at h; cases h
    | ok y =>
      rw [hb] at h
      cases h
      rw [call_text hb (ha y rfl)]; rfl

theorem build_agree {fd : Option Nat} {ts : List DChk} {spec : Str} {c : DChk} (h : buildDChk fd spec = .ok c)
    (hc : ∀ y ∈ c.bounds, decRangeCheck ts y = true) : buildDChkBy (decCall fd ts) spec = .ok c := by
  unfold buildDChk at h
  unfold buildDChkBy
  split
  · rename_i hm
    rw [hm] at h
    simp only at h
    split
    · rename_i low high hs
      rw [hs] at h
      simp only [bind, Except.bind] at h
      cases h1 : decBound fd py!"max" high with
      | error e => rw [h1] at h; cases h
      | ok hi =>
        cases h2 : decBound fd py!"min" low with
        | error e => rw [h1, h2] at h; cases h
        | ok lo =>
          rw [h1, h2] at h
          cases h
          rw [bound_agree h1 (fun y hy => hc y (by simp [DChk.bounds, hy])), bound_agree h2 (fun y hy => hc y (by simp [DChk.bounds, hy]))]
          rfl
    · rename_i hne
      split at h
      · rename_i hs; exact absurd hs (hne _ _)
      · cases h
  · rename_i hm
    rw [hm] at h
    simp only at h
    split
    · rename_i hn
      rw [hn] at h
      simp only at h
      cases hb : decBase fd (.text spec) with
      | error e => rw [hb] at h; cases h
      | ok y =>
        rw [hb] at h
        cases h
        rw [call_text hb (hc y (by simp [DChk.bounds]))]; rfl
    · rename_i hn
      rw [hn] at h
      exact h

theorem chk_bounds {fd : Option Nat} {p : DecPart} {c : DChk} (h : ChkOf fd p c) : ∀ y ∈ c.bounds, ∃ l ∈ p.lits, Reads fd l y := by
  intro y hy
  cases h with
  | span lo hi a b h1 h2 h3 h4 =>
    rcases List.mem_append.1 hy with hy | hy
    · cases lo with
      | none => rw [h2 rfl] at hy; simp at hy
      | some l =>
        obtain ⟨x, rfl, hr⟩ := h1 l rfl
        have : y = x := by simpa using hy
        exact ⟨l, by simp [DecPart.lits], this ▸ hr⟩
    · cases hi with
      | none => rw [h4 rfl] at hy; simp at hy
      | some l =>
        obtain ⟨x, rfl, hr⟩ := h3 l rfl
        have : y = x := by simpa using hy
        exact ⟨l, by simp [DecPart.lits], this ▸ hr⟩
  | single l x hr =>
    have : y = x := by simpa [DChk.bounds] using hy
    exact ⟨l, by simp [DecPart.lits], this ▸ hr⟩

/-- The tests of the outer range, if its literals are in the inner one. -/
theorem layer_builds {fd : Option Nat} {ws1 ws2 : List DecWritten} {ts1 ts2 : List DChk}
    (hc1 : ∀ x, decRangeCheck ts1 x = true ↔ DecAllowed ws1 x) (hne : ws2 ≠ []) (h : ∀ w ∈ ws2, PartOk fd w.part)
    (hs : ∀ w ∈ ws2, ∀ l ∈ w.part.lits, ReadsSame fd l) (hin : ∀ w ∈ ws2, ∀ l ∈ w.part.lits, DecAllowed ws1 l.value)
    (hts : (genSpecs (decRangeText ws2)).mapM (buildDChk fd) = .ok ts2) :
    (genSpecs (decRangeText ws2)).mapM (buildDChkBy (decCall fd ts1)) = .ok ts2 := by
  obtain ⟨ws', e1, e2⟩ := genSpecs_decRange hne fun w hw l hl => (h w hw l hl).1
  have tr : ∀ {P : DecPart → Prop}, (∀ w ∈ ws2, P w.part) → ∀ w ∈ ws', P w.part := by
    intro P hP w hw
    have : w.part ∈ ws2.map DecWritten.part := by rw [← e2]; exact List.mem_map_of_mem hw
    obtain ⟨w0, h0, h1⟩ := List.mem_map.1 this
    rw [← h1]; exact hP w0 h0
  have h' := tr (P := PartOk fd) h
  have hs' := tr (P := fun p => ∀ l ∈ p.lits, ReadsSame fd l) hs
  have hin' := tr (P := fun p => ∀ l ∈ p.lits, DecAllowed ws1 l.value) hin
  rw [e1] at hts ⊢
  clear e1 e2 tr
  induction ws' generalizing ts2 with
  | nil => exact hts
  | cons w ws' ih =>
    obtain ⟨c, c1, c2⟩ := buildDChk_core (h' w (by simp))
    rw [List.map_cons, List.mapM_cons, c1] at hts
    cases hr : (ws'.map DecWritten.core).mapM (buildDChk fd) with
    | error e => rw [hr] at hts; cases hts
    | ok ts =>
      rw [hr] at hts
      cases hts
      have hb : buildDChkBy (decCall fd ts1) w.core = .ok c := build_agree c1 fun y hy => by
        obtain ⟨l, hl, hrd⟩ := chk_bounds c2 y hy
        have same := hs' w (by simp) l hl y hrd
        exact (hc1 y).2 (allowed_same ⟨same.2, same.1⟩ (hin' w (by simp) l hl))
      rw [List.map_cons, List.mapM_cons, hb,
        ih hr (fun w hw => h' w (by simp [hw])) (fun w hw => hs' w (by simp [hw])) (fun w hw => hin' w (by simp [hw]))]
      rfl

theorem layer_outcome {fd : Option Nat} {ws1 ws2 : List DecWritten} {specs1 specs2 : List Str} {ts1 ts2 : List DChk}
    (hts1 : specs1.mapM (buildDChk fd) = .ok ts1) (hts2 : specs2.mapM (buildDChkBy (decCall fd ts1)) = .ok ts2)
    (hc1 : ∀ x, decRangeCheck ts1 x = true ↔ DecAllowed ws1 x) (hc2 : ∀ x, decRangeCheck ts2 x = true ↔ DecAllowed ws2 x)
    {v : DArg} {x : Dec} (hv : decBase fd v = .ok x)
    (hf : v.truthy = false → (∃ n, v = .int n ∧ DecSame ⟨n, 0⟩ x) ∨ ∃ y, v = .dec y ∧ DecSame y x) :
    (DecAllowed ws1 x ∧ DecAllowed ws2 x → setDecLayer fd specs1 specs2 v = .ok x) ∧
    (¬ (DecAllowed ws1 x ∧ DecAllowed ws2 x) → setDecLayer fd specs1 specs2 v = .error .valueError) := by
  obtain ⟨n1, n2⟩ := call_of hv (new_check hc1 hv hf)
  have hb : ∀ y, DecSame y x → decRangeCheck ts2 y = decRangeCheck ts2 x := by
    intro y hy
    have h3 : DecAllowed ws2 y ↔ DecAllowed ws2 x := ⟨allowed_same hy, allowed_same ⟨hy.2, hy.1⟩⟩
    rw [Bool.eq_iff_iff, hc2 y, hc2 x, h3]
  have hl : layerCheck fd ts1 ts2 v = (if v.truthy = true ∧ decRangeCheck ts1 x = false then .error .typeError else .ok (decRangeCheck ts2 x)) := by
    unfold layerCheck
    cases ht : v.truthy with
    | true =>
      rw [if_pos rfl, n2]
      cases decRangeCheck ts1 x <;> simp
    | false =>
      rcases hf ht with ⟨n, rfl, hs⟩ | ⟨y, rfl, hs⟩
      · simp [hb _ hs]
      · simp [hb _ hs]
  rw [← hc1, ← hc2]
  cases q1 : decRangeCheck ts1 x <;> cases q2 : decRangeCheck ts2 x <;> cases q3 : v.truthy <;>
    simp [setDecLayer, hts1, hts2, layerNew, hl, layerInit, n1, n2, bind, Except.bind, pure, Except.pure, q1, q2, q3]

/-- C85 for a range on a typedef that has a range: the leaf takes exactly the decimals of both, and
any other raises `ValueError`.  As YANG has it, the numbers in the new range must be in the other.
The same is missing as in `C85_range_partial`. -/
theorem C85_layers_partial (ws1 ws2 : List DecWritten) (h1 : RangeOk ws1) (h2 : RangeOk ws2)
    (hin : ∀ w ∈ ws2, ∀ l ∈ w.part.lits, DecAllowed ws1 l.value) (v : DArg) (x : Dec) (hv : DenotesDec v x) :
    (DecAllowed ws1 x ∧ DecAllowed ws2 x → setDecLayer none (genSpecs (decRangeText ws1)) (genSpecs (decRangeText ws2)) v = .ok x) ∧
    (¬ (DecAllowed ws1 x ∧ DecAllowed ws2 x) →
      setDecLayer none (genSpecs (decRangeText ws1)) (genSpecs (decRangeText ws2)) v = .error .valueError) := by
  have parts : ∀ {ws : List DecWritten}, RangeOk ws → ∀ w ∈ ws, PartOk none w.part :=
    fun h w hw l hl => ⟨h.lits w hw l hl, _, reads_plain (h.lits w hw l hl)⟩
  have same : ∀ {ws : List DecWritten}, RangeOk ws → ∀ w ∈ ws, ∀ l ∈ w.part.lits, ReadsSame none l :=
    fun h w hw l hl y hy => by rw [reads_plain_eq (h.lits w hw l hl) hy]; exact decSame_refl _
  have dy : ∀ {ws : List DecWritten}, RangeOk ws → ∀ w ∈ ws, ∀ l, w.part = .single l → ∀ y, Reads none l y → BinaryFraction y :=
    fun h w hw l hl y hy => by
      rw [reads_plain_eq (h.lits w hw l (by simp [hl, DecPart.lits])) hy]; exact h.singles w hw l hl
  obtain ⟨ts1, a1, b1⟩ := checks_of h1.parts (parts h1) (same h1) (dy h1)
  obtain ⟨ts2, a2, b2⟩ := checks_of h2.parts (parts h2) (same h2) (dy h2)
  refine layer_outcome a1 (layer_builds b1 h2.parts (parts h2) (same h2) hin a2) b1 b2 (denotes_base hv) fun hf => ?_
  rcases denotes_falsy hv hf with ⟨rfl, rfl⟩ | ⟨rfl, _⟩
  · exact .inl ⟨0, rfl, decSame_refl _⟩
  · exact .inr ⟨x, rfl, decSame_refl _⟩

/-- `range "1 .. 2 | 10..max"` on the typedef of `demoRange`. -/
def demoInner : List DecWritten :=
  [{ part := .span (some ⟨false, py!"1", []⟩) (some ⟨false, py!"2", []⟩), sp1 := 1, sp2 := 1, post := 1 },
   { part := .span (some ⟨false, py!"10", []⟩) none, pre := 1 }]

theorem layer_of_lits {ws1 ws2 : List DecWritten} {ts : List DChk} (h1 : RangeOk ws1)
    (hts : (genSpecs (decRangeText ws1)).mapM (buildDChk none) = .ok ts)
    (hall : ∀ w ∈ ws2, ∀ l ∈ w.part.lits, decRangeCheck ts l.value = true) :
    ∀ w ∈ ws2, ∀ l ∈ w.part.lits, DecAllowed ws1 l.value := by
  obtain ⟨ts1, a1, b1⟩ := checks_of h1.parts (fun w hw l hl => ⟨h1.lits w hw l hl, _, reads_plain (h1.lits w hw l hl)⟩)
    (fun w hw l hl y hy => by rw [reads_plain_eq (h1.lits w hw l hl) hy]; exact decSame_refl _)
    (fun w hw l hl y hy => by
      rw [reads_plain_eq (h1.lits w hw l (by simp [hl, DecPart.lits])) hy]; exact h1.singles w hw l hl)
  rw [hts] at a1
  cases a1
  exact fun w hw l hl => (b1 _).1 (hall w hw l hl)

/-- The hypotheses are met. -/
example : RangeOk demoInner ∧ ∀ w ∈ demoInner, ∀ l ∈ w.part.lits, DecAllowed demoRange l.value := by
  refine ⟨⟨by simp [demoInner], fun w hw l hl => ?_, fun w hw l hl => ?_⟩, layer_of_lits
    (ts := [.single ⟨5, -1⟩, .pair (some ⟨1, 0⟩) (some ⟨225, -2⟩), .pair (some ⟨10, 0⟩) none]) demoRange_ok.1 (by decide) fun w hw l hl => ?_⟩
  · simp only [demoInner, List.mem_cons, List.not_mem_nil, or_false] at hw
    have : l.ip ≠ [] ∧ l.ip.all isDigit = true ∧ l.fp.all isDigit = true := by
      rcases hw with rfl | rfl <;> simp [DecPart.lits] at hl
      · rcases hl with rfl | rfl <;> decide
      · subst hl; decide
    exact ⟨this.1, by simpa using this.2.1, by simpa using this.2.2⟩
  · simp only [demoInner, List.mem_cons, List.not_mem_nil, or_false] at hw
    rcases hw with rfl | rfl <;> simp at hl
  · simp only [demoInner, List.mem_cons, List.not_mem_nil, or_false] at hw
    rcases hw with rfl | rfl <;> simp [DecPart.lits] at hl
    · rcases hl with rfl | rfl <;> decide
    · subst hl; decide

example : setDecLayer none (genSpecs (decRangeText demoRange)) (genSpecs (decRangeText demoInner)) (.text py!"1.5") = .ok ⟨15, -1⟩ ∧
    setDecLayer none (genSpecs (decRangeText demoRange)) (genSpecs (decRangeText demoInner)) (.text py!"2.1") = .error .valueError ∧
    setDecLayer none (genSpecs (decRangeText demoRange)) (genSpecs (decRangeText demoInner)) (.text py!"0.5") = .error .valueError := by decide

end Pyb
