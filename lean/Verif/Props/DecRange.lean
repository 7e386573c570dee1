import Verif.Lemmas.DecNum
import Verif.Props.Scalar

/-! # Ranges of decimal64 types: C85 -/

namespace Pyb
open Py Spec

/-! ## Equal decimals -/

/-- Two decimals are the same number. -/
def DecSame (x y : Dec) : Prop := DecLe x y ∧ DecLe y x

theorem decSame_iff (x y : Dec) : DecSame x y ↔ decN x * decD y = decN y * decD x := by
  unfold DecSame
  rw [decLe_iff, decLe_iff]
  omega

theorem decLe_trans {x y z : Dec} (h1 : DecLe x y) (h2 : DecLe y z) : DecLe x z := by
  rw [decLe_iff] at *
  have hx := decD_pos x
  have hy := decD_pos y
  have hz := decD_pos z
  have a1 := Int.mul_le_mul_of_nonneg_right h1 (Int.le_of_lt hz)
  have a2 := Int.mul_le_mul_of_nonneg_right h2 (Int.le_of_lt hx)
  have e1 : decN y * decD x * decD z = decN y * decD z * decD x := by ac_rfl
  have : decN x * decD z * decD y ≤ decN z * decD x * decD y := by
    calc decN x * decD z * decD y = decN x * decD y * decD z := by ac_rfl
      _ ≤ decN y * decD x * decD z := a1
      _ = decN y * decD z * decD x := e1
      _ ≤ decN z * decD y * decD x := a2
      _ = _ := by ac_rfl
  exact Int.le_of_mul_le_mul_right this hy

theorem contains_same {x y : Dec} (h : DecSame x y) (p : DecPart) (hp : p.Contains x) : p.Contains y := by
  cases p with
  | span lo hi =>
    exact ⟨fun l hl => decLe_trans (hp.1 l hl) h.1, fun l hl => decLe_trans h.2 (hp.2 l hl)⟩
  | single l => exact ⟨decLe_trans hp.1 h.1, decLe_trans h.2 hp.2⟩

theorem allowed_same {x y : Dec} (h : DecSame x y) {ws : List DecWritten} (ha : DecAllowed ws x) : DecAllowed ws y := by
  obtain ⟨w, hw, hc⟩ := ha
  exact ⟨w, hw, contains_same h _ hc⟩

theorem zero_same (e e' : Int) : DecSame ⟨0, e⟩ ⟨0, e'⟩ := by
  rw [decSame_iff]; simp [decN]

/-! ## The checks -/

/-- The bounds as read are those written. -/
def ReadsSame (fd : Option Nat) (l : DecLit) : Prop := ∀ x, Reads fd l x → DecSame x l.value

theorem chk_run {fd : Option Nat} {p : DecPart} {c : DChk} (h : ChkOf fd p c)
    (hs : ∀ l ∈ p.lits, ReadsSame fd l) (hd : ∀ l, p = .single l → ∀ y, Reads fd l y → BinaryFraction y) (x : Dec) :
    c.run x = true ↔ p.Contains x := by
  cases h with
  | span lo hi a b h1 h2 h3 h4 =>
    have hlo : (a.any fun l => decLt x l) = false ↔ ∀ l, lo = some l → DecLe l.value x := by
      cases lo with
      | none => rw [h2 rfl]; simp
      | some l =>
        obtain ⟨y, rfl, hr⟩ := h1 l rfl
        have same := hs l (by simp [DecPart.lits]) y hr
        have := decLt_iff x y
        cases hc : decLt x y with
        | true =>
          simp only [Option.any_some, hc, Bool.true_eq_false, false_iff]
          intro c
          exact (this.1 hc) (decLe_trans same.1 (c l rfl))
        | false =>
          simp only [Option.any_some, hc, true_iff]
          intro l' hl'; cases hl'
          have : DecLe y x := Classical.byContradiction fun n => by
            have := this.2 n; rw [hc] at this; cases this
          exact decLe_trans same.2 this
    have hhi : (b.any fun h => decLt h x) = false ↔ ∀ l, hi = some l → DecLe x l.value := by
      cases hi with
      | none => rw [h4 rfl]; simp
      | some l =>
        obtain ⟨y, rfl, hr⟩ := h3 l rfl
        have same := hs l (by simp [DecPart.lits]) y hr
        have := decLt_iff y x
        cases hc : decLt y x with
        | true =>
          simp only [Option.any_some, hc, Bool.true_eq_false, false_iff]
          intro c
          exact (this.1 hc) (decLe_trans (c l rfl) same.2)
        | false =>
          simp only [Option.any_some, hc, true_iff]
          intro l' hl'; cases hl'
          have : DecLe x y := Classical.byContradiction fun n => by
            have := this.2 n; rw [hc] at this; cases this
          exact decLe_trans this same.1
    simp only [DChk.run, Bool.and_eq_true, Bool.not_eq_true', DecPart.Contains]
    rw [hlo, hhi]
  | single l y hr =>
    have same := hs l (by simp [DecPart.lits]) y hr
    simp only [DChk.run, DecPart.Contains]
    rw [decEqFloat_iff x y (hd l rfl y hr)]
    exact ⟨fun ⟨a, b⟩ => ⟨decLe_trans same.2 a, decLe_trans b same.1⟩,
      fun ⟨a, b⟩ => ⟨decLe_trans same.1 a, decLe_trans b same.2⟩⟩

/-- The list of checks of a range argument. -/
theorem checks_of {fd : Option Nat} {ws : List DecWritten} (hne : ws ≠ []) (h : ∀ w ∈ ws, PartOk fd w.part)
    (hs : ∀ w ∈ ws, ∀ l ∈ w.part.lits, ReadsSame fd l)
    (hd : ∀ w ∈ ws, ∀ l, w.part = .single l → ∀ y, Reads fd l y → BinaryFraction y) :
    ∃ ts, (genSpecs (decRangeText ws)).mapM (buildDChk fd) = .ok ts ∧
      ∀ x, decRangeCheck ts x = true ↔ DecAllowed ws x := by
  obtain ⟨ws', e1, e2⟩ := genSpecs_decRange hne fun w hw l hl => (h w hw l hl).1
  have tr : ∀ {P : DecPart → Prop}, (∀ w ∈ ws, P w.part) → ∀ w ∈ ws', P w.part := by
    intro P hP w hw
    have : w.part ∈ ws.map DecWritten.part := by rw [← e2]; exact List.mem_map_of_mem hw
    obtain ⟨w0, h0, h1⟩ := List.mem_map.1 this
    rw [← h1]; exact hP w0 h0
  have hA : ∀ x, DecAllowed ws x ↔ ∃ p ∈ ws'.map DecWritten.part, p.Contains x := by
    intro x
    rw [e2]
    constructor
    · rintro ⟨w, hw, hc⟩; exact ⟨_, List.mem_map_of_mem hw, hc⟩
    · rintro ⟨p, hp, hc⟩
      obtain ⟨w, hw, rfl⟩ := List.mem_map.1 hp
      exact ⟨w, hw, hc⟩
  rw [e1]
  have h' := tr (P := PartOk fd) h
  have hs' := tr (P := fun p => ∀ l ∈ p.lits, ReadsSame fd l) hs
  have hd' := tr (P := fun p => ∀ l, p = .single l → ∀ y, Reads fd l y → BinaryFraction y) hd
  clear e1 e2 tr
  suffices key : ∃ ts, (ws'.map DecWritten.core).mapM (buildDChk fd) = .ok ts ∧
      ∀ x, decRangeCheck ts x = true ↔ ∃ p ∈ ws'.map DecWritten.part, p.Contains x by
    obtain ⟨ts, k1, k2⟩ := key
    exact ⟨ts, k1, fun x => (k2 x).trans (hA x).symm⟩
  clear hA
  induction ws' with
  | nil => exact ⟨[], rfl, by simp [decRangeCheck]⟩
  | cons w ws' ih =>
    obtain ⟨ts, i1, i2⟩ := ih (fun w hw => h' w (by simp [hw])) (fun w hw => hs' w (by simp [hw]))
      (fun w hw => hd' w (by simp [hw]))
    obtain ⟨c, c1, c2⟩ := buildDChk_core (h' w (by simp))
    refine ⟨c :: ts, ?_, fun x => ?_⟩
    · rw [List.map_cons, List.mapM_cons, c1, i1]; rfl
    · have := chk_run c2 (hs' w (by simp)) (hd' w (by simp)) x
      have i2 := i2 x
      simp only [decRangeCheck, List.any_cons, Bool.or_eq_true, List.map_cons, List.mem_cons, exists_eq_or_imp] at i2 ⊢
      rw [this, i2]

/-- An assignment, given what the checks decide. -/
theorem set_outcome {fd : Option Nat} {ws : List DecWritten} {specs : List Str} {ts : List DChk}
    (hts : specs.mapM (buildDChk fd) = .ok ts) (hc : ∀ x, decRangeCheck ts x = true ↔ DecAllowed ws x)
    {v : DArg} {x : Dec} (hv : decBase fd v = .ok x)
    (hf : v.truthy = false → (∃ n, v = .int n ∧ DecSame ⟨n, 0⟩ x) ∨ ∃ y, v = .dec y ∧ DecSame y x) :
    (DecAllowed ws x → setDecRange fd specs v = .ok x) ∧ (¬ DecAllowed ws x → setDecRange fd specs v = .error .valueError) := by
  have hb : ∀ y, DecSame y x → decRangeCheck ts y = decRangeCheck ts x := by
    intro y hy
    have h1 := hc y
    have h2 := hc x
    have h3 : DecAllowed ws y ↔ DecAllowed ws x := ⟨allowed_same hy, allowed_same ⟨hy.2, hy.1⟩⟩
    rw [Bool.eq_iff_iff, h1, h2, h3]
  have hn : newCheck fd ts v = .ok (decRangeCheck ts x) := by
    unfold newCheck
    cases ht : v.truthy with
    | true => simp [hv]
    | false =>
      rcases hf ht with ⟨n, rfl, hs⟩ | ⟨y, rfl, hs⟩
      · simp [hb _ hs]
      · simp [hb _ hs]
  constructor
  · intro ha
    have := (hc x).2 ha
    simp [setDecRange, hts, decNew, hn, this, hv, decInit, bind, Except.bind, pure, Except.pure]
  · intro ha
    have : decRangeCheck ts x = false := by
      cases hq : decRangeCheck ts x with
      | false => rfl
      | true => exact absurd ((hc x).1 hq) ha
    simp [setDecRange, hts, decNew, hn, this, bind, Except.bind]

theorem reads_plain {l : DecLit} (h : l.Ok) : Reads none l l.value := by
  simp [Reads, decBase, DArg.decimal, decOfStr_lit h]

theorem reads_plain_eq {l : DecLit} (h : l.Ok) {x : Dec} (hr : Reads none l x) : x = l.value := by
  have := reads_plain h
  unfold Reads at this hr
  rw [hr] at this; cases this; rfl

theorem decSame_refl (x : Dec) : DecSame x x := by rw [decSame_iff]

theorem denotes_base {v : DArg} {x : Dec} (h : DenotesDec v x) : v.decimal = .ok x := by
  rcases h with rfl | ⟨n, rfl, rfl⟩ | ⟨l, hl, rfl, rfl⟩
  · rfl
  · rfl
  · exact decOfStr_lit hl

theorem denotes_falsy {v : DArg} {x : Dec} (h : DenotesDec v x) (hf : v.truthy = false) :
    (v = .int 0 ∧ x = ⟨0, 0⟩) ∨ (v = .dec x ∧ x.coef = 0) := by
  rcases h with rfl | ⟨n, rfl, rfl⟩ | ⟨l, hl, rfl, rfl⟩
  · right; exact ⟨rfl, by simpa [DArg.truthy] using hf⟩
  · left
    have : n = 0 := by simpa [DArg.truthy] using hf
    subst this; exact ⟨rfl, rfl⟩
  · exfalso
    obtain ⟨c, cs, h1, _⟩ := lit_head hl
    simp [DArg.truthy, h1] at hf

/-! ## C85 -/

/-- C85, a range on the `decimal64` itself: the leaf takes exactly the decimals of the
range, given as decimals, integers or texts, and keeps them as they are; any other
raises `ValueError`.  The single values of the range must be such that floats hold them;
for others see `C85_single_refuted`.  Missing besides: values that are no numbers
(`C85_none_refuted`, `C85_text_refuted`) and the fraction digits (`C85_digits_refuted`). -/
theorem C85_range_partial (ws : List DecWritten) (h : RangeOk ws) (v : DArg) (x : Dec) (hv : DenotesDec v x) :
    (DecAllowed ws x → setDecRange none (genSpecs (decRangeText ws)) v = .ok x) ∧
    (¬ DecAllowed ws x → setDecRange none (genSpecs (decRangeText ws)) v = .error .valueError) := by
  obtain ⟨ts, h1, h2⟩ := checks_of (fd := none) h.parts
    (fun w hw l hl => ⟨h.lits w hw l hl, _, reads_plain (h.lits w hw l hl)⟩)
    (fun w hw l hl y hy => by rw [reads_plain_eq (h.lits w hw l hl) hy]; exact decSame_refl _)
    (fun w hw l hl y hy => by
      rw [reads_plain_eq (h.lits w hw l (by simp [hl, DecPart.lits])) hy]; exact h.singles w hw l hl)
  refine set_outcome h1 h2 (denotes_base hv) fun hf => ?_
  rcases denotes_falsy hv hf with ⟨rfl, rfl⟩ | ⟨rfl, _⟩
  · exact .inl ⟨0, rfl, decSame_refl _⟩
  · exact .inr ⟨x, rfl, decSame_refl _⟩

theorem quantize_exact (x : Dec) (fd : Nat) (h1 : -(fd : Int) ≤ x.exp)
    (h2 : (x.coef * 10 ^ (x.exp + fd).toNat).natAbs < 10 ^ 28) :
    quantize x fd = .ok ⟨x.coef * 10 ^ (x.exp + fd).toNat, -fd⟩ ∧ DecSame ⟨x.coef * 10 ^ (x.exp + fd).toNat, -fd⟩ x := by
  refine ⟨by simp only [quantize, h1, if_true]; rw [if_pos h2], ?_⟩
  rw [decSame_iff]
  simp only [decN, decD]
  have e1 : (-(fd : Int)).toNat = 0 := by omega
  have e2 : (-(-(fd : Int))).toNat = fd := by omega
  rw [e1, e2, Int.pow_zero, Int.mul_one]
  have : (10 : Int) ^ (x.exp + fd).toNat * 10 ^ (-x.exp).toNat = 10 ^ x.exp.toNat * 10 ^ fd := by
    rw [← Int.pow_add, ← Int.pow_add]; congr 1; omega
  rw [Int.mul_assoc, this, Int.mul_assoc]

theorem reads_digits {fd : Nat} {l : DecLit} (h : l.Ok) (h1 : l.fp.length ≤ fd)
    (h2 : (number (l.ip ++ l.fp)) * 10 ^ (fd - l.fp.length) < 10 ^ 28) :
    ∃ y, Reads (some fd) l y ∧ DecSame y l.value := by
  have hexp : (l.value.exp + fd).toNat = fd - l.fp.length := by simp only [DecLit.value]; omega
  have habs : l.value.coef.natAbs = number (l.ip ++ l.fp) := by
    simp only [DecLit.value]; cases l.neg <;> simp
  obtain ⟨q1, q2⟩ := quantize_exact l.value fd (by simp only [DecLit.value]; omega)
    (by rw [natAbs_pow10, hexp, habs]; exact h2)
  refine ⟨_, ?_, q2⟩
  simp only [Reads, decBase, DArg.decimal, decOfStr_lit h, bind, Except.bind]
  exact q1

theorem dyadic_same {x y : Dec} (h : DecSame x y) (hd : BinaryFraction x) : BinaryFraction y := by
  obtain ⟨k, j, h1, h2⟩ := hd
  refine ⟨k, j, h1, ?_⟩
  rw [decSame_iff] at h
  change decN x * 2 ^ j = k * decD x at h2
  change decN y * 2 ^ j = k * decD y
  apply Int.eq_of_mul_eq_mul_right (a := decD x) (by have := decD_pos x; omega)
  calc decN y * 2 ^ j * decD x = decN y * decD x * 2 ^ j := by ac_rfl
    _ = decN x * decD y * 2 ^ j := by rw [h]
    _ = decN x * 2 ^ j * decD y := by ac_rfl
    _ = k * decD x * decD y := by rw [h2]
    _ = _ := by ac_rfl

/-- C85, a range on a typedef of a `decimal64` with `fd` fraction digits: the value is
rounded first, to a nearest multiple of the unit and ties to even; the leaf takes exactly
the values whose rounding is in the range, and keeps the rounding. -/
theorem C85_rounded_range_partial (fd : Nat) (ws : List DecWritten) (h : RangeOk ws) (hfit : FitsDigits fd ws)
    (v : DArg) (x : Dec) (hv : DenotesDec v x) :
    ∃ k, NearestEven k fd x.coef x.exp ∧ (k.natAbs < 10 ^ 28 →
      (DecAllowed ws ⟨k, -fd⟩ → setDecRange (some fd) (genSpecs (decRangeText ws)) v = .ok ⟨k, -fd⟩) ∧
      (¬ DecAllowed ws ⟨k, -fd⟩ → setDecRange (some fd) (genSpecs (decRangeText ws)) v = .error .valueError)) := by
  have hread : ∀ w ∈ ws, ∀ l ∈ w.part.lits, ∃ y, Reads (some fd) l y ∧ DecSame y l.value := fun w hw l hl =>
    reads_digits (h.lits w hw l hl) (hfit w hw l hl).1 (hfit w hw l hl).2
  have huniq : ∀ w ∈ ws, ∀ l ∈ w.part.lits, ReadsSame (some fd) l := by
    intro w hw l hl y hy
    obtain ⟨y', h1, h2⟩ := hread w hw l hl
    unfold Reads at h1 hy
    rw [hy] at h1; cases h1; exact h2
  obtain ⟨ts, h1, h2⟩ := checks_of (fd := some fd) h.parts
    (fun w hw l hl => ⟨h.lits w hw l hl, (hread w hw l hl).imp fun _ a => a.1⟩) huniq
    (fun w hw l hl y hy => by
      have same := huniq w hw l (by simp [hl, DecPart.lits]) y hy
      exact dyadic_same ⟨same.2, same.1⟩ (h.singles w hw l hl))
  obtain ⟨k, hk, hq⟩ := quantize_result x fd
  refine ⟨k, hk, fun hsmall => ?_⟩
  rw [if_pos hsmall] at hq
  have hbase : decBase (some fd) v = .ok ⟨k, -fd⟩ := by
    simp only [decBase, denotes_base hv, bind, Except.bind, hq]
  have hzero : x.coef = 0 → k = 0 := by
    intro h0
    have : quantize x fd = .ok ⟨0, -fd⟩ := by
      have e : x = ⟨0, x.exp⟩ := by cases x; simp_all
      rw [e]
      simp only [quantize]
      by_cases c : -(fd : Int) ≤ x.exp
      · simp [c]
      · have hd0 : divHalfEven 0 (10 ^ (-(fd : Int) - x.exp).toNat) = 0 := by
          simp only [divHalfEven, Int.zero_ediv, Int.zero_emod]
          rw [if_pos (by
            have : 0 < 10 ^ (-(fd : Int) - x.exp).toNat := Nat.pow_pos (by decide)
            omega)]
        simp [c, hd0]
    rw [hq] at this
    simpa using this
  refine set_outcome h1 h2 hbase fun hf => ?_
  rcases denotes_falsy hv hf with ⟨rfl, rfl⟩ | ⟨rfl, h0⟩
  · refine .inl ⟨0, rfl, ?_⟩
    rw [hzero rfl]; exact zero_same _ _
  · refine .inr ⟨x, rfl, ?_⟩
    rw [hzero h0]
    have e : x = ⟨0, x.exp⟩ := by cases x; simp_all
    rw [e]; exact zero_same _ _

/-- The argument `0.5 | 1 .. 2.25 | 10..max`. -/
def demoRange : List DecWritten :=
  [{ part := .single ⟨false, py!"0", py!"5"⟩, post := 1 },
   { part := .span (some ⟨false, py!"1", []⟩) (some ⟨false, py!"2", py!"25"⟩), pre := 1, sp1 := 1, sp2 := 1, post := 1 },
   { part := .span (some ⟨false, py!"10", []⟩) none, pre := 1 }]

example : decRangeText demoRange = py!"0.5 | 1 .. 2.25 | 10..max" := by decide

/-- The hypotheses are met. -/
theorem demoRange_ok : RangeOk demoRange ∧ FitsDigits 2 demoRange := by
  have ok : ∀ w ∈ demoRange, ∀ l ∈ w.part.lits, l.ip ≠ [] ∧ l.ip.all isDigit = true ∧ l.fp.all isDigit = true ∧
      l.fp.length ≤ 2 ∧ number (l.ip ++ l.fp) * 10 ^ (2 - l.fp.length) < 10 ^ 28 := by
    intro w hw l hl
    simp only [demoRange, List.mem_cons, List.not_mem_nil, or_false] at hw
    rcases hw with rfl | rfl | rfl <;> simp [DecPart.lits] at hl
    · subst hl; decide
    · rcases hl with rfl | rfl <;> decide
    · subst hl; decide
  refine ⟨⟨by simp [demoRange], fun w hw l hl => ?_, fun w hw l hl => ?_⟩, fun w hw l hl => ?_⟩
  · obtain ⟨h1, h2, h3, _, _⟩ := ok w hw l hl
    exact ⟨h1, by simpa using h2, by simpa using h3⟩
  · simp only [demoRange, List.mem_cons, List.not_mem_nil, or_false] at hw
    rcases hw with rfl | rfl | rfl <;> simp at hl
    subst hl
    exact ⟨1, 1, by decide, by decide⟩
  · obtain ⟨_, _, _, h4, h5⟩ := ok w hw l hl
    exact ⟨h4, h5⟩

example : setDecRange none (genSpecs (decRangeText demoRange)) (.text py!"0.5") = .ok ⟨5, -1⟩ ∧
    setDecRange none (genSpecs (decRangeText demoRange)) (.int 2) = .ok ⟨2, 0⟩ ∧
    setDecRange none (genSpecs (decRangeText demoRange)) (.text py!"2.26") = .error .valueError ∧
    setDecRange (some 2) (genSpecs (decRangeText demoRange)) (.text py!"2.254") = .ok ⟨225, -2⟩ := by decide

/-- C85 is false for single values that floats cannot hold: a leaf whose range is such a
value takes no value equal to it. -/
theorem C85_single_refuted (l : DecLit) (hl : l.Ok) (h : NoBinaryFraction l.value) (v : DArg) (hv : DenotesDec v l.value) :
    setDecRange none [l.text] v = .error .valueError := by
  have hc : buildDChk none l.text = .ok (.single l.value) := by
    simp [buildDChk, matchRange_lit hl, matchNumber_lit hl, decBase, DArg.decimal, decOfStr_lit hl, Except.map]
  have hts : [l.text].mapM (buildDChk none) = .ok [.single l.value] := by
    rw [List.mapM_cons, hc]; rfl
  have hcheck : decRangeCheck [.single l.value] l.value = false := by
    simp [decRangeCheck, DChk.run, decEqFloat_dyadic _ _ h]
  have hb : decBase none v = .ok l.value := denotes_base hv
  have hn : newCheck none [.single l.value] v = .ok false := by
    unfold newCheck
    cases ht : v.truthy with
    | true => simp [hb, hcheck]
    | false =>
      rcases denotes_falsy hv ht with ⟨rfl, h0⟩ | ⟨rfl, h0⟩
      · exfalso
        exact h 0 0 (by rw [h0]; simp)
      · exfalso
        exact h 0 0 (by rw [h0]; simp)
  simp [setDecRange, hts, decNew, hn, bind, Except.bind]

/-- One tenth is such a value. -/
example : NoBinaryFraction (DecLit.mk false py!"0" py!"1").value := by
  intro k j h
  have hv : (DecLit.mk false py!"0" py!"1").value = ⟨1, -1⟩ := by decide
  rw [hv] at h
  simp only [show ((-1 : Int)).toNat = 0 from rfl, show (-(-1 : Int)).toNat = 1 from rfl] at h
  have h' : (2 : Int) ^ j = k * 10 := by simpa using h
  have hmod : ∀ j : Nat, ((2 : Int) ^ j) % 5 ≠ 0 := by
    intro j
    induction j with
    | zero => decide
    | succ j ih => rw [Int.pow_succ]; omega
  apply hmod j
  rw [h']; omega

/-- C85 is false for `None`: the leaf then holds 0, in the range or not. -/
theorem C85_none_refuted : setDecRange none (genSpecs py!"1..10") .none = .ok ⟨0, 0⟩ := by decide

/-- And in `min..max` too, where the test passes; only if the range is of single numbers it is
refused. -/
theorem C85_none_unbounded_refuted : setDecRange none (genSpecs py!"min..max") .none = .ok ⟨0, 0⟩ ∧
    setDecRange none (genSpecs py!"5 | min..max") .none = .ok ⟨0, 0⟩ ∧
    setDecRange none (genSpecs py!"1|2") .none = .error .valueError := by decide

/-- C85 is false for texts that are no numbers: they raise the `InvalidOperation` of
`decimal`, which is no `ValueError`. -/
theorem C85_text_refuted (s : Str) (hs : s ≠ []) (h : decOfStr s = .error .invalidOperation) :
    setDecRange none (genSpecs py!"1..10") (.text s) = .error .invalidOperation := by
  have hts : (genSpecs py!"1..10").mapM (buildDChk none) = .ok [.pair (some ⟨1, 0⟩) (some ⟨10, 0⟩)] := by decide
  simp only [setDecRange, hts, bind, Except.bind, decNew, newCheck, DArg.truthy, decBase, DArg.decimal, h, decInit]
  simp [hs, pure, Except.pure]

example : decOfStr py!"ten" = .error .invalidOperation := by decide

/-- C85 is false for the digits: with a range on the `decimal64` itself the leaf keeps
more digits than it declares (`fraction-digits` plays no part). -/
theorem C85_digits_refuted : setDecRange none (genSpecs py!"1..10") (.text py!"1.23456") = .ok ⟨123456, -5⟩ := by decide

end Pyb
