import Verif.Model.Restricted
import Verif.Spec.Restricted
import Verif.Lemmas.Range

namespace Pyb
open Py Spec

theorem mapM_ok {α β : Type} {f : α → Except Err β} {g : α → β} {l : List α}
    (h : ∀ x ∈ l, f x = .ok (g x)) : l.mapM f = .ok (l.map g) := by
  induction l with
  | nil => rfl
  | cons x xs ih =>
    simp only [List.mapM_cons, h x (by simp), ih (fun y hy => h y (by simp [hy]))]
    rfl

theorem floatOfInt_small {n : Int} (h : n.natAbs < 2 ^ 53) : floatOfInt n = .ok n := by
  simp only [floatOfInt]; rw [if_pos h]

theorem chk_run_int (n : Int) (p : RangePart) (hs : ∀ m, p = .single m → m.natAbs < 2 ^ 53) :
    (chkOf p).run (.int n) = .ok (decide (p.Contains n)) := by
  cases p with
  | single m =>
    simp only [chkOf, Chk.run, PyVal.num?, floatOfInt_small (hs m rfl)]
    rfl
  | span lo hi =>
    cases lo with
    | none =>
      cases hi with
      | none => simp [chkOf, Chk.run, RangePart.Contains]; rfl
      | some h =>
        simp [chkOf, Chk.run, RangePart.Contains, PyVal.lt, PyVal.num?, pure, Except.pure, bind,
          Except.bind]
        by_cases hh : h < n <;> simp [hh] <;> omega
    | some l =>
      cases hi with
      | none =>
        simp [chkOf, Chk.run, RangePart.Contains, PyVal.lt, PyVal.num?, pure, Except.pure, bind,
          Except.bind]
        by_cases hl : n < l <;> simp [hl] <;> omega
      | some h =>
        simp [chkOf, Chk.run, RangePart.Contains, PyVal.lt, PyVal.num?, pure, Except.pure, bind,
          Except.bind]
        by_cases hl : n < l <;> by_cases hh : h < n <;> simp [hl, hh] <;> omega

theorem rangeCheck_int (n : Int) (ws : List WrittenPart)
    (hs : ∀ w ∈ ws, ∀ m, w.part = .single m → m.natAbs < 2 ^ 53) :
    rangeCheck (ws.map fun w => chkOf w.part) (.int n) = .ok (decide (Allowed ws n)) := by
  unfold rangeCheck
  rw [List.mapM_map, mapM_ok (f := Chk.run (.int n) ∘ fun w : WrittenPart => chkOf w.part)
    (g := fun w => decide (w.part.Contains n))
    (fun w hw => chk_run_int n w.part (hs w hw))]
  show Except.ok _ = _
  congr 1
  rw [Bool.eq_iff_iff, decide_eq_true_iff]
  simp [Allowed]

/-- A single value beyond 2^53 still compares unequal to a small number. -/
theorem floatOfInt_large {m : Int} (h1 : 2 ^ 53 ≤ m.natAbs) (h2 : m.natAbs < 2 ^ 64) :
    ∃ f, floatOfInt m = .ok f ∧ 2 ^ 53 ≤ f.natAbs := by
  have hne : m.natAbs ≠ 0 := by omega
  have hlo := Nat.log2_self_le hne
  have hhi : m.natAbs.log2 < 64 := (Nat.log2_lt hne).2 h2
  have hlo2 : 53 ≤ m.natAbs.log2 := (Nat.le_log2 hne).2 h1
  simp only [floatOfInt]
  rw [if_neg (by omega)]
  generalize hk : m.natAbs = k at *
  generalize he : k.log2 = L at *
  have hpow : 2 ^ L = 2 ^ 52 * 2 ^ (L - 52) := by rw [← Nat.pow_add]; congr 1; omega
  have hq : 2 ^ 52 ≤ k / 2 ^ (L - 52) := by
    rw [Nat.le_div_iff_mul_le (Nat.two_pow_pos _)]; omega
  have hE : 2 ≤ 2 ^ (L - 52) := by
    calc 2 = 2 ^ 1 := rfl
      _ ≤ 2 ^ (L - 52) := Nat.pow_le_pow_right (by decide) (by omega)
  have hE2 : 2 ^ (L - 52) ≤ 2 ^ 11 := Nat.pow_le_pow_right (by decide) (by omega)
  have hq2 : k / 2 ^ (L - 52) ≤ k := Nat.div_le_self _ _
  generalize 2 ^ (L - 52) = E at *
  generalize hQ : k / E = q at *
  generalize hq' : (if 2 * (k % E) > E ∨ 2 * (k % E) = E ∧ q % 2 = 1 then q + 1 else q) = q'
  have hq1 : q ≤ q' ∧ q' ≤ q + 1 := by subst hq'; split <;> omega
  have hv1 : 2 ^ 53 ≤ q' * E := by
    calc 2 ^ 53 = 2 ^ 52 * 2 := by decide
      _ ≤ q' * E := Nat.mul_le_mul (by omega) hE
  have hv2 : q' * E < 2 ^ 1024 := by
    calc q' * E ≤ (2 ^ 64) * 2 ^ 11 := Nat.mul_le_mul (by omega) hE2
      _ = 2 ^ 75 := by decide
      _ < 2 ^ 1024 := Nat.pow_lt_pow_right (by decide) (by decide)
  rw [if_neg (by omega)]
  refine ⟨_, rfl, ?_⟩
  split <;> omega

theorem rangeCheck_len (n : Nat) (hn : n < 2 ^ 53) (ws : List WrittenPart) (hl : LegalLength ws) :
    rangeCheck (ws.map fun w => chkOf w.part) (.int n) = .ok (decide (Allowed ws n)) := by
  unfold rangeCheck
  rw [List.mapM_map, mapM_ok (f := Chk.run (.int n) ∘ fun w : WrittenPart => chkOf w.part)
    (g := fun w => decide (w.part.Contains n)) ?_]
  · show Except.ok _ = _
    congr 1
    rw [Bool.eq_iff_iff, decide_eq_true_iff]
    simp [Allowed]
  · intro w hw
    cases hp : w.part with
    | span lo hi =>
      have := chk_run_int n (.span lo hi) (by simp)
      simpa [hp] using this
    | single m =>
      by_cases hm : m.natAbs < 2 ^ 53
      · have := chk_run_int n (.single m) (by simp; exact hm)
        simpa [hp] using this
      · have h0 := hl.2 w hw m hp
        obtain ⟨f, hf, hf2⟩ := floatOfInt_large (m := m) (by omega) (by omega)
        simp only [Function.comp, hp, chkOf, Chk.run, PyVal.num?, hf]
        show Except.ok _ = _
        congr 1
        rw [Bool.eq_iff_iff, decide_eq_true_iff, decide_eq_true_iff]
        simp only [RangePart.Contains]
        omega

/-- A restricted type over `int` for a derivation chain, as generated. -/
def towerOf : List (List WrittenPart) → RTy
  | [] => .base .int
  | ws :: rest => .restr (towerOf rest) [.range (genSpecs (rangeText ws))]

/-- The value is (convertible to) the integer `n`, and is not one of the falsy
values that skip conversion, other than the integer itself. -/
structure IsNum (v : PyVal) (n : Int) : Prop where
  conv : v.toInt = .ok n
  shape : v.truthy = true ∨ v = .int n

theorem isNum_int (n : Int) : IsNum (.int n) n := ⟨rfl, .inr rfl⟩

theorem isNum_str {s : Str} {n : Int} (h : intOfStr s = .ok n) : IsNum (.str s) n := by
  refine ⟨h, .inl ?_⟩
  cases s with
  | nil =>
    have : intOfStr [] = .error .valueError := by decide
    rw [this] at h; simp at h
  | cons c cs => simp [PyVal.truthy]

theorem isNum_intStr (n : Int) : IsNum (.str (intStr n)) n := isNum_str (intOfStr_intStr n)

theorem IsNum.ne_false {v n} (h : IsNum v n) : v ≠ .bool false := by
  rcases h.shape with h | h <;> rintro rfl
  · simp [PyVal.truthy] at h
  · simp at h

/-- The tests that end up in force: those of the innermost layer. -/
def towerTests : List (List WrittenPart) → Option (List Test)
  | [] => none
  | [ws] => some [.range (ws.map fun w => chkOf w.part)]
  | _ :: ws :: rest => towerTests (ws :: rest)

/-- Building the checks of a layer, given that the layer's bounds convert. -/
theorem build_layer (conv : PyVal → Except Err PyVal) (ws : List WrittenPart) (hne : ws ≠ [])
    (hb : ∀ w ∈ ws, ∀ b ∈ w.part.bounds, conv (.str (intStr b)) = .ok (.int b)) :
    (genSpecs (rangeText ws)).mapM (buildChk conv) = .ok (ws.map fun w => chkOf w.part) := by
  obtain ⟨ws', h1, h2⟩ := genSpecs_rangeText ws hne
  rw [h1, List.mapM_map]
  have hconv : ∀ w ∈ ws', ConvOK conv w.part := by
    intro w hw
    have : w.part ∈ ws.map WrittenPart.part := by rw [← h2]; exact List.mem_map_of_mem hw
    rw [List.mem_map] at this
    obtain ⟨w0, hw0, he⟩ := this
    have hb' := hb w0 hw0
    rw [← he]
    cases hp : w0.part with
    | single n =>
      rw [hp] at hb'
      exact hb' n (by simp [RangePart.bounds])
    | span lo hi =>
      rw [hp] at hb'
      refine ⟨fun n hn => hb' n ?_, fun n hn => hb' n ?_⟩
      · simp [RangePart.bounds, hn]
      · simp [RangePart.bounds, hn]
  rw [mapM_ok (f := buildChk conv ∘ WrittenPart.core) (g := fun w => chkOf w.part)
    (fun w hw => buildChk_core conv w (hconv w hw))]
  congr 1
  have : ws'.map (fun w => chkOf w.part) = (ws'.map WrittenPart.part).map chkOf := by
    simp [List.map_map, Function.comp_def]
  rw [this, h2, List.map_map]; rfl

theorem buildTests_range (conv : PyVal → Except Err PyVal) (ws : List WrittenPart) (val val' : PyVal)
    (hm : (genSpecs (rangeText ws)).mapM (buildChk conv) = .ok (ws.map fun w => chkOf w.part))
    (hv : val.truthy = true → conv val = .ok val') (hv' : val.truthy = false → val' = val) :
    buildTests conv [.range (genSpecs (rangeText ws))] val =
      .ok ([.range (ws.map fun w => chkOf w.part)], val') := by
  simp only [buildTests, hm]
  cases ht : val.truthy with
  | true => simp [hv ht, bind, Except.bind, pure, Except.pure]
  | false => simp [hv' ht, bind, Except.bind, pure, Except.pure]

theorem buildTests_range_fail (conv : PyVal → Except Err PyVal) (ws : List WrittenPart) (val : PyVal)
    (e : Err)
    (hm : (genSpecs (rangeText ws)).mapM (buildChk conv) = .ok (ws.map fun w => chkOf w.part))
    (ht : val.truthy = true) (hv : conv val = .error e) :
    buildTests conv [.range (genSpecs (rangeText ws))] val = .error .typeError := by
  simp only [buildTests, hm, ht, hv]
  rfl

/-- Everything known about the class of a chain. -/
structure TowerFacts (rx : Str → Str → Bool) (chain : List (List WrittenPart)) : Prop where
  newNone : ((towerOf chain).cls rx).new none = .ok (.int 0, towerTests chain)
  newOk : ∀ v n, IsNum v n → InType chain n →
    ((towerOf chain).cls rx).new (some v) = .ok (.int n, towerTests chain)
  callOk : ∀ v n, IsNum v n → InType chain n →
    ((towerOf chain).cls rx).call (some v) = .ok (.int n)
  newValue : ∀ v n ws rest, chain = ws :: rest → IsNum v n → InType rest n → ¬ Allowed ws n →
    ((towerOf chain).cls rx).new (some v) = .error .valueError
  newType : ∀ v n ws rest, chain = ws :: rest → IsNum v n → v.truthy = true → ¬ InType rest n →
    ((towerOf chain).cls rx).new (some v) = .error .typeError
  newZero : ¬ InType chain 0 → ((towerOf chain).cls rx).new (some (.int 0)) = .error .valueError

theorem call_of_new_error {rx chain a e}
    (h : ((towerOf chain).cls rx).new a = .error e) :
    ((towerOf chain).cls rx).call a = .error e := by
  cases chain with
  | nil =>
    cases a with
    | none => simp [towerOf, RTy.cls, Except.map] at h
    | some v =>
      simp only [towerOf, RTy.cls] at h ⊢
      cases hc : BaseTy.conv .int v with
      | ok x => simp [hc, Except.map] at h
      | error x => simp [hc, Except.map] at h; rw [h]
  | cons ws rest =>
    simp only [towerOf, RTy.cls] at h ⊢
    rw [h]; rfl

theorem towerFacts (rx : Str → Str → Bool) (chain : List (List WrittenPart)) (hl : LegalChain chain) :
    TowerFacts rx chain := by
  induction chain with
  | nil =>
    refine ⟨rfl, ?_, ?_, ?_, ?_, ?_⟩
    · intro v n h _
      simp [towerOf, RTy.cls, BaseTy.conv, h.conv, Except.map, towerTests]
    · intro v n h _
      simp [towerOf, RTy.cls, BaseTy.conv, h.conv, Except.map]
    · intro v n ws rest h; simp at h
    · intro v n ws rest h; simp at h
    · intro h; exact absurd (fun ws hws => by simp at hws) h
  | cons ws rest ih =>
    obtain ⟨hne, hb, hs, hl'⟩ := hl
    have F := ih hl'
    have hm : (genSpecs (rangeText ws)).mapM
        (buildChk fun v => ((towerOf rest).cls rx).call (some v)) =
        .ok (ws.map fun w => chkOf w.part) :=
      build_layer _ ws hne (fun w hw b hbm => F.callOk _ _ (isNum_intStr b) (hb w hw b hbm))
    have hanyT : ∀ n, anyOf rx [.range (ws.map fun w => chkOf w.part)] (.int n) =
        .ok (decide (Allowed ws n)) := by
      intro n; simp only [anyOf, Test.run]; exact rangeCheck_int n ws hs
    have htests : ∀ t, some ((towerTests rest).getD t) = towerTests (ws :: rest) ∨
        (rest = [] ∧ towerTests rest = none) := by
      intro t
      cases rest with
      | nil => right; exact ⟨rfl, rfl⟩
      | cons r rs =>
        left
        have : ∃ x, towerTests (r :: rs) = some x := by
          clear hb hl' ih F hm hanyT
          induction rs generalizing r with
          | nil => exact ⟨_, rfl⟩
          | cons q qs ihq => exact ihq q
        obtain ⟨x, hx⟩ := this
        simp only [towerTests, hx, Option.getD_some]
    have hfinal : some ((towerTests rest).getD [.range (ws.map fun w => chkOf w.part)]) =
        towerTests (ws :: rest) := by
      rcases htests [.range (ws.map fun w => chkOf w.part)] with h | ⟨rfl, h⟩
      · exact h
      · simp [towerTests]
    -- the new method in each situation
    have newNone : ((towerOf (ws :: rest)).cls rx).new none = .ok (.int 0, towerTests (ws :: rest)) := by
      simp only [towerOf, RTy.cls, Option.getD_none]
      rw [buildTests_range _ ws (.bool false) (.bool false) hm (by simp [PyVal.truthy]) (by simp)]
      simp only [F.newNone]
      rw [← hfinal]; rfl
    have newOk : ∀ v n, IsNum v n → InType (ws :: rest) n →
        ((towerOf (ws :: rest)).cls rx).new (some v) = .ok (.int n, towerTests (ws :: rest)) := by
      intro v n hv hin
      have hin' : InType rest n := fun x hx => hin x (by simp [hx])
      have haw : Allowed ws n := hin ws (by simp)
      simp only [towerOf, RTy.cls, Option.getD_some]
      rw [buildTests_range _ ws v (.int n) hm (fun _ => F.callOk v n hv hin') (by
        intro ht; rcases hv.shape with h | h
        · rw [h] at ht; simp at ht
        · exact h.symm)]
      simp only [bind, Except.bind, hanyT, haw, F.newOk v n hv hin']
      rw [← hfinal]; rfl
    have callOk : ∀ v n, IsNum v n → InType (ws :: rest) n →
        ((towerOf (ws :: rest)).cls rx).call (some v) = .ok (.int n) := by
      intro v n hv hin
      have hin' : InType rest n := fun x hx => hin x (by simp [hx])
      have h1 := newOk v n hv hin
      simp only [towerOf, RTy.cls] at h1 ⊢
      rw [h1]
      simp only [bind, Except.bind, initCheck, F.callOk v n hv hin']
      have : allOf rx ((towerTests (ws :: rest)).getD []) (.int n) = .ok () := by
        have hall : ∀ (c : List (List WrittenPart)), LegalChain c → InType c n →
            allOf rx ((towerTests c).getD []) (.int n) = .ok () := by
          intro c
          induction c with
          | nil => intros; rfl
          | cons x xs ihx =>
            intro hlc hic
            cases xs with
            | nil =>
              obtain ⟨_, _, hsx, _⟩ := hlc
              simp only [towerTests, Option.getD_some, allOf, Test.run]
              rw [rangeCheck_int n x hsx]
              simp [bind, Except.bind, hic x (by simp)]
            | cons y ys =>
              exact ihx hlc.2.2.2 (fun z hz => hic z (by simp at hz ⊢; right; exact hz))
        exact hall _ ⟨hne, hb, hs, hl'⟩ hin
      rw [this]; rfl
    refine ⟨newNone, newOk, callOk, ?_, ?_, ?_⟩
    · intro v n ws' rest' he hv hin hna
      obtain ⟨rfl, rfl⟩ := List.cons.inj he
      simp only [towerOf, RTy.cls, Option.getD_some]
      rw [buildTests_range _ ws v (.int n) hm (fun _ => F.callOk v n hv hin) (by
        intro ht; rcases hv.shape with h | h
        · rw [h] at ht; simp at ht
        · exact h.symm)]
      simp [bind, Except.bind, hanyT, hna]
    · intro v n ws' rest' he hv ht hnin
      obtain ⟨rfl, rfl⟩ := List.cons.inj he
      have hcall : ∃ e, ((towerOf rest).cls rx).call (some v) = .error e := by
        cases hr : rest with
        | nil => rw [hr] at hnin; exact absurd (fun x hx => by simp at hx) hnin
        | cons r rs =>
          by_cases hin2 : InType rs n
          · have hna : ¬ Allowed r n := by
              intro ha; apply hnin; rw [hr]
              intro x hx; simp only [List.mem_cons] at hx
              rcases hx with rfl | hx
              · exact ha
              · exact hin2 x hx
            rw [← hr]
            exact ⟨_, call_of_new_error (F.newValue v n r rs hr hv hin2 hna)⟩
          · rw [← hr]
            exact ⟨_, call_of_new_error (F.newType v n r rs hr hv ht hin2)⟩
      obtain ⟨e, he⟩ := hcall
      simp only [towerOf, RTy.cls, Option.getD_some]
      rw [buildTests_range_fail _ ws v e hm ht he]
      rfl
    · intro hnin
      have hv := isNum_int 0
      by_cases haw : Allowed ws 0
      · have hnr : ¬ InType rest 0 := by
          intro h; apply hnin; intro x hx; simp only [List.mem_cons] at hx
          rcases hx with rfl | hx
          · exact haw
          · exact h x hx
        simp only [towerOf, RTy.cls, Option.getD_some]
        rw [buildTests_range _ ws (.int 0) (.int 0) hm (by simp [PyVal.truthy]) (by simp)]
        simp [bind, Except.bind, hanyT, haw, F.newZero hnr]
      · simp only [towerOf, RTy.cls, Option.getD_some]
        rw [buildTests_range _ ws (.int 0) (.int 0) hm (by simp [PyVal.truthy]) (by simp)]
        simp [bind, Except.bind, hanyT, haw]

/-! ## Strings -/

/-- The class generated for a chain of `type` statements over `string`, outermost
first. -/
def strTower : List StrLayer → RTy
  | [] => .base .str
  | l :: rest => genRTy (strTower rest) l.patterns (l.length.map rangeText) none

/-- The outcome of the pattern test of the code. -/
def patTest (rx : Str → Str → Bool) (p s : Str) : Bool :=
  match convertRegexp p with
  | .ok p' => rx p' s
  | .error _ => false

/-- The outcomes of the tests the code keeps for a layer. -/
def kept (rx : Str → Str → Bool) (l : StrLayer) (s : Str) : List Bool :=
  (l.patterns.head?.map fun p => patTest rx p s).toList ++
  (l.length.map fun ws => decide (Allowed ws s.length)).toList

def LegalLayer (l : StrLayer) : Prop :=
  (∀ p ∈ l.patterns, p ≠ []) ∧ (∀ ws, l.length = some ws → LegalLength ws)

/-- Some test passes in every layer that has any. -/
def anyEach (rx : Str → Str → Bool) (chain : List StrLayer) (s : Str) : Bool :=
  chain.all fun l => (kept rx l s).isEmpty || (kept rx l s).contains true

/-- All tests pass in the innermost layer that has any. -/
def allInner (rx : Str → Str → Bool) (s : Str) : List StrLayer → Bool
  | [] => true
  | l :: rest =>
    if rest.all (fun l => (kept rx l s).isEmpty) then (kept rx l s).all id else allInner rx s rest

theorem convertRegexp_ok {p : Str} (h : p ≠ []) : ∃ p', convertRegexp p = .ok p' := by
  unfold convertRegexp
  cases hl : p.getLast? with
  | none => rw [List.getLast?_eq_none_iff] at hl; exact absurd hl h
  | some c => exact ⟨_, rfl⟩

theorem pattern_run (rx : Str → Str → Bool) {p : Str} (h : p ≠ []) (s : Str) :
    (Test.pattern p).run rx (.str s) = .ok (patTest rx p s) := by
  obtain ⟨p', hp⟩ := convertRegexp_ok h
  simp [Test.run, patTest, hp, bind, Except.bind, PyVal.toStr, pure, Except.pure]

theorem length_build (ws : List WrittenPart) (hne : ws ≠ []) :
    (genSpecs (rangeText ws)).mapM (buildChk fun v => v.toInt.map .int) =
      .ok (ws.map fun w => chkOf w.part) :=
  build_layer _ ws hne (fun w _ b _ => by
    simp [PyVal.toInt, intOfStr_intStr, Except.map])

theorem length_run (rx : Str → Str → Bool) (ws : List WrittenPart) (hl : LegalLength ws) (s : Str)
    (hs : s.length < 2 ^ 53) :
    (Test.length (ws.map fun w => chkOf w.part)).run rx (.str s) =
      .ok (decide (Allowed ws s.length)) := by
  simp only [Test.run, PyVal.len, bind, Except.bind]
  exact rangeCheck_len _ hs ws hl

/-- The tests of a layer. -/
def layerTests (l : StrLayer) : List Test :=
  (l.patterns.head?.map Test.pattern).toList ++
  (l.length.map fun ws => Test.length (ws.map fun w => chkOf w.part)).toList

theorem build_strLayer (mk : PyVal → Except Err PyVal) (l : StrLayer) (hl : LegalLayer l) (v : PyVal) :
    buildTests mk (genRestrs l.patterns (l.length.map rangeText) none) v = .ok (layerTests l, v) := by
  obtain ⟨pats, len⟩ := l
  cases pats <;> cases len <;>
    simp [genRestrs, buildTests, layerTests, bind, Except.bind, pure, Except.pure]
  all_goals
    rename_i ws
    have := length_build ws (hl.2 ws rfl).1
    simp [this]

theorem runs_layer (rx : Str → Str → Bool) (l : StrLayer) (hl : LegalLayer l) (s : Str)
    (hs : s.length < 2 ^ 53) :
    (layerTests l).map (fun t => t.run rx (.str s)) = (kept rx l s).map Except.ok := by
  obtain ⟨pats, len⟩ := l
  have hp : ∀ p ps, pats = p :: ps → (Test.pattern p).run rx (.str s) = .ok (patTest rx p s) :=
    fun p ps he => pattern_run rx (hl.1 p (by simp [he])) s
  have hn : ∀ ws, len = some ws → (Test.length (ws.map fun w => chkOf w.part)).run rx (.str s) =
      .ok (decide (Allowed ws s.length)) :=
    fun ws he => length_run rx ws (hl.2 ws he) s hs
  cases pats <;> cases len <;> simp [layerTests, kept]
  · exact hn _ rfl
  · exact hp _ _ rfl
  · exact ⟨hp _ _ rfl, hn _ rfl⟩

theorem anyOf_of_runs (rx : Str → Str → Bool) (v : PyVal) :
    ∀ (ts : List Test) (bs : List Bool), ts ≠ [] → ts.map (fun t => t.run rx v) = bs.map Except.ok →
      anyOf rx ts v = .ok (bs.contains true)
  | [], _, h, _ => absurd rfl h
  | [t], bs, _, hb => by
    match bs, hb with
    | [b], hb =>
      simp at hb
      simp only [anyOf, hb]
      cases b <;> rfl
    | _ :: _ :: _, hb => simp at hb
  | t :: t' :: ts, bs, _, hb => by
    match bs, hb with
    | b :: bs', hb =>
      simp only [List.map_cons, List.cons.injEq] at hb
      have ih := anyOf_of_runs rx v (t' :: ts) bs' (by simp) (by simpa using hb.2)
      simp only [anyOf, hb.1, bind, Except.bind, ih]
      cases b <;> simp [pure, Except.pure]

theorem allOf_of_runs (rx : Str → Str → Bool) (v : PyVal) :
    ∀ (ts : List Test) (bs : List Bool), ts.map (fun t => t.run rx v) = bs.map Except.ok →
      allOf rx ts v = if bs.all id then .ok () else .error .valueError
  | [], bs, hb => by cases bs <;> simp_all [allOf]
  | t :: ts, bs, hb => by
    match bs, hb with
    | b :: bs', hb =>
      simp only [List.map_cons, List.cons.injEq] at hb
      have ih := allOf_of_runs rx v ts bs' hb.2
      simp only [allOf, hb.1, bind, Except.bind, ih]
      cases b <;> simp

theorem layerTests_nil {l : StrLayer} (rx s) : layerTests l = [] ↔ kept rx l s = [] := by
  obtain ⟨pats, len⟩ := l
  cases pats <;> cases len <;> simp [layerTests, kept]

theorem genRestrs_nil {l : StrLayer} :
    genRestrs l.patterns (l.length.map rangeText) none = [] ↔ layerTests l = [] := by
  obtain ⟨pats, len⟩ := l
  cases pats <;> cases len <;> simp [layerTests, genRestrs]

/-- The tests left in force by `__new__`. -/
def strTests : List StrLayer → Option (List Test)
  | [] => none
  | l :: rest => if layerTests l = [] then strTests rest else some ((strTests rest).getD (layerTests l))

theorem allOf_strTests (rx : Str → Str → Bool) (s : Str) (hs : s.length < 2 ^ 53) :
    ∀ chain : List StrLayer, (∀ l ∈ chain, LegalLayer l) →
      (strTests chain = none ↔ chain.all (fun l => (kept rx l s).isEmpty) = true) ∧
      allOf rx ((strTests chain).getD []) (.str s) =
        if allInner rx s chain then .ok () else .error .valueError
  | [], _ => by simp [strTests, allInner, allOf]
  | l :: rest, hl => by
    obtain ⟨ih1, ih2⟩ := allOf_strTests rx s hs rest (fun x hx => hl x (by simp [hx]))
    have hr := allOf_of_runs rx (.str s) _ _ (runs_layer rx l (hl l (by simp)) s hs)
    by_cases hn : layerTests l = []
    · have hk := (layerTests_nil rx s).1 hn
      simp only [strTests, hn, if_true]
      refine ⟨by simp [ih1, hk], ?_⟩
      rw [ih2]
      simp only [allInner, hk]
      by_cases ha : rest.all (fun l => (kept rx l s).isEmpty) = true
      · rw [if_pos ha]
        have : allInner rx s rest = true := by
          clear ih1 ih2 hr hl
          induction rest with
          | nil => rfl
          | cons r rs ihr =>
            simp only [List.all_cons, Bool.and_eq_true] at ha
            simp only [allInner, ha.2, if_true]
            have := ha.1
            rw [List.isEmpty_iff] at this
            simp [this]
        simp [this]
      · rw [if_neg ha]
    · have hk : kept rx l s ≠ [] := fun h => hn ((layerTests_nil rx s).2 h)
      simp only [strTests, hn, if_false, Option.getD_some]
      refine ⟨by simp [hk], ?_⟩
      by_cases ha : rest.all (fun l => (kept rx l s).isEmpty) = true
      · rw [ih1.2 ha, Option.getD_none, hr]
        simp only [allInner, ha, if_true]
      · have e : allInner rx s (l :: rest) = allInner rx s rest := by
          simp only [allInner]; rw [if_neg ha]
        rw [e, ← ih2]
        cases ht : strTests rest with
        | none => exact absurd (ih1.1 ht) ha
        | some t => rfl

structure StrFacts (rx : Str → Str → Bool) (chain : List StrLayer) : Prop where
  new : ∀ s : Str, s.length < 2 ^ 53 → ((strTower chain).cls rx).new (some (.str s)) =
    if anyEach rx chain s then .ok (.str s, strTests chain) else .error .valueError
  call : ∀ s : Str, s.length < 2 ^ 53 → ((strTower chain).cls rx).call (some (.str s)) =
    if anyEach rx chain s && allInner rx s chain then .ok (.str s) else .error .valueError

theorem anyEach_cons (rx) (l : StrLayer) (rest s) :
    anyEach rx (l :: rest) s = (((kept rx l s).isEmpty || (kept rx l s).contains true) && anyEach rx rest s) := by
  simp [anyEach]

theorem cls_restr_cases {l : StrLayer} {rest} (h : layerTests l ≠ []) :
    strTower (l :: rest) =
      .restr (strTower rest) (genRestrs l.patterns (l.length.map rangeText) none) := by
  simp only [strTower, genRTy]
  cases hg : genRestrs l.patterns (l.length.map rangeText) none with
  | nil => exact absurd (genRestrs_nil.1 hg) h
  | cons a b => rfl

theorem strTower_skip {l : StrLayer} {rest} (h : layerTests l = []) :
    strTower (l :: rest) = strTower rest := by
  simp only [strTower, genRTy, genRestrs_nil.2 h]

theorem anyEach_of_allInner_nil {rx s} {chain : List StrLayer}
    (h : chain.all (fun l => (kept rx l s).isEmpty) = true) : anyEach rx chain s = true := by
  simp only [anyEach, List.all_eq_true] at h ⊢
  intro l hl; simp [h l hl]

theorem strFacts (rx : Str → Str → Bool) (chain : List StrLayer) (hl : ∀ l ∈ chain, LegalLayer l) :
    StrFacts rx chain := by
  induction chain with
  | nil =>
    constructor
    · intro s _; simp [strTower, RTy.cls, BaseTy.conv, anyEach, strTests, Except.map, PyVal.toStr]
    · intro s _; simp [strTower, RTy.cls, BaseTy.conv, anyEach, allInner, PyVal.toStr]
  | cons l rest ih =>
    have F := ih (fun x hx => hl x (by simp [hx]))
    by_cases hn : layerTests l = []
    · rw [show StrFacts rx (l :: rest) ↔ _ from ⟨id, id⟩]
      constructor
      · intro s hs
        have hk := (layerTests_nil rx s).1 hn
        rw [strTower_skip hn, F.new s hs, anyEach_cons, hk]
        simp [strTests, hn]
      · intro s hs
        have hk := (layerTests_nil rx s).1 hn
        rw [strTower_skip hn, F.call s hs, anyEach_cons, hk]
        have e : allInner rx s (l :: rest) = allInner rx s rest := by
          have h1 := (allOf_strTests rx s hs (l :: rest) hl).2
          have h2 := (allOf_strTests rx s hs rest (fun x hx => hl x (by simp [hx]))).2
          simp only [strTests, hn, if_true] at h1
          rw [h1] at h2
          revert h2
          cases allInner rx s (l :: rest) <;> cases allInner rx s rest <;> simp
        rw [e]; simp
    · have hnew : ∀ s : Str, s.length < 2 ^ 53 →
          ((strTower (l :: rest)).cls rx).new (some (.str s)) =
          if anyEach rx (l :: rest) s then .ok (.str s, strTests (l :: rest)) else .error .valueError := by
        intro s hs
        have hk : kept rx l s ≠ [] := fun h => hn ((layerTests_nil rx s).2 h)
        have ha := anyOf_of_runs rx (.str s) _ _ hn (runs_layer rx l (hl l (by simp)) s hs)
        rw [cls_restr_cases hn]
        simp only [RTy.cls, Option.getD_some]
        rw [build_strLayer _ l (hl l (by simp))]
        simp only [bind, Except.bind, ha, F.new s hs, anyEach_cons]
        have hke : (kept rx l s).isEmpty = false := by simp [hk]
        rw [hke]
        cases h1 : (kept rx l s).contains true <;> cases h2 : anyEach rx rest s <;>
          simp [pure, Except.pure, strTests, hn]
      constructor
      · exact hnew
      · intro s hs
        have hk : kept rx l s ≠ [] := fun h => hn ((layerTests_nil rx s).2 h)
        have hke : (kept rx l s).isEmpty = false := by simp [hk]
        have h1 := hnew s hs
        have h2 := (allOf_strTests rx s hs (l :: rest) hl).2
        rw [cls_restr_cases hn] at h1 ⊢
        simp only [RTy.cls] at h1 ⊢
        rw [h1]
        cases hA : anyEach rx (l :: rest) s with
        | false => rfl
        | true =>
          simp only [if_true, bind, Except.bind, initCheck, F.call s hs, Bool.true_and]
          rw [anyEach_cons, Bool.and_eq_true] at hA
          rw [hA.2, Bool.true_and]
          cases hI : allInner rx s (l :: rest) with
          | true =>
            rw [hI] at h2
            by_cases hre : rest.all (fun l => (kept rx l s).isEmpty) = true
            · have : allInner rx s rest = true := by
                have h3 := (allOf_strTests rx s hs rest (fun x hx => hl x (by simp [hx])))
                rw [h3.1.2 hre] at h3
                revert h3; cases allInner rx s rest <;> simp [allOf]
              simp only [this, if_true, h2]; rfl
            · have : allInner rx s rest = true := by
                simp only [allInner] at hI; rwa [if_neg hre] at hI
              simp only [this, if_true, h2]; rfl
          | false =>
            rw [hI] at h2
            cases hR : allInner rx s rest with
            | true => simp only [if_true, h2]; rfl
            | false => rfl

/-- Once `__new__` succeeds, an assignment follows the outcome of calling the type,
except that a `TypeError` is swallowed. -/
theorem setLeaf_of_new (rx : Str → Str → Bool) (T : RTy) (v : PyVal) {o t}
    (h : (T.cls rx).new (some v) = .ok (o, t)) :
    setLeaf rx T v = match (T.cls rx).call (some v) with
      | .ok _ => .ok o
      | .error .typeError => .ok o
      | .error e => .error e := by
  cases T with
  | base b =>
    simp only [RTy.cls] at h
    simp only [setLeaf, dynLeaf, RTy.cls, h, RTy.init]
    cases hb : b.conv v with
    | ok x => rfl
    | error e => simp [hb, Except.map] at h
  | restr inner rs =>
    have hc : ((RTy.restr inner rs).cls rx).call (some v) =
        (initCheck rx (inner.cls rx).call (t.getD []) (some v)).map fun _ => o := by
      simp only [RTy.cls] at h ⊢
      rw [h]; simp only [bind, Except.bind]
      cases initCheck rx (inner.cls rx).call (t.getD []) (some v) <;> rfl
    rw [hc]
    simp only [setLeaf, dynLeaf, h, RTy.init, bind, Except.bind]
    cases initCheck rx (inner.cls rx).call (t.getD []) (some v) with
    | ok u => rfl
    | error e => cases e <;> rfl

theorem dyn_str (rx : Str → Str → Bool) (chain : List StrLayer) (hl : ∀ l ∈ chain, LegalLayer l)
    (s : Str) (hs : s.length < 2 ^ 53) :
    setLeaf rx (strTower chain) (.str s) =
      if anyEach rx chain s && allInner rx s chain then .ok (.str s) else .error .valueError := by
  have F := strFacts rx chain hl
  have hnew := F.new s hs
  have hcall := F.call s hs
  cases hE : anyEach rx chain s with
  | false =>
    simp only [hE] at hnew
    simp only [setLeaf, dynLeaf, hnew]; rfl
  | true =>
    simp only [hE, if_true, Bool.true_and] at hnew hcall
    rw [setLeaf_of_new rx _ _ hnew, hcall]
    cases allInner rx s chain <;> rfl

/-! ## Assignments to integer leaves -/

theorem setLeaf_tower_ok (rx) (chain) (hl : LegalChain chain) (v n) (hv : IsNum v n)
    (hin : InType chain n) : setLeaf rx (towerOf chain) v = .ok (.int n) := by
  have F := towerFacts rx chain hl
  rw [setLeaf_of_new rx _ _ (F.newOk v n hv hin), F.callOk v n hv hin]

/-- A value outside the first or the second range of the chain, but inside all
deeper ones, is rejected. -/
theorem setLeaf_tower_reject (rx) (chain) (hl : LegalChain chain) (v n) (hv : IsNum v n)
    (hout : ¬ InType chain n) (hin : InType (chain.drop 2) n) :
    setLeaf rx (towerOf chain) v = .error .valueError := by
  cases chain with
  | nil => exact absurd (fun x hx => by simp at hx) hout
  | cons ws rest =>
    have F := towerFacts rx (ws :: rest) hl
    have Fr := towerFacts rx rest hl.2.2.2
    by_cases hr : InType rest n
    · have hna : ¬ Allowed ws n := by
        intro ha; apply hout; intro x hx; simp only [List.mem_cons] at hx
        rcases hx with rfl | hx
        · exact ha
        · exact hr x hx
      simp only [setLeaf, dynLeaf, F.newValue v n ws rest rfl hv hr hna]
      rfl
    · by_cases ht : v.truthy = true
      · simp only [setLeaf, dynLeaf, F.newType v n ws rest rfl hv ht hr, F.newNone]
        cases hrest : rest with
        | nil => rw [hrest] at hr; exact absurd (fun x hx => by simp at hx) hr
        | cons ws2 rest2 =>
          have hin2 : InType rest2 n := by simpa [hrest] using hin
          have hna : ¬ Allowed ws2 n := by
            intro ha; apply hr; rw [hrest]; intro x hx; simp only [List.mem_cons] at hx
            rcases hx with rfl | hx
            · exact ha
            · exact hin2 x hx
          have hc := call_of_new_error (Fr.newValue v n ws2 rest2 hrest hv hin2 hna)
          rw [hrest] at hc
          simp only [towerOf] at hc
          simp only [towerOf, RTy.init, initCheck, bind, Except.bind, hc]
      · have hv0 : v = .int n := by
          rcases hv.shape with h | h
          · exact absurd h ht
          · exact h
        have hn0 : n = 0 := by rw [hv0] at ht; simpa [PyVal.truthy] using ht
        subst hn0; subst hv0
        simp only [setLeaf, dynLeaf, F.newZero hout]
        rfl

/-- A non-zero value outside a range from the third on is silently replaced by 0. -/
theorem setLeaf_tower_silent (rx) (chain) (hl : LegalChain chain) (v n) (hv : IsNum v n)
    (ht : v.truthy = true) (hout : ¬ InType (chain.drop 2) n) :
    setLeaf rx (towerOf chain) v = .ok (.int 0) := by
  match chain, hl, hout with
  | [], _, hout => exact absurd (fun x hx => by simp at hx) hout
  | [_], _, hout => exact absurd (fun x hx => by simp at hx) hout
  | ws :: ws2 :: rest, hl, hout =>
    have F := towerFacts rx (ws :: ws2 :: rest) hl
    have Fr := towerFacts rx (ws2 :: rest) hl.2.2.2
    simp only [List.drop_succ_cons, List.drop_zero] at hout
    have h2 : ¬ InType (ws2 :: rest) n := fun h => hout fun x hx => h x (by simp [hx])
    have hc := call_of_new_error (Fr.newType v n ws2 rest rfl hv ht hout)
    simp only [towerOf] at hc
    simp only [setLeaf, dynLeaf, F.newType v n ws _ rfl hv ht h2, F.newNone]
    simp only [towerOf, RTy.init, initCheck, bind, Except.bind, hc]
    rfl

end Pyb
