import Verif.Spec.UnionDefault
import Verif.Props.Restricted

namespace Pyb
open Py Spec

theorem new_of_call (rx : Str → Str → Bool) (T : RTy) (v y : PyVal) (h : (T.cls rx).call (some v) = .ok y) :
    ∃ t, (T.cls rx).new (some v) = .ok (y, t) := by
  cases T with
  | base b =>
    refine ⟨none, ?_⟩
    simp only [RTy.cls] at h ⊢
    rw [h]
    rfl
  | restr inner rs =>
    have h : (do
        let (o, t) ← (RTy.cls rx (.restr inner rs)).new (some v)
        initCheck rx (inner.cls rx).call (t.getD []) (some v)
        pure o) = Except.ok y := h
    revert h
    generalize (RTy.cls rx (.restr inner rs)).new (some v) = r
    intro h
    cases r with
    | error e => simp [bind, Except.bind] at h
    | ok p =>
      obtain ⟨o, tt⟩ := p
      simp only [bind, Except.bind] at h
      split at h
      · simp at h
      · simp only [pure, Except.pure, Except.ok.injEq] at h
        subst h
        exact ⟨tt, rfl⟩

/-- If a restricted class takes a value, so does the class it restricts, with the same
result. -/
theorem restr_call_inner (rx : Str → Str → Bool) (inner : RTy) (rs : List Restr) (v x : PyVal)
    (h : ((RTy.restr inner rs).cls rx).call (some v) = .ok x) :
    (inner.cls rx).call (some v) = .ok x := by
  simp only [RTy.cls] at h
  generalize hb : buildTests (fun v => (inner.cls rx).call (some v)) rs ((some v).getD (.bool false)) = b at h
  cases b with
  | error e => simp [bind, Except.bind] at h
  | ok p =>
    obtain ⟨tests, val⟩ := p
    simp only [bind, Except.bind] at h
    split at h
    · simp at h
    · rename_i q hq
      obtain ⟨o, t⟩ := q
      split at h
      · simp at h
      · rename_i hq2
        simp only [pure, Except.pure, Except.ok.injEq] at h
        subst h
        -- the inner call succeeds
        simp only [initCheck, bind, Except.bind] at hq2
        cases hc : (inner.cls rx).call (some v) with
        | error e => rw [hc] at hq2; simp at hq2
        | ok y =>
          obtain ⟨t', ht'⟩ := new_of_call rx inner v y hc
          simp only [ht', pure, Except.pure] at hq
          have ho : o = y := by
            repeat' (split at hq)
            all_goals first
              | exact (by simpa using hq : y = o ∧ _).1.symm
              | simp at hq
          rw [ho]

/-- Text given to a built-in integer type is refused with `ValueError` or `TypeError`. -/
theorem int_refuses (rx : Str → Str → Bool) (t : IntTy) (s : Str) (e : Err) (h : (t.rty.cls rx).call (some (.str s)) = .error e) :
    e = .valueError ∨ e = .typeError := by
  cases hi : intOfStr s with
  | ok n =>
    have hd : IsNum (.str s) n := (show Denotes (.str s) n from .inr ⟨_, rfl, hi⟩).isNum
    have F := towerFacts rx [[builtinPart t]] (builtin_legal t)
    rw [builtin_tower] at h
    by_cases hin : InType [[builtinPart t]] n
    · rw [F.callOk _ n hd hin] at h
      simp at h
    · have hna : ¬ Allowed [builtinPart t] n := fun ha => hin (by intro x hx; simp at hx; subst hx; exact ha)
      rw [call_of_new_error (F.newValue _ n _ _ rfl hd (by intro x hx; simp at hx) hna)] at h
      cases h
      exact Or.inl rfl
  | error x =>
    cases s with
    | nil => cases t <;> (cases h; first | exact Or.inl rfl | exact Or.inr rfl)
    | cons c cs =>
      rw [builtin_tower] at h
      have F := towerFacts rx [] (show LegalChain [] by trivial)
      have hl := builtin_legal t
      obtain ⟨hne, hb, hs, hl'⟩ := hl
      have hm : (genSpecs (rangeText [builtinPart t])).mapM
          (buildChk fun v => ((towerOf []).cls rx).call (some v)) =
          .ok ([builtinPart t].map fun w => chkOf w.part) :=
        build_layer _ _ hne (fun w hw b hbm => F.callOk _ _ (isNum_intStr b) (hb w hw b hbm))
      have hcall : ((towerOf []).cls rx).call (some (.str (c :: cs))) = .error x := by
        simp only [towerOf, RTy.cls, BaseTy.conv, PyVal.toInt, hi]
        rfl
      have hnew : ((towerOf [[builtinPart t]]).cls rx).new (some (.str (c :: cs))) = .error .typeError := by
        simp only [towerOf, RTy.cls, Option.getD_some]
        have := buildTests_range_fail (fun v => ((towerOf []).cls rx).call (some v)) [builtinPart t] (.str (c :: cs)) x hm rfl hcall
        simp only [towerOf, RTy.cls] at this
        rw [this]
        rfl
      rw [call_of_new_error hnew] at h
      cases h
      exact Or.inr rfl

theorem bool_refuses (v : Str) (e : Err) (h : (yangBool (.str v)).map PyVal.bool = .error e) : e = .valueError := by
  rw [yangBool] at h
  split at h
  · cases h; rfl
  · simp [Except.map] at h

/-- The built-in type a member comes from refuses with `ValueError` or `TypeError`. -/
theorem ctor_refuses (rx : Str → Str → Bool) (m : MemTy) (v : Str) (e : Err) (h : m.ctor.call rx v = .error e) :
    e = .valueError ∨ e = .typeError := by
  cases m with
  | int t => exact int_refuses rx t v e h
  | string => simp [MemTy.ctor, Ctor.call] at h
  | boolean => exact Or.inl (bool_refuses v e h)
  | intR t rs => exact int_refuses rx t v e h
  | stringR rs => simp [MemTy.ctor, Ctor.call] at h

/-- What the member takes, the built-in type takes with the same result. -/
theorem ctor_of_member (rx : Str → Str → Bool) (m : MemTy) (v : Str) (x : PyVal) (h : m.leafTy.call rx (.str v) = .ok x) :
    m.ctor.call rx v = .ok x := by
  cases m with
  | int t => exact h
  | string => exact h
  | boolean => exact h
  | intR t rs => exact restr_call_inner rx _ rs _ x h
  | stringR rs => exact restr_call_inner rx (.base .str) rs _ x h

theorem firstTaker_step (rx : Str → Str → Bool) (cm : Dict CEnt) (hcm : HasBuiltins cm) (v : Str) (m : MemTy) (ms : List CEnt) :
    firstTaker rx cm v (m.elem :: ms) = match m.ctor.call rx v with
      | .ok _ => .ok (some m.ctor.entry)
      | .error _ => firstTaker rx cm v ms := by
  have key : ∀ c : Ctor, (∀ e, c.call rx v = .error e → e = .valueError ∨ e = .typeError) →
      (match c.entry.pytype with
        | none => .error .keyError
        | some c' =>
          match c'.call rx v with
          | .ok _ => .ok (some c.entry)
          | .error .valueError => firstTaker rx cm v ms
          | .error .typeError => firstTaker rx cm v ms
          | .error e => .error e : Except Err (Option CEnt))
        = match c.call rx v with
          | .ok _ => .ok (some c.entry)
          | .error _ => firstTaker rx cm v ms := by
    intro c hc
    simp only [Ctor.entry]
    cases hcall : c.call rx v with
    | ok x => rfl
    | error e =>
      rcases hc e hcall with h | h <;> subst h <;> rfl
  have hr := ctor_refuses rx m v
  cases m with
  | int t => exact key _ hr
  | string => exact key _ hr
  | boolean => exact key _ hr
  | intR t rs =>
    have hg : cm.get? t.name = some (Ctor.int t).entry := hcm (.int t)
    rw [firstTaker]
    simp only [MemTy.elem, hg]
    exact key _ hr
  | stringR rs =>
    have hg : cm.get? py!"string" = some Ctor.string.entry := hcm .string
    rw [firstTaker]
    simp only [MemTy.elem, hg]
    exact key _ hr

theorem elem_default (m : MemTy) : m.elem.default = none := by cases m <;> rfl

theorem memberDefault_none (own : Option (Str × Option CEnt)) (ms : List CEnt) (h : ∀ m ∈ ms, m.default = none) :
    memberDefault own ms = own := by
  rw [memberDefault]
  induction ms generalizing own with
  | nil => rfl
  | cons m ms ih =>
    rw [List.foldl_cons, h m List.mem_cons_self]
    exact ih _ fun x hx => h x (List.mem_cons_of_mem _ hx)

theorem builtins_has : HasBuiltins builtins := by
  intro c
  cases c with
  | int t => cases t <;> rfl
  | string => rfl
  | boolean => rfl
  | binary => rfl
  | bits => rfl
  | decimal => rfl

theorem ctor_not_enum (c : Ctor) : c.name ≠ py!"enumeration" := by
  cases c with
  | int t => cases t <;> decide
  | string => decide
  | boolean => decide
  | binary => decide
  | bits => decide
  | decimal => decide

theorem tmpMap_ctor (cm : Dict CEnt) (hcm : HasBuiltins cm) (c : Ctor) : (tmpMap cm).get? c.name = some c.entry := by
  rw [tmpMap, Dict.get?_set, if_neg (ctor_not_enum c)]
  exact hcm c

theorem visitAll_flat (cm : Dict CEnt) (cs : List Ctor) (hcm : ∀ c ∈ cs, cm.get? c.name = some c.entry) :
    ∀ (fuel : Nat) (done : List Str), cs.length ≤ fuel → (done ++ cs.map Ctor.name).Nodup →
      visitAll cm fuel (cs.map Ctor.name) done = .ok (done ++ cs.map Ctor.name) := by
  induction cs with
  | nil => intro fuel done _ _; cases fuel <;> simp [visitAll]
  | cons c cs ih =>
    intro fuel done hf hn
    cases fuel with
    | zero => simp at hf
    | succ f =>
      have hc : c.name ∉ done := by
        intro hmem
        rw [List.nodup_append] at hn
        exact hn.2.2 _ hmem _ (by simp) rfl
      rw [List.map_cons, visitAll, if_neg hc]
      simp only [hcm c List.mem_cons_self, Ctor.entry, Parents.list, List.append_nil]
      have := ih (fun x hx => hcm x (List.mem_cons_of_mem _ hx)) f (done ++ [c.name]) (by simp at hf; omega) (by simpa using hn)
      rw [this]
      simp

theorem plain_parents (known : List Str) (cs : List Ctor) (hk : ∀ c ∈ cs, c.name ∈ known) :
    (cs.map plainMem).mapM (memberParent known) = .ok (cs.map fun c => [c.name]) := by
  induction cs with
  | nil => rfl
  | cons c cs ih =>
    have h1 : memberParent known (plainMem c) = .ok [c.name] := by
      rw [memberParent, plainMem, if_pos (hk c List.mem_cons_self)]
    rw [List.map_cons, List.mapM_cons, h1, ih fun x hx => hk x (List.mem_cons_of_mem _ hx)]
    rfl

theorem plain_default (own : Option Str) (cs : List Ctor) :
    typedefDefault own (cs.map plainMem) = if own = some [] then none else own := by
  rw [typedefDefault]
  generalize (if own = some [] then none else own) = acc
  induction cs generalizing acc with
  | nil => rfl
  | cons c cs ih => exact ih acc

theorem downToBase_builtin (cm : Dict CEnt) (fuel : Nat) (c : Ctor) : downToBase cm fuel c.entry = .ok c.entry := rfl

end Pyb
