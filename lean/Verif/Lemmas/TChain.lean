import Verif.Lemmas.TDefault

namespace Pyb
open Py Spec

/-! ## A long chain of typedefs, the last one first -/

/-- `typedef t0 { type string; }`, `typedef t1 { type t0; }`, ... -/
def chainDef (i : Nat) : TypeDef :=
  { pfx := py!"m", name := 't' :: natStr i, local_ := py!"m", real := py!"m", imports := [],
    type := .plain (match i with | 0 => py!"string" | j + 1 => 't' :: natStr j) false, default := none }

/-- `t(k+n-1)`, ..., `tk`. -/
def chainDesc (k : Nat) : Nat → List TypeDef
  | 0 => []
  | n + 1 => chainDef (k + n) :: chainDesc k n

def chainKnown (k : Nat) : List Str := py!"string" :: (List.range k).map fun i => (chainDef i).key

theorem natStr_nocolon (i : Nat) : ':' ∉ natStr i := by
  intro h
  have := natStr_digits i ':' h
  revert this
  decide

theorem chainKey (i : Nat) : (chainDef i).key = py!"m:t" ++ natStr i := rfl

theorem chainKey_inj {i j : Nat} (h : (chainDef i).key = (chainDef j).key) : i = j := by
  rw [chainKey, chainKey] at h
  exact natStr_injective (List.append_cancel_left h)

theorem chain_unknown (k i : Nat) :
    anyUnknown [py!"string"] (chainKnown k) (chainDef i) (chainDef i).type.subtypes = .ok (decide (k < i)) := by
  cases i with
  | zero =>
    have : anyUnknown [py!"string"] (chainKnown k) (chainDef 0) (chainDef 0).type.subtypes = .ok (false || !(chainKnown k).contains py!"string") := rfl
    rw [this]
    simp [chainKnown]
  | succ j =>
    have hsub : (chainDef (j + 1)).type.subtypes = ['t' :: natStr j] := rfl
    have h1 : ':' ∉ 't' :: natStr j := by
      have := natStr_nocolon j
      simp [this]
    have h2 : 't' :: natStr j ∉ [py!"string"] := by simp
    have htn : typeName [py!"string"] (chainDef (j + 1)) ('t' :: natStr j) = .ok (chainDef j).key := by
      simp only [typeName, h1, if_false, h2, not_false_eq_true, if_true]
      rfl
    rw [hsub]
    simp only [anyUnknown, htn, Bool.false_or]
    congr 1
    have : (chainDef j).key ∈ chainKnown k ↔ j < k := by
      simp only [chainKnown, List.mem_cons, List.mem_map, List.mem_range]
      constructor
      · rintro (h | ⟨i, hi, he⟩)
        · exact absurd h (by rw [chainKey]; simp)
        · rw [← chainKey_inj he]; exact hi
      · intro h
        exact .inr ⟨j, h, rfl⟩
    by_cases h : j < k
    · have h' : ¬ k < j + 1 := by omega
      simp [this, h, h']
    · have h' : k < j + 1 := by omega
      simp [this, h, h']

theorem chain_rotate (k c : Nat) (hc : c + 1 ≤ 1000) (f : Nat) (order : List TypeDef) : ∀ (n : Nat) (B : List (TypeDef × Nat)),
    tdLoop [py!"string"] (f + n) ((chainDesc (k + 1) n).map (·, c) ++ (chainDef k, c) :: B) (chainKnown k) order [] =
      tdLoop [py!"string"] f ((chainDef k, c) :: B ++ (chainDesc (k + 1) n).map (·, c + 1)) (chainKnown k) order [] := by
  intro n
  induction n with
  | zero => intro B; simp [chainDesc]
  | succ n ih =>
    intro B
    have hlt : decide (k < k + 1 + n) = true := by simp; omega
    have hle : ¬ c + 1 > 1000 := by omega
    simp only [chainDesc, List.map_cons, List.cons_append, ← Nat.add_assoc, tdLoop, chain_unknown, hlt, hle, if_false]
    have := ih (B ++ [(chainDef (k + 1 + n), c + 1)])
    simp only [List.append_assoc, List.cons_append, List.nil_append] at this ⊢
    exact this

theorem chainDesc_snoc (k n : Nat) : chainDesc k (n + 1) = chainDesc (k + 1) n ++ [chainDef k] := by
  induction n with
  | zero => simp [chainDesc]
  | succ n ih =>
    rw [chainDesc, ih, chainDesc, show k + (n + 1) = k + 1 + n by omega]
    rfl

theorem chainKnown_succ (k : Nat) : chainKnown k ++ [(chainDef k).key] = chainKnown (k + 1) := by
  simp [chainKnown, List.range_succ]

/-- One turn of the queue builds one typedef. -/
theorem chain_pass (k c n : Nat) (hc : c + 1 ≤ 1000) (f : Nat) (order : List TypeDef) :
    tdLoop [py!"string"] (f + 1 + n) ((chainDesc k (n + 1)).map (·, c)) (chainKnown k) order [] =
      tdLoop [py!"string"] f ((chainDesc (k + 1) n).map (·, c + 1)) (chainKnown (k + 1)) (order ++ [chainDef k]) [] := by
  rw [chainDesc_snoc, List.map_append, List.map_cons, List.map_nil, chain_rotate k c hc (f + 1) order n []]
  have hlt : decide (k < k) = false := by simp
  simp only [List.cons_append, List.nil_append, tdLoop, chain_unknown, hlt, chainKnown_succ]

theorem chain_passes (n : Nat) : ∀ (j k c : Nat) (f : Nat) (order : List TypeDef), c + j ≤ 1000 → ∃ g order',
    ∀ r, tdLoop [py!"string"] f ((chainDesc (k + j) n).map (·, c + j)) (chainKnown (k + j)) order' [] = some r →
    tdLoop [py!"string"] g ((chainDesc k (n + j)).map (·, c)) (chainKnown k) order [] = some r := by
  intro j
  induction j with
  | zero => intro k c f order _; exact ⟨f, order, fun r h => h⟩
  | succ j ih =>
    intro k c f order hc
    obtain ⟨g, order', h⟩ := ih (k + 1) (c + 1) f (order ++ [chainDef k]) (by omega)
    refine ⟨g + 1 + (n + j), order', fun r hr => ?_⟩
    rw [← Nat.add_assoc n j 1, chain_pass k c (n + j) (by omega)]
    refine h r ?_
    rw [show k + 1 + j = k + (j + 1) by omega, show c + 1 + j = c + (j + 1) by omega]
    exact hr

/-- The turn in which the counters run out. -/
theorem chain_last (k f : Nat) (order : List TypeDef) : ∀ (n : Nat) (errs : List Str),
    tdLoop [py!"string"] (f + 1 + n) ((chainDesc (k + 1) n).map (·, 1000) ++ [(chainDef k, 1000)]) (chainKnown k) order errs =
      some (if (errs.isEmpty && n == 0) then .ok (order ++ [chainDef k]) else .error .typeError) := by
  intro n
  induction n with
  | zero =>
    intro errs
    have hlt : decide (k < k) = false := by simp
    simp only [chainDesc, List.map_nil, List.nil_append, Nat.add_zero, tdLoop, chain_unknown, hlt]
    simp
  | succ n ih =>
    intro errs
    have hlt : decide (k < k + 1 + n) = true := by simp; omega
    simp only [chainDesc, List.map_cons, List.cons_append, ← Nat.add_assoc, tdLoop, chain_unknown, hlt, Nat.reduceAdd]
    rw [if_pos (by decide), ih]
    simp

theorem chain_fails (n : Nat) : ∃ f, typedefOrder [py!"string"] f (chainDesc 0 (n + 2 + 1000)) = some (.error .typeError) := by
  -- the order built so far does not matter: take the fuel of the last turn
  obtain ⟨g, order', h⟩ := chain_passes (n + 2) 1000 0 0 (1 + 1 + (n + 1)) [] (by omega)
  refine ⟨g, h _ ?_⟩
  have := chain_last 1000 1 order' (n + 1) []
  rw [Nat.zero_add, show n + 2 = (n + 1) + 1 by omega, chainDesc_snoc, List.map_append]
  simpa using this

theorem mem_chainDesc {d : TypeDef} {k n : Nat} : d ∈ chainDesc k n ↔ ∃ i, k ≤ i ∧ i < k + n ∧ d = chainDef i := by
  induction n with
  | zero => simp [chainDesc]; intro x h1 h2; omega
  | succ n ih =>
    simp only [chainDesc, List.mem_cons, ih]
    constructor
    · rintro (h | ⟨i, h1, h2, h3⟩)
      · exact ⟨k + n, by omega, by omega, h⟩
      · exact ⟨i, h1, by omega, h3⟩
    · rintro ⟨i, h1, h2, h3⟩
      by_cases hi : i = k + n
      · exact .inl (hi ▸ h3)
      · exact .inr ⟨i, h1, by omega, h3⟩

theorem chain_needs {i : Nat} {k : Str} (h : Needs [py!"string"] (chainDef i) k) :
    k = py!"string" ∨ ∃ j, j < i ∧ k = (chainDef j).key := by
  obtain ⟨a, hm, hn⟩ := h
  have htn := typeName_of_names hn
  cases i with
  | zero =>
    have : a = py!"string" := by
      have : Mentions (TypeS.plain py!"string" false) a := hm
      cases this; rfl
    subst this
    refine .inl ?_
    have e : typeName [py!"string"] (chainDef 0) py!"string" = .ok py!"string" := rfl
    rw [e] at htn
    exact (Except.ok.inj htn).symm
  | succ j =>
    have : a = 't' :: natStr j := by
      have : Mentions (TypeS.plain ('t' :: natStr j) false) a := hm
      cases this; rfl
    subst this
    refine .inr ⟨j, by omega, ?_⟩
    have h1 : ':' ∉ 't' :: natStr j := by
      have := natStr_nocolon j
      simp [this]
    have h2 : 't' :: natStr j ∉ [py!"string"] := by simp
    have e : typeName [py!"string"] (chainDef (j + 1)) ('t' :: natStr j) = .ok (chainDef j).key := by
      simp only [typeName, h1, if_false, h2, not_false_eq_true, if_true]
      rfl
    rw [e] at htn
    exact (Except.ok.inj htn).symm

theorem chain_grounded (n : Nat) : ∀ i, i < n → TGrounded [py!"string"] (chainDesc 0 n) (chainDef i).key := by
  intro i
  induction i using Nat.strongRecOn with
  | ind i ih =>
    intro hi
    refine .typedef (chainDef i) (mem_chainDesc.2 ⟨i, by omega, by omega, rfl⟩) fun k hk => ?_
    rcases chain_needs hk with rfl | ⟨j, hj, rfl⟩
    · exact .known _ (by simp)
    · exact ih j hj (by omega)

end Pyb
