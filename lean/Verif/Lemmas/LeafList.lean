import Verif.Model.LeafList
import Verif.Spec.LeafList

namespace Pyb
open Py Spec

theorem pyEq_refl (a : PyVal) : pyEq a a = true := by
  unfold pyEq; cases h : a.num? <;> simp

theorem pyEq_symm (a b : PyVal) : pyEq a b = pyEq b a := by
  unfold pyEq
  cases ha : a.num? <;> cases hb : b.num? <;> simp [eq_comm]

theorem pyEq_trans {a b c : PyVal} (h : pyEq a b = true) : pyEq a c = pyEq b c := by
  revert h; unfold pyEq
  cases ha : a.num? <;> cases hb : b.num? <;> cases hc : c.num? <;> simp <;> intro h <;> rw [h]

theorem pyIn_eq_true {v : PyVal} {xs : List PyVal} :
    pyIn v xs = true ↔ ∃ x ∈ xs, pyEq x v = true := by
  simp [pyIn]

theorem pyIn_eq_false {v : PyVal} {xs : List PyVal} :
    pyIn v xs = false ↔ ∀ x ∈ xs, pyEq x v = false := by
  simp [pyIn]

/-- `Distinct` as a pairwise statement. -/
theorem distinct_iff_pairwise (xs : List PyVal) :
    Distinct xs ↔ xs.Pairwise fun a b => pyEq a b = false := by
  constructor
  · intro h
    rw [List.pairwise_iff_getElem]
    intro i j hi hj hij
    cases e : pyEq xs[i] xs[j] with
    | false => rfl
    | true => have := h i j hi hj e; omega
  · intro h i j hi hj e
    rw [List.pairwise_iff_getElem] at h
    rcases Nat.lt_trichotomy i j with c | c | c
    · have := h i j hi hj c; simp [this] at e
    · exact c
    · have := h j i hj hi c
      rw [pyEq_symm] at this; simp [this] at e

abbrev PD (xs : List PyVal) : Prop := xs.Pairwise fun a b => pyEq a b = false

theorem pd_insert {l r : List PyVal} {v : PyVal} (h : PD (l ++ r))
    (hv : ∀ x ∈ l ++ r, pyEq x v = false) : PD (l ++ v :: r) := by
  unfold PD at *
  rw [List.pairwise_append] at h ⊢
  refine ⟨h.1, ?_, ?_⟩
  · rw [List.pairwise_cons]
    refine ⟨fun b hb => ?_, h.2.1⟩
    rw [pyEq_symm]; exact hv b (by simp [hb])
  · intro a ha b hb
    rcases List.mem_cons.1 hb with e | e
    · subst e; exact hv a (by simp [ha])
    · exact h.2.2 a ha b e

theorem pd_append {xs : List PyVal} {v : PyVal} (h : PD xs)
    (hv : ∀ x ∈ xs, pyEq x v = false) : PD (xs ++ [v]) := by
  have := pd_insert (l := xs) (r := []) (v := v) (by simpa using h) (by simpa using hv)
  simpa using this

theorem pd_eraseIdx {xs : List PyVal} (h : PD xs) (j : Nat) : PD (xs.eraseIdx j) :=
  List.Pairwise.sublist (List.eraseIdx_sublist xs j) h

theorem notIn_conv {conv : PyVal → Option PyVal} {v w : PyVal} {xs : List PyVal}
    (hc : Canonical conv v) (h : conv v = some w) (hv : pyIn v xs = false) :
    ∀ x ∈ xs, pyEq x w = false := by
  intro x hx
  have h1 := pyIn_eq_false.1 hv x hx
  have h2 := hc w h
  rw [pyEq_symm] at h1 ⊢
  rw [← pyEq_trans h2]; exact h1

theorem pyInsert_eq (xs : List PyVal) (i : Int) (v : PyVal) :
    ∃ l r, xs = l ++ r ∧ pyInsert xs i v = l ++ v :: r := by
  refine ⟨_, _, (List.take_append_drop _ xs).symm, rfl⟩

theorem tlCheck_ok {conv : PyVal → Option PyVal} {uniq : Bool} {xs : List PyVal} {v w : PyVal} :
    tlCheck conv uniq xs v = .ok w ↔ (uniq && pyIn v xs) = false ∧ conv v = some w := by
  unfold tlCheck
  cases h : (uniq && pyIn v xs) <;> simp
  cases conv v <;> simp

theorem pd_tlAppend {conv : PyVal → Option PyVal} {xs : List PyVal} {v : PyVal}
    (hc : Canonical conv v) (h : PD xs) : PD (tlAppend conv true xs v).1 := by
  unfold tlAppend
  cases hv : pyIn v xs with
  | true => simpa using h
  | false =>
    simp only [Bool.not_false, Bool.or_true, if_true]
    cases e : tlCheck conv true xs v with
    | error => simpa using h
    | ok w => exact pd_append h (notIn_conv hc (tlCheck_ok.1 e).2 hv)

theorem pd_tlInsert {conv : PyVal → Option PyVal} {xs : List PyVal} {i : Int} {v : PyVal}
    (hc : Canonical conv v) (h : PD xs) : PD (tlInsert conv true xs i v).1 := by
  unfold tlInsert
  cases e : tlCheck conv true xs v with
  | error => simpa using h
  | ok w =>
    obtain ⟨e1, e2⟩ := tlCheck_ok.1 e
    simp only [Bool.true_and] at e1
    obtain ⟨l, r, hx, hy⟩ := pyInsert_eq xs i w
    show PD (pyInsert xs i w)
    rw [hy]
    subst hx
    exact pd_insert h (notIn_conv hc e2 e1)

theorem pd_tlExtend {conv : PyVal → Option PyVal} {vs : List PyVal} {xs : List PyVal}
    (hc : ∀ v ∈ vs, Canonical conv v) (h : PD xs) : PD (tlExtend conv true xs vs).1 := by
  induction vs generalizing xs with
  | nil => simpa [tlExtend] using h
  | cons v vs ih =>
    have h1 := pd_tlAppend (hc v (by simp)) h
    unfold tlExtend
    cases e : tlAppend conv true xs v with
    | mk ys er =>
      rw [e] at h1
      cases er with
      | none => exact ih (fun v hv => hc v (by simp [hv])) h1
      | some er => exact h1

theorem pd_tlInitLoop {conv : PyVal → Option PyVal} {vs tmp ys : List PyVal}
    (hc : ∀ v ∈ vs, Canonical conv v) (h : PD tmp)
    (e : tlInitLoop conv true tmp vs = .ok ys) : PD ys := by
  induction vs generalizing tmp with
  | nil => simp only [tlInitLoop, Except.ok.injEq] at e; subst e; exact h
  | cons v vs ih =>
    unfold tlInitLoop at e
    cases hv : pyIn v tmp with
    | true =>
      simp only [hv, Bool.not_true, Bool.or_self, Bool.false_eq_true, if_false] at e
      exact ih (fun v hv => hc v (by simp [hv])) h e
    | false =>
      simp only [hv, Bool.not_true, Bool.not_false, Bool.or_true, if_true] at e
      cases ec : tlCheck conv true [] v with
      | error x => simp [ec] at e
      | ok w =>
        simp only [ec] at e
        exact ih (fun v hv => hc v (by simp [hv]))
          (pd_append h (notIn_conv (hc v (by simp)) (tlCheck_ok.1 ec).2 hv)) e

theorem pd_tlInit {conv : PyVal → Option PyVal} {a : LLArg} {ys : List PyVal}
    (hc : ∀ vs, a = .seq vs → ∀ v ∈ vs, Canonical conv v)
    (e : tlInit conv true a = .ok ys) : PD ys := by
  cases a with
  | seq vs => exact pd_tlInitLoop (hc vs rfl) List.Pairwise.nil e
  | one v =>
    simp only [tlInit] at e
    cases ec : tlCheck conv true [] v with
    | error x => simp [ec, Except.map] at e
    | ok w => simp only [ec, Except.map, Except.ok.injEq] at e; subst e; simp [PD]

/-- An element of a unique list cannot be inserted again. -/
theorem tlInsert_mem {conv : PyVal → Option PyVal} {xs : List PyVal} {i : Int} {v : PyVal}
    (h : v ∈ xs) : tlInsert conv true xs i v = (xs, some .valueError) := by
  have : pyIn v xs = true := pyIn_eq_true.2 ⟨v, h, pyEq_refl v⟩
  simp [tlInsert, tlCheck, this]

theorem tlReverse_unique (conv : PyVal → Option PyVal) (xs : List PyVal) :
    tlReverse conv true xs.length 0 (xs.length / 2) xs
      = (xs, if xs.length < 2 then none else some .valueError) := by
  by_cases h : xs.length < 2
  · have : xs.length / 2 = 0 := by omega
    simp [this, tlReverse, h]
  · obtain ⟨k, hk⟩ : ∃ k, xs.length / 2 = k + 1 := ⟨xs.length / 2 - 1, by omega⟩
    rw [hk]
    unfold tlReverse
    have h1 : xs.length - 0 - 1 < xs.length := by omega
    have h2 : 0 < xs.length := by omega
    rw [List.getElem?_eq_getElem h1, List.getElem?_eq_getElem h2]
    simp only [h, if_false]
    rw [tlInsert_mem (List.getElem_mem h1)]

theorem pyDel_ok {xs ys : List PyVal} {i : Int} :
    pyDel xs i = .ok ys ↔ ∃ j, pyIndex xs.length i = .ok j ∧ ys = xs.eraseIdx j := by
  unfold pyDel
  cases pyIndex xs.length i <;> simp [Except.map, eq_comm]

/-- The values a history mentions. -/
def LLOp.values : LLOp → List PyVal
  | .assign (.seq vs) => vs
  | .assign (.one v) => [v]
  | .append v => [v]
  | .insert _ v => [v]
  | .setitem _ v => [v]
  | .extend vs => vs
  | .iadd vs => vs
  | _ => []

theorem pd_llStep {conv : PyVal → Option PyVal} {sh : List PyVal → Str} {xs : List PyVal} {op : LLOp}
    (hc : ∀ v ∈ op.values, Canonical conv v) (h : PD xs) :
    PD (llStep conv true sh xs op).1 := by
  cases op with
  | assign a =>
    simp only [llStep]
    cases e : tlInit conv true a with
    | error x => simpa using h
    | ok ys =>
      refine pd_tlInit ?_ e
      intro vs hvs; subst hvs; exact hc
  | append v => exact pd_tlAppend (hc v (by simp [LLOp.values])) h
  | insert i v => exact pd_tlInsert (hc v (by simp [LLOp.values])) h
  | setitem i v => exact pd_tlInsert (hc v (by simp [LLOp.values])) h
  | delitem i =>
    simp only [llStep]
    cases e : pyDel xs i with
    | error x => simpa using h
    | ok ys =>
      obtain ⟨j, _, hj⟩ := pyDel_ok.1 e
      subst hj; exact pd_eraseIdx h j
  | pop i =>
    simp only [llStep]
    cases e : pyDel xs i with
    | error x => simpa using h
    | ok ys =>
      obtain ⟨j, _, hj⟩ := pyDel_ok.1 e
      subst hj; exact pd_eraseIdx h j
  | remove v =>
    simp only [llStep]
    split
    · exact pd_eraseIdx h _
    · exact h
  | extend vs => exact pd_tlExtend hc h
  | reverse => simp only [llStep, tlReverse_unique]; exact h
  | clear => simp [llStep, PD]
  | iadd vs =>
    have h1 : PD (tlExtend conv true xs vs).1 := pd_tlExtend hc h
    simp only [llStep]
    cases e : tlExtend conv true xs vs with
    | mk ys er =>
      rw [e] at h1
      cases er with
      | some er => exact h1
      | none =>
        simp only
        split
        · rename_i zs ez
          exact pd_tlInit (a := .one _) (by simp) ez
        · exact h1

theorem pd_llRun {conv : PyVal → Option PyVal} {sh : List PyVal → Str} {ops : List LLOp} {xs : List PyVal}
    (hc : ∀ op ∈ ops, ∀ v ∈ op.values, Canonical conv v) (h : PD xs) :
    PD (llRun conv true sh xs ops) := by
  induction ops generalizing xs with
  | nil => exact h
  | cons op ops ih =>
    exact ih (fun o ho => hc o (by simp [ho])) (pd_llStep (hc op (by simp)) h)

/-! ## Items are converted values -/

/-- Every item came out of the conversion. -/
abbrev Typed (conv : PyVal → Option PyVal) (xs : List PyVal) : Prop :=
  ∀ x ∈ xs, ∃ v, conv v = some x

theorem typed_tlAppend {conv : PyVal → Option PyVal} {u} {xs : List PyVal} {v : PyVal}
    (h : Typed conv xs) : Typed conv (tlAppend conv u xs v).1 := by
  unfold tlAppend
  split
  · cases e : tlCheck conv u xs v with
    | error => exact h
    | ok w =>
      intro x hx
      rcases List.mem_append.1 hx with hx | hx
      · exact h x hx
      · simp only [List.mem_singleton] at hx
        subst hx; exact ⟨v, (tlCheck_ok.1 e).2⟩
  · exact h

theorem typed_tlInsert {conv : PyVal → Option PyVal} {u} {xs : List PyVal} {i} {v : PyVal}
    (h : Typed conv xs) : Typed conv (tlInsert conv u xs i v).1 := by
  unfold tlInsert
  cases e : tlCheck conv u xs v with
  | error => exact h
  | ok w =>
    obtain ⟨l, r, hx, hy⟩ := pyInsert_eq xs i w
    show Typed conv (pyInsert xs i w)
    rw [hy]; subst hx
    intro x hx
    simp only [List.mem_append, List.mem_cons] at hx
    rcases hx with hx | hx | hx
    · exact h x (by simp [hx])
    · subst hx; exact ⟨v, (tlCheck_ok.1 e).2⟩
    · exact h x (by simp [hx])

theorem typed_tlExtend {conv : PyVal → Option PyVal} {u} {vs : List PyVal} {xs : List PyVal}
    (h : Typed conv xs) : Typed conv (tlExtend conv u xs vs).1 := by
  induction vs generalizing xs with
  | nil => simpa [tlExtend] using h
  | cons v vs ih =>
    have h1 := typed_tlAppend (u := u) (v := v) h
    unfold tlExtend
    cases e : tlAppend conv u xs v with
    | mk ys er =>
      rw [e] at h1
      cases er with
      | none => exact ih h1
      | some er => exact h1

theorem typed_tlInitLoop {conv : PyVal → Option PyVal} {u} {vs tmp ys : List PyVal}
    (h : Typed conv tmp) (e : tlInitLoop conv u tmp vs = .ok ys) : Typed conv ys := by
  induction vs generalizing tmp with
  | nil => simp only [tlInitLoop, Except.ok.injEq] at e; subst e; exact h
  | cons v vs ih =>
    unfold tlInitLoop at e
    split at e
    · cases ec : tlCheck conv u [] v with
      | error x => simp [ec] at e
      | ok w =>
        simp only [ec] at e
        refine ih ?_ e
        intro x hx
        rcases List.mem_append.1 hx with hx | hx
        · exact h x hx
        · simp only [List.mem_singleton] at hx
          subst hx; exact ⟨v, (tlCheck_ok.1 ec).2⟩
    · exact ih h e

theorem typed_tlInit {conv : PyVal → Option PyVal} {u} {a : LLArg} {ys : List PyVal}
    (e : tlInit conv u a = .ok ys) : Typed conv ys := by
  cases a with
  | seq vs => exact typed_tlInitLoop (by intro x hx; cases hx) e
  | one v =>
    simp only [tlInit] at e
    cases ec : tlCheck conv u [] v with
    | error x => simp [ec, Except.map] at e
    | ok w =>
      simp only [ec, Except.map, Except.ok.injEq] at e; subst e
      intro x hx
      simp only [List.mem_singleton] at hx
      subst hx; exact ⟨v, (tlCheck_ok.1 ec).2⟩

theorem typed_tlReverse {conv : PyVal → Option PyVal} {u n i k} {xs : List PyVal}
    (h : Typed conv xs) : Typed conv (tlReverse conv u n i k xs).1 := by
  induction k generalizing i xs with
  | zero => exact h
  | succ k ih =>
    unfold tlReverse
    split
    · rename_i a b _ _
      have h1 := typed_tlInsert (u := u) (i := i) (v := a) h
      cases e1 : tlInsert conv u xs i a with
      | mk ys er =>
        rw [e1] at h1
        cases er with
        | some e => exact h1
        | none =>
          simp only
          have h2 := typed_tlInsert (u := u) (i := ((n - i - 1 : Nat) : Int)) (v := b) h1
          cases e2 : tlInsert conv u ys ((n - i - 1 : Nat) : Int) b with
          | mk zs er =>
            simp only [e2] at h2 ⊢
            cases er with
            | some e => exact h2
            | none => exact ih h2
    · exact h

theorem typed_llStep {conv : PyVal → Option PyVal} {u} {sh : List PyVal → Str} {xs : List PyVal} {op : LLOp}
    (h : Typed conv xs) : Typed conv (llStep conv u sh xs op).1 := by
  have hdel : ∀ i, Typed conv (match pyDel xs i with | .ok ys => (ys, none) | .error e => (xs, some e) : List PyVal × Option Err).1 := by
    intro i
    cases e : pyDel xs i with
    | error x => exact h
    | ok ys =>
      obtain ⟨j, _, hj⟩ := pyDel_ok.1 e
      subst hj
      exact fun x hx => h x (List.mem_of_mem_eraseIdx hx)
  cases op with
  | assign a =>
    simp only [llStep]
    cases e : tlInit conv u a with
    | error x => exact h
    | ok ys => exact typed_tlInit e
  | append v => exact typed_tlAppend h
  | insert i v => exact typed_tlInsert h
  | setitem i v => exact typed_tlInsert h
  | delitem i => exact hdel i
  | pop i => exact hdel i
  | remove v =>
    simp only [llStep]
    split
    · exact fun x hx => h x (List.mem_of_mem_eraseIdx hx)
    · exact h
  | extend vs => exact typed_tlExtend h
  | reverse => exact typed_tlReverse h
  | clear => intro x hx; cases hx
  | iadd vs =>
    have h1 := typed_tlExtend (u := u) (vs := vs) h
    simp only [llStep]
    cases e : tlExtend conv u xs vs with
    | mk ys er =>
      rw [e] at h1
      cases er with
      | some er => exact h1
      | none =>
        simp only
        split
        · rename_i zs ez; exact typed_tlInit ez
        · exact h1

theorem typed_llRun {conv : PyVal → Option PyVal} {u} {sh : List PyVal → Str} {ops : List LLOp} {xs : List PyVal}
    (h : Typed conv xs) : Typed conv (llRun conv u sh xs ops) := by
  induction ops generalizing xs with
  | nil => exact h
  | cons op ops ih => exact ih (typed_llStep h)

/-! ## Single-layer types -/

theorem bind_ok {ε α β} {x : Except ε α} {f : α → Except ε β} {b : β} :
    (x >>= f) = .ok b ↔ ∃ a, x = .ok a ∧ f a = .ok b := by
  cases x <;> simp [bind, Except.bind]

theorem elemConv_single {rx : Str → Str → Bool} {b : BaseTy} {rs : List Restr} {v w : PyVal}
    (h : elemConv rx [.restr (.restr (.base b) rs)] v = some w) :
    (RTy.cls rx (.restr (.base b) rs)).call (some v) = .ok w := by
  simp only [elemConv, List.findSome?_cons, List.findSome?_nil, elemCheck, LeafTy.call] at h
  generalize hr : (RTy.cls rx (.restr (.base b) rs)).call (some v) = r at h
  cases r <;> simp_all [Except.toOption]

theorem call_layer (rx : Str → Str → Bool) {b : BaseTy} {rs : List Restr} {v c w : PyVal}
    (hb : b.conv v = .ok c) (h : (RTy.cls rx (.restr (.base b) rs)).call (some v) = .ok w) : w = c := by
  simp only [RTy.cls, bind_ok] at h
  obtain ⟨o, ⟨p, _, h1⟩, _, _, h2⟩ := h
  simp only [pure, Except.pure, Except.ok.injEq] at h2
  subst h2
  simp only [hb, Except.map] at h1
  have fin : (pure (c, some ((none : Option (List Test)).getD p.1)) : Except Err _) = .ok o → o.1 = c := by
    intro h; simp only [pure, Except.pure, Except.ok.injEq] at h; rw [← h]
  split at h1
  · simp only [bind_ok] at h1
    obtain ⟨t, _, h1⟩ := h1
    cases t
    · simp [bind, Except.bind] at h1
    · simp only [if_true, pure, Except.pure, bind, Except.bind] at h1
      exact fin h1
  · exact fin h1

end Pyb
