import Verif.Lemmas.LeafList

/-! # Leaf-lists: C21, C22, C64 -/

namespace Pyb
open Py Spec

/-- C21 (canonical values): over any history of operations whose values are stored
as equal values, a leaf-list holds no two equal items.  Missing from the full
property: values stored as a different value (`C21_unique_refuted`). -/
theorem C21_unique_partial (conv : PyVal → Option PyVal) (sh : List PyVal → Str) (ops : List LLOp)
    (hc : ∀ op ∈ ops, ∀ v ∈ op.values, Canonical conv v) :
    Distinct (llRun conv true sh [] ops) :=
  (distinct_iff_pairwise _).2 (pd_llRun hc List.Pairwise.nil)

/-- Which values are canonical: integers for the built-in integer types (and any one
layer of restrictions on `int`), texts for strings, enumerations and identityrefs
(one layer of restrictions on `str`), truth values for booleans. -/
theorem C21_canonical_values (rx : Str → Str → Bool) :
    (∀ rs n, Canonical (elemConv rx [.restr (.restr (.base .int) rs)]) (.int n)) ∧
    (∀ rs s, Canonical (elemConv rx [.restr (.restr (.base .str) rs)]) (.str s)) ∧
    (∀ v, Canonical (elemConv rx [.restr (.base .str)]) v) ∧
    (∀ b, Canonical (elemConv rx [.bool]) (.bool b)) := by
  have layer : ∀ b rs v c w, b.conv v = .ok c →
      elemConv rx [.restr (.restr (.base b) rs)] v = some w → w = c := by
    intro b rs v c w hb h
    exact call_layer rx hb (elemConv_single h)
  refine ⟨fun rs n w h => ?_, fun rs s w h => ?_, fun v w h => ?_, fun b w h => ?_⟩
  · rw [layer .int rs (.int n) (.int n) w rfl h]; exact pyEq_refl _
  · rw [layer .str rs (.str s) (.str s) w rfl h]; exact pyEq_refl _
  · cases v <;> simp [elemConv, elemCheck] at h
    subst h; exact pyEq_refl _
  · cases b
    · have : elemConv rx [.bool] (.bool false) = some (.bool false) := rfl
      rw [this] at h; simp only [Option.some.injEq] at h; subst h; rfl
    · have : elemConv rx [.bool] (.bool true) = some (.bool true) := rfl
      rw [this] at h; simp only [Option.some.injEq] at h; subst h; rfl

/-- C21 in full for a leaf-list of plain strings: any history, any values. -/
theorem C21_unique_strings (rx : Str → Str → Bool) (sh : List PyVal → Str) (ops : List LLOp) :
    Distinct (llRun (elemConv rx [.restr (.base .str)]) true sh [] ops) :=
  C21_unique_partial _ sh ops fun _ _ v _ => (C21_canonical_values rx).2.2.1 v

/-- The hypothesis is met by a history mixing every kind of operation. -/
example : llRun (elemConv (fun _ _ => true) [.restr IntTy.uint8.rty]) true (fun _ => []) []
    [.assign (.seq [.int 1, .int 2, .int 1]), .append (.int 3), .append (.int 2), .insert 0 (.int 9),
     .setitem 1 (.int 8), .append (.int 300), .remove (.int 2), .pop (-1), .reverse]
    = [.int 9, .int 8, .int 1] := by decide

/-- C21 is false for values in another representation: `[1, "1"]` in a `uint8`
leaf-list is stored as `[1, 1]`, and so are successive appends. -/
theorem C21_unique_refuted (rx : Str → Str → Bool) (sh : List PyVal → Str) :
    ¬ Distinct (llRun (elemConv rx [.restr IntTy.uint8.rty]) true sh [] [.assign (.seq [.int 1, .str py!"1"])]) ∧
    ¬ Distinct (llRun (elemConv rx [.restr IntTy.uint8.rty]) true sh [] [.append (.int 1), .append (.str py!"1")]) := by
  have h1 : llRun (elemConv rx [.restr IntTy.uint8.rty]) true sh [] [.assign (.seq [.int 1, .str py!"1"])]
      = [.int 1, .int 1] := by rfl
  have h2 : llRun (elemConv rx [.restr IntTy.uint8.rty]) true sh [] [.append (.int 1), .append (.str py!"1")]
      = [.int 1, .int 1] := by rfl
  rw [h1, h2]
  have : ¬ Distinct [.int 1, .int 1] := fun h => by
    have := h 0 1 (by decide) (by decide) rfl
    cases this
  exact ⟨this, this⟩

/-- C21 is false for leaf-lists of leafrefs: the generator does not ask for
uniqueness there (pyangbind/plugin/pybind.py:926-939, against 891), so appending any
accepted value twice stores it twice. -/
theorem C21_leafref_refuted (conv : PyVal → Option PyVal) (sh : List PyVal → Str) (v w : PyVal)
    (h : conv v = some w) : ¬ Distinct (llRun conv false sh [] [.append v, .append v]) := by
  have : llRun conv false sh [] [.append v, .append v] = [w, w] := by
    simp [llRun, llStep, tlAppend, tlCheck, h]
  rw [this]
  intro hd
  have := hd 0 1 (by simp) (by simp) (pyEq_refl w)
  cases this

/-! ## C22 -/

/-- C22, `append`: a value that is in the list changes nothing; otherwise the
converted value goes to the end, or a value the type does not take raises
`ValueError` and changes nothing. -/
theorem C22_append (conv : PyVal → Option PyVal) (sh : List PyVal → Str) (xs : List PyVal) (v : PyVal) :
    ((∃ x ∈ xs, pyEq x v = true) → llStep conv true sh xs (.append v) = (xs, none)) ∧
    ((∀ x ∈ xs, pyEq x v = false) →
      (∀ w, conv v = some w → llStep conv true sh xs (.append v) = (xs ++ [w], none)) ∧
      (conv v = none → llStep conv true sh xs (.append v) = (xs, some .valueError))) := by
  refine ⟨fun h => ?_, fun h => ⟨fun w hw => ?_, fun hw => ?_⟩⟩
  · simp [llStep, tlAppend, pyIn_eq_true.2 h]
  · simp [llStep, tlAppend, tlCheck, pyIn_eq_false.2 h, hw]
  · simp [llStep, tlAppend, tlCheck, pyIn_eq_false.2 h, hw]

/-- C22, `insert`: a value that is in the list, or that the type does not take,
raises `ValueError` and changes nothing; otherwise the converted value is put before
position `i` (counted from the end when negative, clamped to the ends). -/
theorem C22_insert (conv : PyVal → Option PyVal) (sh : List PyVal → Str) (xs : List PyVal) (i : Int)
    (v : PyVal) :
    ((∃ x ∈ xs, pyEq x v = true) ∨ conv v = none →
      llStep conv true sh xs (.insert i v) = (xs, some .valueError)) ∧
    ((∀ x ∈ xs, pyEq x v = false) → ∀ w, conv v = some w →
      ∃ ys p, llStep conv true sh xs (.insert i v) = (ys, none) ∧ InsertedAt xs p w ys ∧
        (0 ≤ i → p = min i.toNat xs.length) ∧
        (i < 0 → (p : Int) = max 0 (xs.length + i))) := by
  constructor
  · rintro (h | h)
    · simp [llStep, tlInsert, tlCheck, pyIn_eq_true.2 h]
    · by_cases c : pyIn v xs = true
      · simp [llStep, tlInsert, tlCheck, c]
      · simp [llStep, tlInsert, tlCheck, c, h]
  · intro h w hw
    refine ⟨pyInsert xs i w, _, ?_, ⟨_, _, (List.take_append_drop _ xs).symm, rfl, rfl⟩, ?_, ?_⟩
    · simp [llStep, tlInsert, tlCheck, pyIn_eq_false.2 h, hw]
    · intro hi
      have : ¬ i < 0 := by omega
      simp [List.length_take, this]
    · intro hi
      simp only [List.length_take, hi, if_true]
      omega

/-- C22, `remove`: removes exactly the first equal item, or raises `ValueError` and
changes nothing. -/
theorem C22_remove (conv : PyVal → Option PyVal) (u : Bool) (sh : List PyVal → Str) (xs : List PyVal)
    (v : PyVal) :
    ((∀ x ∈ xs, pyEq x v = false) → llStep conv u sh xs (.remove v) = (xs, some .valueError)) ∧
    ((∃ x ∈ xs, pyEq x v = true) →
      ∃ l x r, xs = l ++ x :: r ∧ pyEq x v = true ∧ (∀ y ∈ l, pyEq y v = false) ∧
        llStep conv u sh xs (.remove v) = (l ++ r, none)) := by
  constructor
  · intro h
    have : xs.findIdx? (fun x => pyEq x v) = none := by
      rw [List.findIdx?_eq_none_iff]; exact h
    simp [llStep, this]
  · rintro ⟨x, hx, hv⟩
    induction xs with
    | nil => cases hx
    | cons a xs ih =>
      by_cases ha : pyEq a v = true
      · refine ⟨[], a, xs, rfl, ha, by simp, ?_⟩
        simp [llStep, List.findIdx?_cons, ha]
      · simp only [Bool.not_eq_true] at ha
        rcases List.mem_cons.1 hx with e | e
        · subst e; rw [ha] at hv; cases hv
        · obtain ⟨l, y, r, e1, e2, e3, e4⟩ := ih e
          refine ⟨a :: l, y, r, by simp [e1], e2, ?_, ?_⟩
          · intro z hz
            rcases List.mem_cons.1 hz with e | e
            · subst e; exact ha
            · exact e3 z e
          · simp only [llStep, List.findIdx?_cons, ha] at e4 ⊢
            cases hf : xs.findIdx? (fun x => pyEq x v) with
            | none => rw [hf] at e4; simp at e4
            | some j => rw [hf] at e4; simp at e4 ⊢; exact e4

/-- C22, `del` and `pop`: an index in range (possibly counted from the end) removes
exactly that item; otherwise `IndexError` and nothing changes. -/
theorem C22_delete (conv : PyVal → Option PyVal) (u : Bool) (sh : List PyVal → Str) (xs : List PyVal)
    (i : Int) :
    llStep conv u sh xs (.pop i) = llStep conv u sh xs (.delitem i) ∧
    (∀ p : Nat, p < xs.length → (i = p ∨ i = (p : Int) - xs.length) →
      ∃ ys, llStep conv u sh xs (.delitem i) = (ys, none) ∧ RemovedAt xs p ys) ∧
    ((i < -xs.length ∨ (xs.length : Int) ≤ i) →
      llStep conv u sh xs (.delitem i) = (xs, some .indexError)) := by
  refine ⟨rfl, fun p hp hi => ?_, fun hi => ?_⟩
  · have hidx : pyIndex xs.length i = .ok p := by
      unfold pyIndex
      rcases hi with h | h
      · have h1 : ¬ i < 0 := by omega
        simp only [h1, if_false]
        rw [if_pos (by omega)]; congr 1; omega
      · have h1 : i < 0 := by omega
        simp only [h1, if_true]
        rw [if_pos (by omega)]; congr 1; omega
    refine ⟨xs.eraseIdx p, ?_, xs.take p, xs[p], xs.drop (p + 1), ?_, ?_, ?_⟩
    · simp [llStep, pyDel, hidx, Except.map]
    · rw [List.getElem_cons_drop, List.take_append_drop]
    · rw [List.length_take]; omega
    · exact List.eraseIdx_eq_take_drop_succ xs p
  · have hidx : pyIndex xs.length i = .error .indexError := by
      unfold pyIndex
      by_cases h1 : i < 0
      · simp only [h1, if_true]; rw [if_neg (by omega)]
      · simp only [h1, if_false]; rw [if_neg (by omega)]
    simp [llStep, pyDel, hidx, Except.map]

/-- C22, `extend`: values are appended one by one; at the first rejected value it
stops with `ValueError`, keeping what was appended before. -/
theorem C22_extend (conv : PyVal → Option PyVal) (sh : List PyVal → Str) (xs vs ys : List PyVal)
    (e : Option Err) (h : llStep conv true sh xs (.extend vs) = (ys, e)) :
    (e = none ∧ ys = vs.foldl (fun acc v => (llStep conv true sh acc (.append v)).1) xs) ∨
    (e = some .valueError ∧ ∃ pre v post, vs = pre ++ v :: post ∧ conv v = none ∧
      llStep conv true sh xs (.extend pre) = (ys, none)) := by
  induction vs generalizing xs with
  | nil => left; simp [llStep, tlExtend] at h; simp [h]
  | cons v vs ih =>
    simp only [llStep] at h ih ⊢
    unfold tlExtend at h
    cases ea : tlAppend conv true xs v with
    | mk zs er =>
      rw [ea] at h
      cases er with
      | none =>
        rcases ih zs h with ⟨h1, h2⟩ | ⟨h1, pre, v', post, h2, h3, h4⟩
        · left; refine ⟨h1, ?_⟩
          simp only [List.foldl_cons, ea]; exact h2
        · right; refine ⟨h1, v :: pre, v', post, by simp [h2], h3, ?_⟩
          unfold tlExtend; rw [ea]; exact h4
      | some er =>
        right
        unfold tlAppend at ea
        by_cases c : pyIn v xs = true
        · simp [c] at ea
        · simp only [Bool.not_eq_true] at c
          simp only [c, Bool.not_true, Bool.not_false, Bool.or_true, if_true, tlCheck, Bool.and_false,
            Bool.false_eq_true, if_false] at ea
          cases ec : conv v with
          | some w => simp [ec] at ea
          | none =>
            simp only [ec, Prod.mk.injEq, Option.some.injEq] at ea h
            obtain ⟨e1, e2⟩ := ea; subst e1; subst e2
            obtain ⟨h1, h2⟩ := h; subst h1
            exact ⟨h2.symm, [], v, vs, rfl, ec, rfl⟩

/-- C22, typing: after any history every item is a value the declared type produced. -/
theorem C22_items_typed (conv : PyVal → Option PyVal) (u : Bool) (sh : List PyVal → Str)
    (ops : List LLOp) : ∀ x ∈ llRun conv u sh [] ops, ∃ v, conv v = some x :=
  typed_llRun (by intro x hx; cases hx)

/-- C22, rejected items: an operation on one item, or an assignment, that raises
leaves the list as it was. -/
theorem C22_failure_unchanged (conv : PyVal → Option PyVal) (sh : List PyVal → Str) (xs : List PyVal)
    (op : LLOp) (h : (llStep conv true sh xs op).2 ≠ none)
    (hop : (∀ vs, op ≠ .extend vs) ∧ (∀ vs, op ≠ .iadd vs)) :
    (llStep conv true sh xs op).1 = xs := by
  have hdel : ∀ i, (match pyDel xs i with | .ok ys => (ys, none) | .error e => (xs, some e) : List PyVal × Option Err).2 ≠ none →
      (match pyDel xs i with | .ok ys => (ys, none) | .error e => (xs, some e) : List PyVal × Option Err).1 = xs := by
    intro i; cases pyDel xs i <;> simp
  cases op with
  | assign a =>
    revert h; simp only [llStep]; cases tlInit conv true a <;> simp
  | append v =>
    revert h; simp only [llStep, tlAppend]; split
    · cases tlCheck conv true xs v <;> simp
    · simp
  | insert i v => revert h; simp only [llStep, tlInsert]; cases tlCheck conv true xs v <;> simp
  | setitem i v => revert h; simp only [llStep, tlInsert]; cases tlCheck conv true xs v <;> simp
  | delitem i => exact hdel i h
  | pop i => exact hdel i h
  | remove v => revert h; simp only [llStep]; split <;> simp
  | extend vs => exact absurd rfl (hop.1 vs)
  | reverse => simp only [llStep, tlReverse_unique]
  | clear => simp [llStep] at h
  | iadd vs => exact absurd rfl (hop.2 vs)

example : llStep (elemConv (fun _ _ => true) [.restr IntTy.uint8.rty]) true (fun _ => [])
    [.int 1, .int 2] (.extend [.int 3, .int 300, .int 4]) = ([.int 1, .int 2, .int 3], some .valueError) := by
  decide

/-! ## C64 -/

/-- C64, item assignment: it never replaces an item.  If it succeeds the list is one
longer and every old item is still there; assigning a value that is in the list
raises. -/
theorem C64_setitem_inserts (conv : PyVal → Option PyVal) (sh : List PyVal → Str) (xs ys : List PyVal)
    (i : Int) (v : PyVal) (h : llStep conv true sh xs (.setitem i v) = (ys, none)) :
    ys.length = xs.length + 1 ∧ ∀ x ∈ xs, x ∈ ys := by
  simp only [llStep, tlInsert] at h
  cases e : tlCheck conv true xs v with
  | error => rw [e] at h; simp at h
  | ok w =>
    rw [e] at h
    simp only [Prod.mk.injEq, and_true] at h
    obtain ⟨l, r, h1, h2⟩ := pyInsert_eq xs i w
    rw [h2] at h; subst h1; subst h
    refine ⟨by simp; omega, fun x hx => ?_⟩
    rcases List.mem_append.1 hx with hx | hx <;> simp [hx]

/-- C64 is false: `l[0] = "c"` on `["a", "b"]` gives `["c", "a", "b"]`. -/
theorem C64_setitem_refuted (rx : Str → Str → Bool) (sh : List PyVal → Str) :
    llStep (elemConv rx [.restr (.base .str)]) true sh [.str py!"a", .str py!"b"] (.setitem 0 (.str py!"c"))
      = ([.str py!"c", .str py!"a", .str py!"b"], none) := rfl

/-- C64 is false: `reverse()` on two or more items raises `ValueError`. -/
theorem C64_reverse_refuted (conv : PyVal → Option PyVal) (sh : List PyVal → Str) (xs : List PyVal)
    (h : 2 ≤ xs.length) : llStep conv true sh xs .reverse = (xs, some .valueError) := by
  have : ¬ xs.length < 2 := by omega
  simp [llStep, tlReverse_unique, this]

/-- C64 is false: `c.x += [...]` on a leaf-list of strings always raises, after
having extended the list. -/
theorem C64_iadd_refuted (rx : Str → Str → Bool) (sh : List PyVal → Str) (xs vs : List PyVal) :
    ∃ e, llStep (elemConv rx [.restr (.base .str)]) true sh xs (.iadd vs)
      = ((llStep (elemConv rx [.restr (.base .str)]) true sh xs (.extend vs)).1, some e) := by
  simp only [llStep]
  cases tlExtend (elemConv rx [.restr (.base .str)]) true xs vs with
  | mk ys er =>
    cases er with
    | some er => exact ⟨er, rfl⟩
    | none => exact ⟨.valueError, rfl⟩

end Pyb
