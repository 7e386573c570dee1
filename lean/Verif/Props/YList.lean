import Verif.Lemmas.YList

/-! # YANG lists: C23-C26, C28 -/

namespace Pyb
open Py Spec

/-! ## An entry class for the examples: key leaves of given types and one number -/

/-- Entries with key leaves of the types `ts` and a payload. -/
def demoCls (rx : Str → Str → Bool) (ts : List RTy) : EntryCls ((Nat → PyVal) × Nat) where
  fresh := (fun _ => .str [], 0)
  copy e := .ok e
  setKey e i v :=
    match ts[i]? with
    | none => .error .attributeError
    | some T => (setLeaf rx T v).map fun w => (fun j => if j = i then w else e.1 j, e.2)
  getKey e i := e.1 i

def demoConv (rx : Str → Str → Bool) (ts : List RTy) (i : Nat) (v : PyVal) : Except Err PyVal :=
  match ts[i]? with
  | none => .error .attributeError
  | some T => setLeaf rx T v

theorem demo_lawful (rx : Str → Str → Bool) (ts : List RTy) :
    LawfulKeys (demoCls rx ts) (demoConv rx ts) where
  set_get := by
    intro e i v e' h
    simp only [demoCls, demoConv] at h ⊢
    cases ht : ts[i]? with
    | none => simp [ht] at h
    | some T =>
      simp only [ht] at h ⊢
      cases hs : setLeaf rx T v with
      | error x => simp [hs, Except.map] at h
      | ok w => simp only [hs, Except.map, Except.ok.injEq] at h; subst h; simp
  set_other := by
    intro e i v e' j h hj
    simp only [demoCls] at h ⊢
    cases ht : ts[i]? with
    | none => simp [ht] at h
    | some T =>
      simp only [ht] at h
      cases hs : setLeaf rx T v with
      | error x => simp [hs, Except.map] at h
      | ok w => simp only [hs, Except.map, Except.ok.injEq] at h; subst h; simp [hj]

abbrev yes : Str → Str → Bool := fun _ _ => true
abbrev strT : RTy := .base .str

variable {E : Type}

/-! ## C23 -/

/-- C23, keys: after any history the keys are pairwise different. -/
theorem C23_keys_distinct (C : EntryCls E) (n : Nat) (ops : List (LOp E)) :
    Distinct ((ylRun C n [] ops).map Prod.fst) := by
  rw [distinct_iff_pairwise]
  exact ylRun_induct (P := fun ms => PD (ms.map Prod.fst)) (fun _ => True)
    (fun ms op ms' h _ hs => pd_ylStep h hs) (fun _ _ => trivial) List.Pairwise.nil

/-- C23, `add`: an existing key raises `KeyError`; otherwise, if it succeeds, exactly
one entry is added, at the end, under that key. -/
theorem C23_add (C : EntryCls E) (n : Nat) (ms : Members E) (k : PyVal) (hk : hashable k = true) :
    ((∃ p ∈ ms, pyEq p.1 k = true) → ylStep C n ms (.add k) = .error .keyError) ∧
    (∀ ms', ylStep C n ms (.add k) = .ok ms' →
      (∀ p ∈ ms, pyEq p.1 k = false) ∧ ∃ e, ms' = ms ++ [(k, e)]) := by
  refine ⟨fun h => ?_, fun ms' h => ?_⟩
  · simp [ylStep, ylAdd, hk, mem_true.2 h]
  · obtain ⟨h1, h2⟩ := ylAdd_ok h
    obtain ⟨_, _, raws, e, _, _, h5⟩ := ylSetPos_ok h2
    exact ⟨mem_false.1 h1, e, by rw [h5, store_new h1]⟩

/-- C23, `add` by keywords, likewise; the key is the text of the values. -/
theorem C23_add_named (C : EntryCls E) (n : Nat) (ms : Members E) (raws : List PyVal) (v : Option E)
    (hn : raws.length = n) :
    let k := PyVal.str (join py!" " (raws.map PyVal.toStr))
    ((∃ p ∈ ms, pyEq p.1 k = true) → ylStep C n ms (.addNamed (raws.map some) v) = .error .keyError) ∧
    (∀ ms', ylStep C n ms (.addNamed (raws.map some) v) = .ok ms' →
      (∀ p ∈ ms, pyEq p.1 k = false) ∧ ∃ e, ms' = ms ++ [(k, e)]) := by
  have hg : allGiven (raws.map some) = .ok raws := allGiven_ok.2 rfl
  refine ⟨fun h => ?_, fun ms' h => ?_⟩
  · have := mem_true.2 h
    simp [ylStep, hn, ylAddNamed, hg, bind, Except.bind, namedKey, this]
  · simp only [ylStep, List.length_map, hn, if_true] at h
    obtain ⟨rs, e, h1, h2, _, h4⟩ := ylAddNamed_ok h
    rw [hg] at h1; simp only [Except.ok.injEq] at h1; subst h1
    exact ⟨mem_false.1 h2, e, h4⟩

/-- C23, item assignment and `append`: an existing key keeps its place and gets the
new entry; a new key goes to the end. -/
theorem C23_set (C : EntryCls E) (n : Nat) (ms ms' : Members E) (op : LOp E) (k : PyVal)
    (hop : (∃ v, op = .setitem k v) ∨ (∃ e, op = .append e ∧ k = extractKey C n e))
    (h : ylStep C n ms op = .ok ms') :
    (∃ e, ms' = ms ++ [(k, e)] ∧ ∀ p ∈ ms, pyEq p.1 k = false) ∨
    (∃ l p r e, ms = l ++ p :: r ∧ pyEq p.1 k = true ∧ ms' = l ++ (p.1, e) :: r) := by
  have h' : ∃ v, ylSetPos C n ms k v = .ok ms' := by
    rcases hop with ⟨v, rfl⟩ | ⟨e, rfl, rfl⟩
    · exact ⟨v, h⟩
    · exact ⟨_, h⟩
  obtain ⟨v, h'⟩ := h'
  obtain ⟨_, _, raws, e, _, _, h5⟩ := ylSetPos_ok h'
  by_cases c : mem ms k = true
  · right
    obtain ⟨l, p, r, h1, h2, _, h4⟩ := store_old (e := e) c
    exact ⟨l, p, r, e, h1, h2, by rw [h5, h4]⟩
  · left
    simp only [Bool.not_eq_true] at c
    exact ⟨e, by rw [h5, store_new c], mem_false.1 c⟩

/-- C23, `delete`: removes exactly the entry of that key and keeps the order of the
others; an absent key raises `KeyError`. -/
theorem C23_delete (C : EntryCls E) (n : Nat) (ms : Members E) (k : PyVal) (hk : hashable k = true) :
    ((∀ p ∈ ms, pyEq p.1 k = false) → ylStep C n ms (.delete k) = .error .keyError) ∧
    ((∃ p ∈ ms, pyEq p.1 k = true) →
      ∃ l p r, ms = l ++ p :: r ∧ pyEq p.1 k = true ∧ ylStep C n ms (.delete k) = .ok (l ++ r)) := by
  constructor
  · intro h
    simp [ylStep, ylDelete, hk, erase_absent (mem_false.2 h)]
  · intro h
    obtain ⟨ms', he⟩ := erase_present (mem_true.2 h)
    obtain ⟨l, p, r, h1, h2, _, h4⟩ := erase_ok he
    refine ⟨l, p, r, h1, h2, ?_⟩
    simp [ylStep, ylDelete, hk, he, h4]

/-- C23, framing: an operation on one key does not change what is found under any
other key. -/
theorem C23_frame (C : EntryCls E) (n : Nat) (ms ms' : Members E) (op : LOp E) (k k' : PyVal)
    (hop : op = .add k ∨ (∃ v, op = .setitem k v) ∨ (∃ e, op = .append e ∧ k = extractKey C n e) ∨
      op = .delete k ∨ (∃ f, op = .edit k f))
    (hk : pyEq k k' = false) (h : ylStep C n ms op = .ok ms') : lookup ms' k' = lookup ms k' := by
  rcases ylStep_ok h with ⟨q, _, _, _, e, _, _, h1, h2⟩ | ⟨raws, _, _, e, _, _, _, _, v, h2⟩ | ⟨q, h1, h2⟩ | ⟨q, f, e, h2, _, h1⟩
  · have : q = k := by
      rcases h2 with rfl | ⟨v, rfl⟩ | ⟨e, rfl, rfl⟩ <;> simp_all
    subst this; rw [h1]; exact lookup_store_other hk
  · rw [h2] at hop; simp at hop
  · have : q = k := by
      rcases h2 with rfl | ⟨raws, rfl, _⟩ <;> simp_all
    subst this; exact lookup_erase_other hk h1
  · have : q = k := by subst h2; simp_all
    subst this; rw [h1]; exact lookup_store_other hk

/-- C23, reading back: after a successful `add(k)`, `lst[k]` finds the new entry. -/
theorem C23_get_added (C : EntryCls E) (n : Nat) (ms ms' : Members E) (k : PyVal)
    (h : ylStep C n ms (.add k) = .ok ms') : ∃ e, lookup ms' k = .ok e ∧ (k, e) ∈ ms' := by
  obtain ⟨h1, h2⟩ := ylAdd_ok h
  obtain ⟨_, _, raws, e, _, _, h5⟩ := ylSetPos_ok h2
  refine ⟨e, by rw [h5]; exact lookup_store_same, by rw [h5, store_new h1]; simp⟩

example : ((ylRun (demoCls yes [strT]) 1 []
    [.add (.str py!"b"), .add (.str py!"a"), .add (.str py!"b"), .add (.str py!""), .delete (.str py!"b"),
     .add (.str py!"c"), .edit (.str py!"a") (fun e => (e.1, 7))]).map fun p => (p.1, p.2.1 0, p.2.2))
    = [(.str py!"a", .str py!"a", 7), (.str py!"c", .str py!"c", 0)] := by decide

/-! ## C24 -/

/-- C24: after any history (with any number and type of keys), every entry's key
leaves hold the conversions of the values its key was written as. -/
theorem C24_key_coherence (C : EntryCls E) (conv : Nat → PyVal → Except Err PyVal) (L : LawfulKeys C conv)
    (n : Nat) (ops : List (LOp E)) (hed : ∀ op ∈ ops, ∀ k f, op = .edit k f → KeepsKeys C f) :
    ∀ p ∈ ylRun C n [] ops, KeyHolds conv n p.1 (C.getKey p.2) := by
  refine rel_ylRun (R := KeyHolds conv n) (Q := fun op => ∀ k f, op = .edit k f → KeepsKeys C f)
    (fun k k' v => keyHolds_congr) ?_ ?_ (fun op k f h e => h k f e) hed
  · intro op k u v raws e _ h1 h2 _
    exact keyHolds_pos h1 (mkEntry_ok L h2)
  · intro op raws u v e _ h1 h2 _
    subst h1
    exact keyHolds_named (mkEntry_ok L h2)

/-- The hypotheses are met by a list with an integer and a string key. -/
example : ((ylRun (demoCls yes [IntTy.uint8.rty, strT]) 2 []
    [.add (.str py!"1 x"), .addNamed [some (.int 2), some (.str py!"y")] none, .add (.str py!"300 z"),
     .append (fun i => if i = 0 then .int 3 else .str py!"w", 5)]).map
      fun p => (p.1, p.2.1 0, p.2.1 1))
    = [(.str py!"1 x", .int 1, .str py!"x"), (.str py!"2 y", .int 2, .str py!"y"),
       (.str py!"3 w", .int 3, .str py!"w")] := by decide

/-! ## C25 -/

/-- C25, one key, given positionally in canonical form: no two entries have the same
key leaf value.  Missing: other representations (`C25_distinct_refuted`). -/
theorem C25_single_partial (C : EntryCls E) (conv : Nat → PyVal → Except Err PyVal) (L : LawfulKeys C conv)
    (ops : List (LOp E)) (hc : ∀ op ∈ ops, PositionalCanon C conv op) :
    DistinctKeyLeaves C 1 (ylRun C 1 [] ops) := by
  have hrel : ∀ p ∈ ylRun C 1 [] ops, pyEq p.1 (C.getKey p.2 0) = true := by
    refine rel_ylRun (R := fun k v => pyEq k (v 0) = true) (Q := PositionalCanon C conv) ?_ ?_ ?_ ?_ hc
    · intro k k' v h1 h2
      rw [pyEq_symm] at h1
      rw [pyEq_trans h1]; exact h2
    · intro op k u v raws e hQ h1 h2 h3
      obtain ⟨_, h4⟩ := keyParts_ok h1
      rcases h4 with ⟨_, h4, _⟩ | ⟨h4, _⟩
      · subst h4
        have := mkEntry_ok L h2 0 (by simp)
        simp only [List.getElem_cons_zero] at this
        have hcan : CanonKey conv 0 k := by
          rcases h3 with rfl | ⟨v, rfl⟩ | ⟨x, rfl, rfl⟩ <;> exact hQ
        exact hcan _ this
      · exact absurd rfl h4
    · rintro op raws u v e hQ _ _ ⟨v', rfl⟩; exact hQ.elim
    · rintro op k f hQ rfl; exact hQ
  have hd := (distinct_iff_pairwise _).1 (C23_keys_distinct C 1 ops)
  intro i j hi hj h
  have h0 := h 0 (by omega)
  have e1 := hrel _ (List.getElem_mem hi)
  have e2 := hrel _ (List.getElem_mem hj)
  refine (distinct_iff_pairwise _).2 hd i j (by simpa using hi) (by simpa using hj) ?_
  simp only [List.getElem_map]
  rw [pyEq_trans e1, h0, pyEq_symm]; exact e2

/-- Integers given as integers, and strings as strings, are canonical. -/
example : ∀ op ∈ [LOp.add (.int 1), .add (.int 300), .setitem (.int 2) none, .delete (.int 1)],
    PositionalCanon (demoCls yes [IntTy.uint8.rty]) (demoConv yes [IntTy.uint8.rty]) op := by
  have h1 : demoConv yes [IntTy.uint8.rty] 0 (.int 1) = .ok (.int 1) := by decide
  have h2 : demoConv yes [IntTy.uint8.rty] 0 (.int 2) = .ok (.int 2) := by decide
  have h3 : demoConv yes [IntTy.uint8.rty] 0 (.int 300) = .error .valueError := by decide
  intro op hop
  simp only [List.mem_cons, List.not_mem_nil, or_false] at hop
  rcases hop with rfl | rfl | rfl | rfl <;> simp [PositionalCanon, CanonKey, h1, h2, h3, pyEq_refl]

/-- C25, several keys, written canonically: no two entries have the same tuple of key
leaf values. -/
theorem C25_compound_partial (C : EntryCls E) (conv : Nat → PyVal → Except Err PyVal) (L : LawfulKeys C conv)
    (n : Nat) (hn : 2 ≤ n) (ops : List (LOp E)) (hc : ∀ op ∈ ops, TextCanon C conv n op) :
    DistinctKeyLeaves C n (ylRun C n [] ops) := by
  let R : PyVal → (Nat → PyVal) → Prop := fun k v =>
    k = .str (join py!" " ((List.range n).map fun i => (v i).toStr))
  have words : ∀ (raws : List PyVal) (v : Nat → PyVal), raws.length = n →
      (∀ i (h : i < raws.length), (v i).toStr = (raws[i]).toStr) →
      (List.range n).map (fun i => (v i).toStr) = raws.map PyVal.toStr := by
    intro raws v hl h
    apply List.ext_getElem (by simp [hl])
    intro i h1 h2
    simp only [List.getElem_map, List.getElem_range]
    exact h i (by simpa using h2)
  have hrel : ∀ p ∈ ylRun C n [] ops, R p.1 (C.getKey p.2) := by
    refine rel_ylRun (R := R) (Q := TextCanon C conv n) ?_ ?_ ?_ ?_ hc
    · intro k k' v h1 h2
      simp only [R] at h2 ⊢; subst h2; exact pyEq_str h1
    · intro op k u v raws e hQ h1 h2 h3
      obtain ⟨hl, h4⟩ := keyParts_ok h1
      rcases h4 with ⟨h4, _⟩ | ⟨_, s, h4, h5⟩
      · omega
      · have hset := mkEntry_ok L h2
        have hsp : ∀ w ∈ splitOn ' ' s, ' ' ∉ w := fun w hw => not_mem_of_mem_splitOn ' ' s w hw
        have hj : join py!" " (splitOn ' ' s) = s := join_splitOn ' ' s
        have hcan : ∀ i (h : i < raws.length), CanonText conv i raws[i] := by
          rcases h3 with rfl | ⟨v, rfl⟩ | ⟨x, rfl, hx⟩
          · intro i hi
            have := hQ (splitOn ' ' s) (by rw [hj]; exact h4) hsp i (by simpa [h5] using hi)
            simpa [h5] using this
          · intro i hi
            have := hQ (splitOn ' ' s) (by rw [hj]; exact h4) hsp i (by simpa [h5] using hi)
            simpa [h5] using this
          · have he := extractKey_join (C := C) hn (fun i hi => ⟨(hQ i hi).1, (hQ i hi).2.1⟩)
            rw [← hx, h4] at he
            simp only [PyVal.str.injEq] at he
            have hsplit : splitOn ' ' s = (List.range n).map fun i => (C.getKey x i).toStr := by
              rw [he]
              apply splitOn_join
              · simp; omega
              · intro w hw; obtain ⟨i, hi, rfl⟩ := List.mem_map.1 hw
                exact (hQ i (by simpa using hi)).1
            intro i hi
            have hin : i < n := by omega
            have := (hQ i hin).2.2
            simp only [h5, List.getElem_map, hsplit, List.getElem_range]
            exact this
        show k = _
        have hw := words raws (C.getKey e) hl fun i h => hcan i h _ (hset i h)
        rw [hw, h4, h5, List.map_map]
        have : (PyVal.toStr ∘ PyVal.str) = (id : Str → Str) := rfl
        rw [this, List.map_id, hj]
    · rintro op raws u v e hQ hl h2 ⟨v', rfl⟩
      have hset := mkEntry_ok L h2
      have hw := words raws (C.getKey e) hl fun i h =>
        hQ i raws[i] (by simp [h]) _ (hset i h)
      show namedKey raws = _
      rw [hw]; rfl
    · rintro op k f hQ rfl; exact hQ
  have hd := C23_keys_distinct C n ops
  intro i j hi hj h
  have e1 := hrel _ (List.getElem_mem hi)
  have e2 := hrel _ (List.getElem_mem hj)
  refine hd i j (by simpa using hi) (by simpa using hj) ?_
  simp only [List.getElem_map]
  have : (ylRun C n [] ops)[i].1 = (ylRun C n [] ops)[j].1 := by
    rw [e1, e2]
    congr 2
    apply List.map_congr_left
    intro a ha; rw [h a (by simpa using ha)]
  rw [this]; exact pyEq_refl _

example : ∀ op ∈ [LOp.addNamed [some (.int 1), some (.str py!"x")] none,
      .addNamed [some (.str py!"2"), some (.str py!"y")] none],
    TextCanon (demoCls yes [IntTy.uint8.rty, strT]) (demoConv yes [IntTy.uint8.rty, strT]) 2 op := by
  have h1 : demoConv yes [IntTy.uint8.rty, strT] 0 (.int 1) = .ok (.int 1) := by decide
  have h2 : demoConv yes [IntTy.uint8.rty, strT] 0 (.str py!"2") = .ok (.int 2) := by decide
  have h3 : demoConv yes [IntTy.uint8.rty, strT] 1 (.str py!"x") = .ok (.str py!"x") := by decide
  have h4 : demoConv yes [IntTy.uint8.rty, strT] 1 (.str py!"y") = .ok (.str py!"y") := by decide
  intro op hop
  simp only [List.mem_cons, List.not_mem_nil, or_false] at hop
  rcases hop with rfl | rfl <;> intro i r hi <;> match i, hi with
  | 0, hi =>
    simp at hi; subst hi; intro w hw
    simp only [h1, h2, Except.ok.injEq] at hw; subst hw; decide
  | 1, hi =>
    simp at hi; subst hi; intro w hw
    simp only [h3, h4, Except.ok.injEq] at hw; subst hw; decide

/-- C25 is false in general: with a `uint8` key, `add(1)` and `add("1")` make two
entries whose key leaf is 1, and so do `add(1)` and `add(k=1)`. -/
theorem C25_distinct_refuted (rx : Str → Str → Bool) :
    ¬ DistinctKeyLeaves (demoCls rx [IntTy.uint8.rty]) 1
      (ylRun (demoCls rx [IntTy.uint8.rty]) 1 [] [.add (.int 1), .add (.str py!"1")]) ∧
    ¬ DistinctKeyLeaves (demoCls rx [IntTy.uint8.rty]) 1
      (ylRun (demoCls rx [IntTy.uint8.rty]) 1 [] [.add (.int 1), .addNamed [some (.int 1)] none]) := by
  constructor
  · intro h
    have := h 0 1 (show 0 < 2 by decide) (show 1 < 2 by decide) (fun a ha => by
      have : a = 0 := by omega
      subst this; rfl)
    cases this
  · intro h
    have := h 0 1 (show 0 < 2 by decide) (show 1 < 2 by decide) (fun a ha => by
      have : a = 0 := by omega
      subst this; rfl)
    cases this

/-! ## C26 -/

/-- C26 for values whose texts have no space: different tuples of texts are different
keys.  Missing: values with spaces (`C26_collision_refuted`). -/
theorem C26_compound_keys_partial (a b : List PyVal) (hl : a.length = b.length)
    (ha : ∀ v ∈ a, ' ' ∉ v.toStr) (hb : ∀ v ∈ b, ' ' ∉ v.toStr)
    (h : pyEq (namedKey a) (namedKey b) = true) : a.map PyVal.toStr = b.map PyVal.toStr := by
  have h1 := pyEq_str h
  simp only [namedKey, PyVal.str.injEq] at h1
  cases a with
  | nil => cases b <;> simp_all
  | cons x a =>
    cases b with
    | nil => simp at hl
    | cons y b =>
      have h2 := congrArg (splitOn ' ') h1
      rw [splitOn_join, splitOn_join] at h2
      · exact h2.symm
      · simp
      · intro p hp; obtain ⟨v, hv, rfl⟩ := List.mem_map.1 hp; exact ha v hv
      · simp
      · intro p hp; obtain ⟨v, hv, rfl⟩ := List.mem_map.1 hp; exact hb v hv

/-- C26 is false when values contain spaces: in a list with two string keys, the entry
("a b", "c") keeps the different entry ("a", "b c") from being added, and the second
tuple's key finds the first tuple's entry. -/
theorem C26_collision_refuted (rx : Str → Str → Bool) :
    let C := demoCls rx [strT, strT]
    let ms := ylRun C 2 [] [.addNamed [some (.str py!"a b"), some (.str py!"c")] none]
    ms.map (fun p => (p.2.1 0, p.2.1 1)) = [(.str py!"a b", .str py!"c")] ∧
    ylStep C 2 ms (.addNamed [some (.str py!"a"), some (.str py!"b c")] none) = .error .keyError ∧
    (lookup ms (namedKey [.str py!"a", .str py!"b c"])).map (fun e => (e.1 0, e.1 1))
      = .ok (.str py!"a b", .str py!"c") := by
  refine ⟨rfl, rfl, rfl⟩

/-! ## C28 -/

/-- C28, one key: `append(e)` stores an entry under the value of `e`'s own key leaf,
and the new entry's key leaf is the conversion of that value. -/
theorem C28_append_single (C : EntryCls E) (conv : Nat → PyVal → Except Err PyVal) (L : LawfulKeys C conv)
    (ms ms' : Members E) (e : E) (h : ylStep C 1 ms (.append e) = .ok ms') :
    ∃ e', lookup ms' (C.getKey e 0) = .ok e' ∧ conv 0 (C.getKey e 0) = .ok (C.getKey e' 0) := by
  have hk : extractKey C 1 e = C.getKey e 0 := rfl
  simp only [ylStep, hk] at h
  obtain ⟨_, _, raws, e', h1, h2, h3⟩ := ylSetPos_ok h
  refine ⟨e', by rw [h3]; exact lookup_store_same, ?_⟩
  obtain ⟨_, h4⟩ := keyParts_ok h1
  rcases h4 with ⟨_, h4, _⟩ | ⟨h4, _⟩
  · subst h4
    exact mkEntry_ok L h2 0 (by simp)
  · exact absurd rfl h4

/-- C28, several keys with non-empty space-free texts: likewise, with the texts of the
values.  Missing: values with spaces or empty values (`C28_append_refuted`). -/
theorem C28_append_compound_partial (C : EntryCls E) (conv : Nat → PyVal → Except Err PyVal)
    (L : LawfulKeys C conv) (n : Nat) (hn : 2 ≤ n) (ms ms' : Members E) (e : E)
    (ht : ∀ i < n, ' ' ∉ (C.getKey e i).toStr ∧ (C.getKey e i).toStr ≠ [])
    (h : ylStep C n ms (.append e) = .ok ms') :
    ∃ e', lookup ms' (.str (join py!" " ((List.range n).map fun i => (C.getKey e i).toStr))) = .ok e' ∧
      ∀ i < n, conv i (.str (C.getKey e i).toStr) = .ok (C.getKey e' i) := by
  simp only [ylStep, extractKey_join hn ht] at h
  obtain ⟨_, _, raws, e', h1, h2, h3⟩ := ylSetPos_ok h
  refine ⟨e', by rw [h3]; exact lookup_store_same, ?_⟩
  obtain ⟨hl, h4⟩ := keyParts_ok h1
  rcases h4 with ⟨h4, _⟩ | ⟨_, s, h4, h5⟩
  · omega
  · simp only [PyVal.str.injEq] at h4
    have hsplit : splitOn ' ' s = (List.range n).map fun i => (C.getKey e i).toStr := by
      rw [← h4]
      apply splitOn_join
      · simp; omega
      · intro w hw; obtain ⟨i, hi, rfl⟩ := List.mem_map.1 hw
        exact (ht i (by simpa using hi)).1
    intro i hi
    have := mkEntry_ok L h2 i (by omega)
    simp only [h5, List.getElem_map, hsplit, List.getElem_range] at this
    exact this

example : (ylStep (demoCls yes [IntTy.uint8.rty, strT]) 2 []
    (.append (fun i => if i = 0 then .int 3 else .str py!"w", 5))).map
      (fun ms => ms.map fun p => (p.1, p.2.1 0, p.2.1 1, p.2.2))
    = .ok [(.str py!"3 w", .int 3, .str py!"w", 5)] := by decide

/-- C28 is false for `append` when a value of a compound key has a space or the last
one is empty: `KeyError`. -/
theorem C28_append_refuted (rx : Str → Str → Bool) (ms : Members ((Nat → PyVal) × Nat)) :
    ylStep (demoCls rx [strT, strT]) 2 ms
      (.append (fun i => if i = 0 then .str py!"a b" else .str py!"c", 0)) = .error .keyError ∧
    ylStep (demoCls rx [strT, strT]) 2 ms
      (.append (fun i => if i = 0 then .str py!"a" else .str py!"", 0)) = .error .keyError := ⟨rfl, rfl⟩

/-- C28 is false for item assignment: the entry goes under the given key, whatever
its own key leaf was, and the copy's key leaf is overwritten. -/
theorem C28_setitem_refuted (rx : Str → Str → Bool) :
    (ylStep (demoCls rx [strT]) 1 [] (.setitem (.str py!"x") (some (fun _ => .str py!"y", 5)))).map
      (fun ms => ms.map fun p => (p.1, p.2.1 0, p.2.2))
    = .ok [(.str py!"x", .str py!"x", 5)] := rfl

end Pyb
