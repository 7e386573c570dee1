import Verif.Lemmas.LeafList
import Verif.Lemmas.Str
import Verif.Spec.YList

namespace Pyb
open Py Spec

variable {E : Type}

theorem mem_false {ms : Members E} {k : PyVal} : mem ms k = false ↔ ∀ p ∈ ms, pyEq p.1 k = false := by
  simp [mem]

theorem mem_true {ms : Members E} {k : PyVal} : mem ms k = true ↔ ∃ p ∈ ms, pyEq p.1 k = true := by
  simp [mem]

theorem store_new {ms : Members E} {k : PyVal} {e : E} (h : mem ms k = false) :
    store ms k e = ms ++ [(k, e)] := by
  induction ms with
  | nil => rfl
  | cons p ms ih =>
    have h' := mem_false.1 h
    have h1 := h' p (by simp)
    simp only [store, h1, Bool.false_eq_true, if_false, List.cons_append]
    rw [ih (mem_false.2 fun q hq => h' q (by simp [hq]))]

theorem store_old {ms : Members E} {k : PyVal} {e : E} (h : mem ms k = true) :
    ∃ l p r, ms = l ++ p :: r ∧ pyEq p.1 k = true ∧ (∀ q ∈ l, pyEq q.1 k = false) ∧
      store ms k e = l ++ (p.1, e) :: r := by
  induction ms with
  | nil => simp [mem] at h
  | cons p ms ih =>
    by_cases hp : pyEq p.1 k = true
    · exact ⟨[], p, ms, rfl, hp, by simp, by simp [store, hp]⟩
    · simp only [Bool.not_eq_true] at hp
      have : mem ms k = true := by
        simpa [mem, hp] using h
      obtain ⟨l, q, r, h1, h2, h3, h4⟩ := ih this
      refine ⟨p :: l, q, r, by simp [h1], h2, ?_, by simp [store, hp, h4]⟩
      intro x hx
      rcases List.mem_cons.1 hx with e | e
      · subst e; exact hp
      · exact h3 x e

theorem store_keys {ms : Members E} {k : PyVal} {e : E} (h : mem ms k = true) :
    (store ms k e).map Prod.fst = ms.map Prod.fst := by
  obtain ⟨l, p, r, h1, _, _, h4⟩ := store_old (e := e) h
  rw [h4, h1]; simp

theorem store_mem {ms : Members E} {k : PyVal} {e : E} {q : PyVal × E} (h : q ∈ store ms k e) :
    q ∈ ms ∨ (q.2 = e ∧ pyEq q.1 k = true ∧ (q.1 = k ∨ ∃ e', (q.1, e') ∈ ms)) := by
  by_cases c : mem ms k = true
  · obtain ⟨l, p, r, h1, h2, _, h4⟩ := store_old (e := e) c
    rw [h4] at h
    simp only [List.mem_append, List.mem_cons] at h
    rcases h with h | h | h
    · left; simp [h1, h]
    · right; subst h
      exact ⟨rfl, h2, .inr ⟨p.2, by simp [h1]⟩⟩
    · left; simp [h1, h]
  · simp only [Bool.not_eq_true] at c
    rw [store_new c] at h
    simp only [List.mem_append, List.mem_singleton] at h
    rcases h with h | h
    · exact .inl h
    · subst h; exact .inr ⟨rfl, pyEq_refl _, .inl rfl⟩

theorem erase_ok {ms ms' : Members E} {k : PyVal} (h : erase ms k = .ok ms') :
    ∃ l p r, ms = l ++ p :: r ∧ pyEq p.1 k = true ∧ (∀ q ∈ l, pyEq q.1 k = false) ∧ ms' = l ++ r := by
  induction ms generalizing ms' with
  | nil => simp [erase] at h
  | cons p ms ih =>
    unfold erase at h
    by_cases hp : pyEq p.1 k = true
    · simp only [hp, if_true, Except.ok.injEq] at h; subst h
      exact ⟨[], p, ms, rfl, hp, by simp, rfl⟩
    · simp only [hp, Bool.false_eq_true, if_false] at h
      cases e : erase ms k with
      | error x => simp [e, Except.map] at h
      | ok ms2 =>
        simp only [e, Except.map, Except.ok.injEq] at h; subst h
        obtain ⟨l, q, r, h1, h2, h3, h4⟩ := ih e
        refine ⟨p :: l, q, r, by simp [h1], h2, ?_, by simp [h4]⟩
        intro x hx
        simp only [Bool.not_eq_true] at hp
        rcases List.mem_cons.1 hx with e | e
        · subst e; exact hp
        · exact h3 x e

theorem erase_absent {ms : Members E} {k : PyVal} (h : mem ms k = false) :
    erase ms k = .error .keyError := by
  induction ms with
  | nil => rfl
  | cons p ms ih =>
    have h' := mem_false.1 h
    simp [erase, h' p (by simp), ih (mem_false.2 fun q hq => h' q (by simp [hq])), Except.map]

theorem erase_present {ms : Members E} {k : PyVal} (h : mem ms k = true) :
    ∃ ms', erase ms k = .ok ms' := by
  induction ms with
  | nil => simp [mem] at h
  | cons p ms ih =>
    by_cases hp : pyEq p.1 k = true
    · exact ⟨ms, by simp [erase, hp]⟩
    · simp only [Bool.not_eq_true] at hp
      obtain ⟨m, hm⟩ := ih (by simpa [mem, hp] using h)
      exact ⟨p :: m, by simp [erase, hp, hm, Except.map]⟩

theorem lookup_append {l r : Members E} {k : PyVal} :
    lookup (l ++ r) k = if mem l k then lookup l k else lookup r k := by
  induction l with
  | nil => simp [mem]
  | cons p l ih =>
    by_cases hp : pyEq p.1 k = true
    · simp [lookup, mem, hp]
    · simp only [Bool.not_eq_true] at hp
      simp only [lookup, mem, List.cons_append, List.find?_cons, List.any_cons, hp, Bool.false_or] at ih ⊢
      exact ih

theorem lookup_cons {p : PyVal × E} {ms : Members E} {k : PyVal} :
    lookup (p :: ms) k = if pyEq p.1 k then .ok p.2 else lookup ms k := by
  by_cases hp : pyEq p.1 k = true <;> simp [lookup, hp]

theorem lookup_store_same {ms : Members E} {k : PyVal} {e : E} : lookup (store ms k e) k = .ok e := by
  induction ms with
  | nil => simp [store, lookup, pyEq_refl]
  | cons p ms ih =>
    by_cases hp : pyEq p.1 k = true
    · simp [store, hp, lookup]
    · simp [store, hp, lookup_cons, ih]

theorem lookup_store_other {ms : Members E} {k k' : PyVal} {e : E} (h : pyEq k k' = false) :
    lookup (store ms k e) k' = lookup ms k' := by
  induction ms with
  | nil => simp [store, lookup, h]
  | cons p ms ih =>
    by_cases hp : pyEq p.1 k = true
    · have : pyEq p.1 k' = false := by rw [pyEq_trans hp]; exact h
      simp [store, hp, lookup_cons, this]
    · simp [store, hp, lookup_cons, ih]

theorem lookup_erase_other {ms ms' : Members E} {k k' : PyVal} (h : pyEq k k' = false)
    (he : erase ms k = .ok ms') : lookup ms' k' = lookup ms k' := by
  obtain ⟨l, p, r, h1, h2, _, h4⟩ := erase_ok he
  have : pyEq p.1 k' = false := by rw [pyEq_trans h2]; exact h
  rw [h1, h4, lookup_append, lookup_append, lookup_cons]
  simp [this]

/-! ## Inversion of the operations -/

theorem ylSetPos_ok {C : EntryCls E} {n : Nat} {ms ms' : Members E} {k : PyVal} {v : Option E}
    (h : ylSetPos C n ms k v = .ok ms') :
    k ≠ .none ∧ hashable k = true ∧ ∃ raws e, keyParts n k = .ok raws ∧
      mkEntry C (v.isSome || mem ms k) v raws = .ok e ∧ ms' = store ms k e := by
  unfold ylSetPos at h
  by_cases h1 : k = .none
  · simp [h1] at h
  by_cases h2 : hashable k = true
  · simp only [h1, if_false, h2, Bool.not_true, Bool.false_eq_true] at h
    simp only [bind_ok] at h
    obtain ⟨raws, hr, e, he, hp⟩ := h
    simp only [pure, Except.pure, Except.ok.injEq] at hp
    refine ⟨h1, h2, raws, e, hr, ?_, hp.symm⟩
    revert he
    cases mkEntry C (v.isSome || mem ms k) v raws with
    | ok a => exact id
    | error x => cases x <;> simp [asKeyError]
  · simp [h1, h2] at h

theorem ylAdd_ok {C : EntryCls E} {n : Nat} {ms ms' : Members E} {k : PyVal}
    (h : ylAdd C n ms k = .ok ms') :
    mem ms k = false ∧ ylSetPos C n ms k none = .ok ms' := by
  unfold ylAdd at h
  by_cases h1 : hashable k = true
  · by_cases h2 : mem ms k = true
    · simp [h1, h2] at h
    · by_cases h3 : k = .none
      · simp [h2, h3, hashable] at h
      · simp only [h1, h2, h3, Bool.not_true, Bool.false_eq_true, if_false] at h
        exact ⟨by simpa using h2, h⟩
  · simp [h1] at h

theorem ylAddNamed_ok {C : EntryCls E} {ms ms' : Members E} {raws : List (Option PyVal)} {v : Option E}
    (h : ylAddNamed C ms raws v = .ok ms') :
    ∃ rs e, allGiven raws = .ok rs ∧ mem ms (namedKey rs) = false ∧
      mkEntry C v.isSome v rs = .ok e ∧ ms' = ms ++ [(namedKey rs, e)] := by
  unfold ylAddNamed at h
  simp only [bind_ok] at h
  obtain ⟨rs, hr, h⟩ := h
  by_cases h2 : mem ms (namedKey rs) = true
  · simp [h2] at h
  · simp only [h2, Bool.false_eq_true, if_false] at h
    simp only [bind_ok] at h
    obtain ⟨e, he, hp⟩ := h
    simp only [pure, Except.pure, Except.ok.injEq] at hp
    have h2' : mem ms (namedKey rs) = false := by simpa using h2
    rw [store_new h2'] at hp
    refine ⟨rs, e, hr, h2', ?_, hp.symm⟩
    revert he
    cases mkEntry C v.isSome v rs with
    | ok a => exact id
    | error x => cases x <;> simp [asKeyError]

theorem allGiven_ok {raws : List (Option PyVal)} {rs : List PyVal} :
    allGiven raws = .ok rs ↔ raws = rs.map some := by
  induction raws generalizing rs with
  | nil => cases rs <;> simp [allGiven]
  | cons r raws ih =>
    cases r with
    | none => cases rs <;> simp [allGiven]
    | some r =>
      simp only [allGiven]
      cases e : allGiven raws with
      | error x =>
        simp only [Except.map, reduceCtorEq, false_iff]
        intro h
        cases rs with
        | nil => simp at h
        | cons a rs =>
          simp only [List.map_cons, List.cons.injEq] at h
          rw [ih.2 h.2] at e; cases e
      | ok t =>
        have := ih.1 e
        subst this
        cases rs with
        | nil => simp [Except.map]
        | cons a rs =>
          simp only [Except.map, Except.ok.injEq, List.cons.injEq, List.map_cons, Option.some.injEq]
          refine and_congr_right fun _ => ⟨fun h => by rw [h], fun h => ?_⟩
          have := congrArg (List.filterMap id) h
          simpa [List.filterMap_map] using this

/-! ## Key leaves of a new entry -/

theorem setKeys_ok {C : EntryCls E} {conv : Nat → PyVal → Except Err PyVal} (L : LawfulKeys C conv)
    {raws : List PyVal} {i : Nat} {e e' : E} (h : setKeys C i raws e = .ok e') :
    (∀ a (ha : a < raws.length), conv (i + a) raws[a] = .ok (C.getKey e' (i + a))) ∧
    (∀ j < i, C.getKey e' j = C.getKey e j) := by
  induction raws generalizing i e with
  | nil =>
    simp only [setKeys, Except.ok.injEq] at h; subst h
    exact ⟨by intro a ha; simp at ha, fun _ _ => rfl⟩
  | cons r raws ih =>
    simp only [setKeys, bind_ok] at h
    obtain ⟨e1, h1, h2⟩ := h
    obtain ⟨k1, k2⟩ := ih h2
    refine ⟨fun a ha => ?_, fun j hj => ?_⟩
    · cases a with
      | zero =>
        have := L.set_get _ _ _ _ h1
        simp only [List.getElem_cons_zero, Nat.add_zero]
        rw [this, k2 i (by omega)]
      | succ a =>
        have := k1 a (by simpa using ha)
        simp only [List.getElem_cons_succ]
        rw [show i + (a + 1) = i + 1 + a by omega]
        exact this
    · rw [k2 j (by omega)]
      exact L.set_other _ _ _ _ _ h1 (by omega)

theorem mkEntry_ok {C : EntryCls E} {conv : Nat → PyVal → Except Err PyVal} (L : LawfulKeys C conv)
    {u : Bool} {v : Option E} {raws : List PyVal} {e : E} (h : mkEntry C u v raws = .ok e) :
    ∀ a (ha : a < raws.length), conv a raws[a] = .ok (C.getKey e a) := by
  simp only [mkEntry, bind_ok] at h
  obtain ⟨e0, _, h⟩ := h
  have := (setKeys_ok L h).1
  simpa using this

theorem keyParts_ok {n : Nat} {k : PyVal} {raws : List PyVal} (h : keyParts n k = .ok raws) :
    raws.length = n ∧ ((n = 1 ∧ raws = [k] ∧ k ≠ .str []) ∨
      (n ≠ 1 ∧ ∃ s, k = .str s ∧ raws = (splitOn ' ' s).map PyVal.str)) := by
  unfold keyParts at h
  by_cases hn : n = 1
  · simp only [hn, if_true] at h
    by_cases hk : k = .str []
    · simp [hk] at h
    · simp only [hk, if_false, Except.ok.injEq] at h
      subst h; exact ⟨by simp [hn], .inl ⟨hn, rfl, hk⟩⟩
  · simp only [hn, if_false] at h
    cases k with
    | str s =>
      simp only at h
      split at h
      · simp only [Except.ok.injEq] at h
        rename_i hl
        subst h; exact ⟨hl, .inr ⟨hn, s, rfl, rfl⟩⟩
      · cases h
    | _ => simp at h

theorem keyHolds_pos {conv : Nat → PyVal → Except Err PyVal} {n : Nat} {k : PyVal} {raws : List PyVal}
    {vals : Nat → PyVal} (hk : keyParts n k = .ok raws)
    (hv : ∀ a (ha : a < raws.length), conv a raws[a] = .ok (vals a)) : KeyHolds conv n k vals := by
  obtain ⟨hl, h⟩ := keyParts_ok hk
  refine ⟨raws, hl, hv, ?_⟩
  rcases h with ⟨h1, h2, _⟩ | ⟨h1, s, h2, h3⟩
  · exact .inl ⟨h1, k, h2, .inl (pyEq_refl k)⟩
  · refine .inr ⟨h1, ?_⟩
    rw [h2, h3]
    congr 1
    rw [List.map_map]
    have : (PyVal.toStr ∘ PyVal.str) = (id : Str → Str) := rfl
    rw [this, List.map_id]
    exact (join_splitOn ' ' s).symm

theorem keyHolds_named {conv : Nat → PyVal → Except Err PyVal} {raws : List PyVal} {vals : Nat → PyVal}
    (hv : ∀ a (ha : a < raws.length), conv a raws[a] = .ok (vals a)) :
    KeyHolds conv raws.length (namedKey raws) vals := by
  refine ⟨raws, rfl, hv, ?_⟩
  by_cases h : raws.length = 1
  · left
    match raws, h with
    | [r], _ => exact ⟨rfl, r, rfl, .inr rfl⟩
  · exact .inr ⟨h, rfl⟩

theorem pyEq_str {k : PyVal} {s : Str} (h : pyEq (.str s) k = true) : k = .str s := by
  cases k with
  | obj o => cases ho : o.num? <;> simp [pyEq, PyVal.num?, PyVal.norm, ho] at h
  | str t => simp [pyEq, PyVal.num?, PyVal.norm] at h; rw [h]
  | _ => simp [pyEq, PyVal.num?, PyVal.norm] at h

theorem keyHolds_congr {conv : Nat → PyVal → Except Err PyVal} {n : Nat} {k k' : PyVal} {vals : Nat → PyVal}
    (h : pyEq k k' = true) (hk : KeyHolds conv n k vals) : KeyHolds conv n k' vals := by
  obtain ⟨raws, h1, h2, h3⟩ := hk
  refine ⟨raws, h1, h2, ?_⟩
  rcases h3 with ⟨a, r, b, c⟩ | ⟨a, b⟩
  · refine .inl ⟨a, r, b, ?_⟩
    rcases c with c | c
    · left; rw [pyEq_symm] at h; rw [pyEq_trans h]; exact c
    · right; subst c; exact pyEq_str h
  · refine .inr ⟨a, ?_⟩
    subst b; exact pyEq_str h

/-! ## The key computed from an entry -/

theorem range_map_flatten (f : Nat → Str) (n : Nat) :
    ((List.range (n + 1)).map fun i => f i ++ [' ']).flatten
      = join py!" " ((List.range (n + 1)).map f) ++ [' '] := by
  have gen : ∀ l : List Str, l ≠ [] → (l.map fun s => s ++ [' ']).flatten = join py!" " l ++ [' '] := by
    intro l
    induction l with
    | nil => intro h; exact absurd rfl h
    | cons a l ih =>
      intro _
      cases l with
      | nil => simp [join]
      | cons b l =>
        have := ih (by simp)
        simp only [List.map_cons, List.flatten_cons] at this ⊢
        rw [this]; simp [join]
  have := gen ((List.range (n + 1)).map f) (by simp)
  rw [← this, List.map_map]; rfl

theorem rstrip_space (s : Str) (c : Char) (hc : c ≠ ' ') : rstripBy (· = ' ') (s ++ [c] ++ [' ']) = s ++ [c] := by
  simp [rstripBy, hc]

/-- With several non-empty space-free texts, the computed key is their join. -/
theorem extractKey_join {C : EntryCls E} {n : Nat} {e : E} (hn : 2 ≤ n)
    (h : ∀ i < n, ' ' ∉ (C.getKey e i).toStr ∧ (C.getKey e i).toStr ≠ []) :
    extractKey C n e = .str (join py!" " ((List.range n).map fun i => (C.getKey e i).toStr)) := by
  have hn1 : n ≠ 1 := by omega
  obtain ⟨m, rfl⟩ : ∃ m, n = m + 1 := ⟨n - 1, by omega⟩
  simp only [extractKey, hn1, if_false]
  rw [range_map_flatten]
  congr 1
  have last : ∀ l : List Str, l ≠ [] → (∀ s ∈ l, ' ' ∉ s ∧ s ≠ []) →
      ∃ s c, join py!" " l = s ++ [c] ∧ c ≠ ' ' := by
    intro l
    induction l with
    | nil => intro h; exact absurd rfl h
    | cons a l ih =>
      intro _ hl
      cases l with
      | nil =>
        obtain ⟨h1, h2⟩ := hl a (by simp)
        refine ⟨a.dropLast, a.getLast h2, by simp [join, List.dropLast_concat_getLast], ?_⟩
        intro e; exact h1 (e ▸ List.getLast_mem h2)
      | cons b l =>
        obtain ⟨s, c, e1, e2⟩ := ih (by simp) (fun s hs => hl s (by simp [hs]))
        exact ⟨a ++ py!" " ++ s, c, by simp [join, e1], e2⟩
  obtain ⟨s, c, e1, e2⟩ := last ((List.range (m + 1)).map fun i => (C.getKey e i).toStr) (by simp)
    (by intro s hs; obtain ⟨i, hi, rfl⟩ := List.mem_map.1 hs; exact h i (by simpa using hi))
  rw [e1, rstrip_space s c e2]

/-! ## Invariants over histories -/

theorem pd_store {ms : Members E} {k : PyVal} {e : E} (h : PD (ms.map Prod.fst)) :
    PD ((store ms k e).map Prod.fst) := by
  by_cases c : mem ms k = true
  · rw [store_keys c]; exact h
  · simp only [Bool.not_eq_true] at c
    rw [store_new c]
    simp only [List.map_append, List.map_cons, List.map_nil]
    refine pd_append h ?_
    intro x hx
    obtain ⟨p, hp, rfl⟩ := List.mem_map.1 hx
    exact mem_false.1 c p hp

theorem pd_erase {ms ms' : Members E} {k : PyVal} (h : PD (ms.map Prod.fst)) (he : erase ms k = .ok ms') :
    PD (ms'.map Prod.fst) := by
  obtain ⟨l, p, r, h1, _, _, h4⟩ := erase_ok he
  subst h1; subst h4
  refine List.Pairwise.sublist ?_ h
  simp

/-- Inversion of one step: what was stored under which key. -/
theorem ylStep_ok {C : EntryCls E} {n : Nat} {ms ms' : Members E} {op : LOp E}
    (h : ylStep C n ms op = .ok ms') :
    (∃ k u v raws e, keyParts n k = .ok raws ∧ mkEntry C u v raws = .ok e ∧ ms' = store ms k e ∧
      (op = .add k ∨ (∃ v, op = .setitem k v) ∨ (∃ e, op = .append e ∧ k = extractKey C n e))) ∨
    (∃ raws u v e, raws.length = n ∧ mkEntry C u v raws = .ok e ∧ ms' = store ms (namedKey raws) e ∧
      mem ms (namedKey raws) = false ∧ (∃ v, op = .addNamed (raws.map some) v)) ∨
    (∃ k, erase ms k = .ok ms' ∧ (op = .delete k ∨ ∃ raws, op = .deleteNamed (raws.map some) ∧ k = namedKey raws)) ∨
    (∃ k f e, op = .edit k f ∧ lookup ms k = .ok e ∧ ms' = store ms k (f e)) := by
  have hdel : ∀ k, ylDelete ms k = .ok ms' → erase ms k = .ok ms' := by
    intro k h; unfold ylDelete at h
    split at h
    · cases h
    · exact h
  cases op with
  | add k =>
    obtain ⟨_, h2⟩ := ylAdd_ok h
    obtain ⟨_, _, raws, e, h3, h4, h5⟩ := ylSetPos_ok h2
    exact .inl ⟨k, _, _, raws, e, h3, h4, h5, .inl rfl⟩
  | addNamed raws v =>
    simp only [ylStep] at h
    split at h
    · rename_i hl
      obtain ⟨rs, e, h1, h2, h3, h4⟩ := ylAddNamed_ok h
      rw [allGiven_ok] at h1; subst h1
      refine .inr (.inl ⟨rs, _, _, e, by simpa using hl, h3, ?_, h2, v, rfl⟩)
      rw [store_new h2]; exact h4
    · cases h
  | setitem k v =>
    obtain ⟨_, _, raws, e, h3, h4, h5⟩ := ylSetPos_ok h
    exact .inl ⟨k, _, _, raws, e, h3, h4, h5, .inr (.inl ⟨v, rfl⟩)⟩
  | append x =>
    obtain ⟨_, _, raws, e, h3, h4, h5⟩ := ylSetPos_ok h
    exact .inl ⟨_, _, _, raws, e, h3, h4, h5, .inr (.inr ⟨x, rfl, rfl⟩)⟩
  | delete k => exact .inr (.inr (.inl ⟨k, hdel k h, .inl rfl⟩))
  | deleteNamed raws =>
    simp only [ylStep, bind_ok] at h
    obtain ⟨rs, h1, h2⟩ := h
    rw [allGiven_ok] at h1; subst h1
    exact .inr (.inr (.inl ⟨_, hdel _ h2, .inr ⟨rs, rfl, rfl⟩⟩))
  | edit k f =>
    simp only [ylStep, ylEdit] at h
    split at h
    · cases h
    · simp only [bind_ok] at h
      obtain ⟨e, h1, h2⟩ := h
      simp only [pure, Except.pure, Except.ok.injEq] at h2
      exact .inr (.inr (.inr ⟨k, f, e, rfl, h1, h2.symm⟩))

theorem ylRun_induct {C : EntryCls E} {n : Nat} (P : Members E → Prop) (Q : LOp E → Prop)
    (step : ∀ ms op ms', P ms → Q op → ylStep C n ms op = .ok ms' → P ms')
    {ops : List (LOp E)} (hq : ∀ op ∈ ops, Q op) {ms : Members E} (h : P ms) : P (ylRun C n ms ops) := by
  induction ops generalizing ms with
  | nil => exact h
  | cons op ops ih =>
    unfold ylRun
    apply ih (fun o ho => hq o (by simp [ho]))
    split
    · rename_i ms' e; exact step _ _ _ h (hq op (by simp)) e
    · exact h

theorem pd_ylStep {C : EntryCls E} {n : Nat} {ms ms' : Members E} {op : LOp E}
    (h : PD (ms.map Prod.fst)) (hs : ylStep C n ms op = .ok ms') : PD (ms'.map Prod.fst) := by
  rcases ylStep_ok hs with ⟨k, _, _, _, e, _, _, h1, _⟩ | ⟨raws, _, _, e, _, _, h1, _, _⟩ | ⟨k, h1, _⟩ | ⟨k, f, e, _, _, h1⟩
  · rw [h1]; exact pd_store h
  · rw [h1]; exact pd_store h
  · exact pd_erase h h1
  · rw [h1]; exact pd_store h

theorem lookup_mem {ms : Members E} {k : PyVal} {e : E} (h : lookup ms k = .ok e) :
    ∃ p ∈ ms, pyEq p.1 k = true ∧ p.2 = e := by
  unfold lookup at h
  split at h
  · rename_i p hp
    simp only [Except.ok.injEq] at h
    exact ⟨p, List.mem_of_find?_eq_some hp, by simpa using List.find?_some hp, h⟩
  · cases h

/-- In a list with distinct keys, the pair found for a key is the only one. -/
theorem pd_unique {ms : Members E} (h : PD (ms.map Prod.fst)) {p q : PyVal × E} (hp : p ∈ ms) (hq : q ∈ ms)
    (he : pyEq p.1 q.1 = true) : p = q := by
  induction ms with
  | nil => cases hp
  | cons a ms ih =>
    simp only [PD, List.map_cons, List.pairwise_cons] at h
    rcases List.mem_cons.1 hp with e1 | e1 <;> rcases List.mem_cons.1 hq with e2 | e2
    · rw [e1, e2]
    · subst e1
      have := h.1 q.1 (List.mem_map_of_mem e2); rw [this] at he; cases he
    · subst e2
      have := h.1 p.1 (List.mem_map_of_mem e1); rw [pyEq_symm, this] at he; cases he
    · exact ih h.2 e1 e2

/-- The general form of the invariants: a relation between keys and the key leaves of
entries that holds of everything an operation stores holds after any history. -/
theorem rel_ylRun {C : EntryCls E} {n : Nat} (R : PyVal → (Nat → PyVal) → Prop) (Q : LOp E → Prop)
    (hR : ∀ k k' v, pyEq k k' = true → R k v → R k' v)
    (hpos : ∀ op k u v raws e, Q op → keyParts n k = .ok raws → mkEntry C u v raws = .ok e →
      (op = .add k ∨ (∃ v, op = .setitem k v) ∨ (∃ e, op = .append e ∧ k = extractKey C n e)) →
      R k (C.getKey e))
    (hnam : ∀ op raws u v e, Q op → raws.length = n → mkEntry C u v raws = .ok e →
      (∃ v, op = .addNamed (raws.map some) v) → R (namedKey raws) (C.getKey e))
    (hed : ∀ op k f, Q op → op = .edit k f → KeepsKeys C f)
    {ops : List (LOp E)} (hq : ∀ op ∈ ops, Q op) :
    ∀ p ∈ ylRun C n [] ops, R p.1 (C.getKey p.2) := by
  refine ylRun_induct (P := fun ms => ∀ p ∈ ms, R p.1 (C.getKey p.2)) Q ?_ hq (by intro p hp; cases hp)
  intro ms op ms' hP hQ hs
  have put : ∀ k e, R k (C.getKey e) → ms' = store ms k e → ∀ p ∈ ms', R p.1 (C.getKey p.2) := by
    intro k e hk hms p hp
    rw [hms] at hp
    rcases store_mem hp with h | ⟨h1, h2, _⟩
    · exact hP p h
    · rw [h1]; exact hR _ _ _ (by rw [pyEq_symm]; exact h2) hk
  rcases ylStep_ok hs with ⟨k, u, v, raws, e, h1, h2, h3, h4⟩ | ⟨raws, u, v, e, h1, h2, h3, _, h4⟩ | ⟨k, h1, _⟩ | ⟨k, f, e, h1, h2, h3⟩
  · exact put k e (hpos op k u v raws e hQ h1 h2 h4) h3
  · exact put _ e (hnam op raws u v e hQ h1 h2 h4) h3
  · obtain ⟨l, p, r, e1, _, _, e4⟩ := erase_ok h1
    intro q hq
    rw [e4] at hq
    refine hP q ?_
    rw [e1]
    rcases List.mem_append.1 hq with h | h <;> simp [h]
  · obtain ⟨p, hp, hpk, hpe⟩ := lookup_mem h2
    refine put k (f e) ?_ h3
    have hk := hed op k f hQ h1
    have : C.getKey (f e) = C.getKey e := funext fun i => hk e i
    rw [this, ← hpe]
    exact hR _ _ _ hpk (hP p hp)

end Pyb
