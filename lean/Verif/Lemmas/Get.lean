import Verif.Spec.Get
import Verif.Lemmas.TreePoint

namespace Pyb
open Py Spec

theorem itemAt_nil (S : Schema) (d : DVal) : itemAt S d [] = some d := by cases S <;> cases d <;> rfl

theorem distinct_kid {pres : Bool} {kids : List (Meta × Schema)} (h : DistinctNames (.cont pres kids)) {i : Nat}
    {k : Meta × Schema} (hk : kids[i]? = some k) : DistinctNames k.2 := by
  intro p pres' kids' hs
  exact h (.field i :: p) pres' kids' (by rw [schemaAt_cont, hk]; exact hs)

theorem distinct_entry {info : ListInfo} {kids : List (Meta × Schema)} (h : DistinctNames (.list info kids)) :
    DistinctNames (.cont false kids) := by
  intro p pres' kids' hs
  exact h (.key .none :: p) pres' kids' hs

theorem getKids_name {f : Bool} : ∀ {kids : List (Meta × Schema)} {ns : List Inst} {x : Str × DVal},
    x ∈ getKids f kids ns → ∃ k ∈ kids, x.1 = k.1.name := by
  intro kids
  induction kids with
  | nil => intro ns x h; simp [getKids] at h
  | cons k ks ih =>
    intro ns x h
    cases ns with
    | nil => simp [getKids] at h
    | cons n ns =>
      simp only [getKids] at h
      split at h
      · rcases List.mem_cons.1 h with rfl | h
        · exact ⟨k, by simp, rfl⟩
        · obtain ⟨k', hk', e⟩ := ih h; exact ⟨k', by simp [hk'], e⟩
      · obtain ⟨k', hk', e⟩ := ih h; exact ⟨k', by simp [hk'], e⟩

theorem getKids_find {f : Bool} : ∀ {kids : List (Meta × Schema)} {ns : List Inst} {i : Nat} {k : Meta × Schema} {c : Inst},
    (kids.map fun k => k.1.name).Nodup → kids[i]? = some k → ns[i]? = some c →
    (getKids f kids ns).find? (fun x => x.1 == k.1.name) =
      if keepItem f k.2 c (getNode f k.2 c) then some (k.1.name, getNode f k.2 c) else none := by
  intro kids
  induction kids with
  | nil => intro ns i k c _ hk; simp at hk
  | cons k' ks ih =>
    intro ns i k c hd hk hc
    cases ns with
    | nil => simp at hc
    | cons n ns =>
      simp only [List.map_cons, List.nodup_cons] at hd
      cases i with
      | zero =>
        simp only [List.getElem?_cons_zero, Option.some.injEq] at hk hc
        subst hk; subst hc
        simp only [getKids]
        have hn : (getKids f ks ns).find? (fun x => x.1 == k'.1.name) = none := by
          rw [List.find?_eq_none]
          intro x hx
          obtain ⟨k2, hk2, e⟩ := getKids_name hx
          simp only [beq_iff_eq]
          intro e2
          exact hd.1 (List.mem_map.2 ⟨k2, hk2, by rw [← e, e2]⟩)
        split
        · simp
        · exact hn
      | succ i =>
        simp only [List.getElem?_cons_succ] at hk hc
        simp only [getKids]
        have hne : (k'.1.name == k.1.name) = false := by
          simp only [beq_eq_false_iff_ne]
          intro e
          exact hd.1 (List.mem_map.2 ⟨k, List.mem_of_getElem? hk, e.symm⟩)
        split
        · rw [List.find?_cons, hne]; exact ih hd.2 hk hc
        · exact ih hd.2 hk hc

theorem getKids_ne_nil {f : Bool} : ∀ {kids : List (Meta × Schema)} {ns : List Inst},
    getKids f kids ns ≠ [] ↔ ∃ (i : Nat) (k : Meta × Schema) (c : Inst), kids[i]? = some k ∧ ns[i]? = some c ∧
      keepItem f k.2 c (getNode f k.2 c) = true := by
  intro kids
  induction kids with
  | nil => intro ns; simp [getKids]
  | cons k ks ih =>
    intro ns
    cases ns with
    | nil => simp [getKids]
    | cons n ns =>
      simp only [getKids]
      split
      · rename_i h
        simp only [ne_eq, reduceCtorEq, not_false_eq_true, true_iff]
        exact ⟨0, k, n, rfl, rfl, h⟩
      · rename_i h
        rw [ih]
        constructor
        · rintro ⟨i, k', c, h1, h2, h3⟩; exact ⟨i + 1, k', c, h1, h2, h3⟩
        · rintro ⟨i, k', c, h1, h2, h3⟩
          cases i with
          | zero => simp at h1 h2; subst h1; subst h2; exact absurd h3 h
          | succ i => exact ⟨i, k', c, h1, h2, h3⟩

theorem keep_iff : ∀ (S : Schema) (n : Inst), keepItem true S n (getNode true S n) = true ↔ Visible S n := by
  intro S
  induction S using Schema.ind with
  | hleaf L =>
    intro n
    constructor
    · intro h
      cases n <;> simp [getNode, keepItem] at h
      subst h; exact .leaf
    · intro h; cases h; simp [getNode, keepItem]
  | hll L =>
    intro n
    constructor
    · intro h
      cases n <;> simp [getNode, keepItem] at h
      exact .leafList h
    · intro h; cases h with | leafList h => simp [getNode, keepItem, h]
  | hlist info kids ih =>
    intro n
    constructor
    · intro h
      cases n <;> simp [getNode, keepItem] at h
      exact .list h
    · intro h; cases h with | list h => simp [getNode, keepItem, h]
  | hcont pres kids ih =>
    intro n
    cases n with
    | cont ch pr ns =>
      simp only [getNode, keepItem, Bool.not_true, Bool.false_or, Bool.or_eq_true, Bool.not_eq_true',
        List.isEmpty_eq_false_iff, getKids_ne_nil, Bool.and_eq_true]
      constructor
      · rintro (⟨i, k, c, h1, h2, h3⟩ | ⟨rfl, rfl⟩)
        · exact .child h1 h2 ((ih k (List.mem_of_getElem? h1) c).1 h3)
        · exact .present
      · intro h
        cases h with
        | present => exact .inr ⟨rfl, rfl⟩
        | child h1 h2 h3 => exact .inl ⟨_, _, _, h1, h2, (ih _ (List.mem_of_getElem? h1) _).2 h3⟩
    | _ =>
      constructor
      · intro h; simp [getNode, keepItem] at h
      · intro h; cases h

theorem visible_above {p : Path} : ∀ {S T : Schema} {n m : Inst}, schemaAt S p = some T → nodeAt n p = some m →
    (Visible T m ∨ EndsInKey p) → Visible S n := by
  induction p with
  | nil =>
    intro S T n m hS hn h
    simp at hS hn
    subst hS; subst hn
    rcases h with h | ⟨k, h⟩
    · exact h
    · simp at h
  | cons s p ih =>
    intro S T n m hS hn h
    cases n with
    | leaf v ch => simp [nodeAt_leaf] at hn
    | leafList v ch => simp [nodeAt_leafList] at hn
    | cont ch pr ns =>
      cases s with
      | key k => simp [nodeAt_cont_key] at hn
      | field i =>
        cases S with
        | cont pres kids =>
          rw [nodeAt_cont] at hn
          rw [schemaAt_cont] at hS
          cases hc : ns[i]? with
          | none => simp [hc] at hn
          | some c =>
            cases hk : kids[i]? with
            | none => simp [hk] at hS
            | some k =>
              simp only [hc, hk, Option.bind_some] at hn hS
              refine .child hk hc (ih hS hn ?_)
              rcases h with h | ⟨k, h⟩
              · exact .inl h
              · cases p with
                | nil => simp at h
                | cons => rw [List.getLast?_cons_cons] at h; exact .inr ⟨k, h⟩
        | _ => simp [schemaAt] at hS
    | list ch es =>
      cases s with
      | field k => simp [nodeAt_list_field] at hn
      | key k =>
        cases S with
        | list info kids =>
          refine .list ?_
          rintro rfl
          simp [nodeAt] at hn
        | _ => simp [schemaAt] at hS

theorem find_map_entries {α β : Type} (g : α → β) (es : List (PyVal × α)) (k : PyVal) :
    ((es.map fun q => (q.1, g q.2)).find? fun x => pyEq x.1 k) =
      (es.find? fun q => pyEq q.1 k).map fun q => (q.1, g q.2) := by
  induction es with
  | nil => rfl
  | cons q es ih =>
    simp only [List.map_cons, List.find?_cons]
    split
    · rfl
    · exact ih

theorem keep_all (S : Schema) (n : Inst) (d : DVal) : keepItem false S n d = true := by
  cases S <;> cases n <;> cases d <;> simp [keepItem]

/-- What is in the tree, and shown, is found in `get()`. -/
theorem itemAt_get {f : Bool} {p : Path} : ∀ {S T : Schema} {n m : Inst}, DistinctNames S →
    schemaAt S p = some T → nodeAt n p = some m → (f = false ∨ Visible T m ∨ EndsInKey p ∨ p = []) →
    itemAt S (getNode f S n) p = some (getNode f T m) := by
  induction p with
  | nil =>
    intro S T n m _ hS hn _
    simp at hS hn; subst hS; subst hn
    exact itemAt_nil ..
  | cons s p ih =>
    intro S T n m hd hS hn h
    have hlast : EndsInKey (s :: p) → p ≠ [] → EndsInKey p := by
      rintro ⟨k, h⟩ hp
      cases p with
      | nil => exact absurd rfl hp
      | cons => rw [List.getLast?_cons_cons] at h; exact ⟨k, h⟩
    have h' : f = false ∨ Visible T m ∨ EndsInKey p ∨ p = [] := by
      by_cases hp : p = []
      · exact .inr (.inr (.inr hp))
      · rcases h with h | h | h | h
        · exact .inl h
        · exact .inr (.inl h)
        · exact .inr (.inr (.inl (hlast h hp)))
        · simp at h
    cases n with
    | leaf v ch => simp [nodeAt_leaf] at hn
    | leafList v ch => simp [nodeAt_leafList] at hn
    | cont ch pr ns =>
      cases s with
      | key k => simp [nodeAt_cont_key] at hn
      | field i =>
        cases S with
        | cont pres kids =>
          rw [nodeAt_cont] at hn
          rw [schemaAt_cont] at hS
          cases hc : ns[i]? with
          | none => simp [hc] at hn
          | some c =>
            cases hk : kids[i]? with
            | none => simp [hk] at hS
            | some k =>
              simp only [hc, hk, Option.bind_some] at hn hS
              have hkeep : keepItem f k.2 c (getNode f k.2 c) = true := by
                rcases h with h | h | h | h
                · subst h; exact keep_all ..
                · cases f
                  · exact keep_all ..
                  · exact (keep_iff _ _).2 (visible_above hS hn (.inl h))
                · cases f
                  · exact keep_all ..
                  · refine (keep_iff _ _).2 (visible_above hS hn (.inr (hlast h ?_)))
                    rintro rfl
                    obtain ⟨k, h⟩ := h
                    simp at h
                · simp at h
              simp only [getNode, Inst.kids, itemAt, hk, getKids_find (hd [] _ _ rfl) hk hc, hkeep, if_true]
              exact ih (distinct_kid hd hk) hS hn h'
        | _ => simp [schemaAt] at hS
    | list ch es =>
      cases s with
      | field k => simp [nodeAt_list_field] at hn
      | key k =>
        cases S with
        | list info kids =>
          rw [nodeAt_list] at hn
          cases hc : es.find? (fun q => pyEq q.1 k) with
          | none => simp [hc] at hn
          | some q =>
            simp only [hc, Option.bind_some] at hn
            have := ih (distinct_entry hd) hS hn h'
            simp only [getNode, itemAt, find_map_entries (fun e => DVal.dict (getKids f kids (Inst.kids e))), hc, Option.map_some]
            simpa only [getNode] using this
        | _ => simp [schemaAt] at hS

/-- What is found in `get()` is in the tree, and is shown. -/
theorem itemAt_get_inv {f : Bool} {p : Path} : ∀ {S : Schema} {n : Inst} {d : DVal}, DistinctNames S →
    itemAt S (getNode f S n) p = some d → ∃ T m, schemaAt S p = some T ∧ nodeAt n p = some m ∧ d = getNode f T m ∧
      (f = true → p = [] ∨ EndsInKey p ∨ Visible T m) := by
  induction p with
  | nil =>
    intro S n d _ h
    rw [itemAt_nil] at h
    exact ⟨S, n, by simp, by simp, by simpa using h.symm, fun _ => .inl rfl⟩
  | cons s p ih =>
    intro S n d hd h
    cases S with
    | leaf L => cases n <;> cases s <;> simp [getNode, itemAt] at h
    | leafList L => cases n <;> cases s <;> simp [getNode, itemAt] at h
    | cont pres kids =>
      cases s with
      | key k => simp [getNode, itemAt] at h
      | field i =>
        cases n with
        | cont ch pr ns =>
          simp only [getNode, Inst.kids, itemAt] at h
          cases hk : kids[i]? with
          | none => simp [hk] at h
          | some k =>
            simp only [hk] at h
            cases hc : ns[i]? with
            | none =>
              exfalso
              have : (getKids f kids ns).find? (fun x => x.1 == k.1.name) = none := by
                have key : ∀ (kids : List (Meta × Schema)) (ns : List Inst) (i : Nat),
                    (kids.map fun k => k.1.name).Nodup → kids[i]? = some k → ns[i]? = none →
                    (getKids f kids ns).find? (fun x => x.1 == k.1.name) = none := by
                  intro kids
                  induction kids with
                  | nil => intro ns i _ hk; simp at hk
                  | cons k' ks ih =>
                    intro ns i hdd hk hc
                    cases ns with
                    | nil => simp [getKids]
                    | cons n ns =>
                      cases i with
                      | zero => simp at hc
                      | succ i =>
                        simp only [List.getElem?_cons_succ] at hk hc
                        simp only [List.map_cons, List.nodup_cons] at hdd
                        have hne : (k'.1.name == k.1.name) = false := by
                          simp only [beq_eq_false_iff_ne]
                          intro e
                          exact hdd.1 (List.mem_map.2 ⟨k, List.mem_of_getElem? hk, e.symm⟩)
                        simp only [getKids]
                        split
                        · rw [List.find?_cons, hne]; exact ih ns i hdd.2 hk hc
                        · exact ih ns i hdd.2 hk hc
                exact key kids ns i (hd [] _ _ rfl) hk hc
              simp [this] at h
            | some c =>
              rw [getKids_find (hd [] _ _ rfl) hk hc] at h
              split at h
              · rename_i x hx
                split at hx
                · rename_i hkeep
                  simp only [Option.some.injEq] at hx
                  subst hx
                  obtain ⟨T, m, h1, h2, h3, h4⟩ := ih (distinct_kid hd hk) h
                  refine ⟨T, m, by rw [schemaAt_cont, hk]; exact h1, by rw [nodeAt_cont, hc]; exact h2, h3, fun hf => ?_⟩
                  rcases h4 hf with h4 | ⟨k', h4⟩ | h4
                  · subst h4; subst hf
                    simp at h1 h2
                    subst h1; subst h2
                    exact .inr (.inr ((keep_iff _ _).1 hkeep))
                  · cases p with
                    | nil => simp at h4
                    | cons => exact .inr (.inl ⟨k', by rw [List.getLast?_cons_cons]; exact h4⟩)
                  · exact .inr (.inr h4)
                · simp at hx
              · simp at h
        | _ => simp only [getNode, Inst.kids, itemAt] at h; split at h <;> simp [getKids] at h
    | list info kids =>
      cases s with
      | field i => cases n <;> simp [getNode, itemAt] at h
      | key k =>
        cases n with
        | list ch es =>
          simp only [getNode, itemAt, find_map_entries (fun e => DVal.dict (getKids f kids (Inst.kids e)))] at h
          cases hc : es.find? (fun q => pyEq q.1 k) with
          | none => simp [hc] at h
          | some q =>
            simp only [hc, Option.map_some] at h
            have h : itemAt (.cont false kids) (getNode f (.cont false kids) q.2) p = some d := by
              simpa only [getNode] using h
            obtain ⟨T, m, h1, h2, h3, h4⟩ := ih (distinct_entry hd) h
            refine ⟨T, m, h1, by rw [nodeAt_list, hc]; exact h2, h3, fun hf => ?_⟩
            rcases h4 hf with h4 | ⟨k', h4⟩ | h4
            · subst h4; exact .inr (.inl ⟨k, rfl⟩)
            · cases p with
              | nil => simp at h4
              | cons => exact .inr (.inl ⟨k', by rw [List.getLast?_cons_cons]; exact h4⟩)
            · exact .inr (.inr h4)
        | _ => simp [getNode, itemAt] at h

/-- The object at a path ending in a key is an entry. -/
theorem schemaAt_entry {p : Path} : ∀ {S T : Schema}, schemaAt S p = some T → EndsInKey p →
    ∃ kids, T = .cont false kids := by
  induction p with
  | nil => rintro S T _ ⟨k, h⟩; simp at h
  | cons s p ih =>
    rintro S T hS ⟨k, h⟩
    cases p with
    | nil =>
      simp only [List.getLast?_singleton, Option.some.injEq] at h
      subst h
      cases S <;> simp [schemaAt] at hS
      exact ⟨_, hS.symm⟩
    | cons t p =>
      rw [List.getLast?_cons_cons] at h
      cases s with
      | field i =>
        cases S <;> simp only [schemaAt, reduceCtorEq] at hS
        split at hS
        · exact ih hS ⟨k, h⟩
        · simp at hS
      | key k' =>
        cases S <;> simp only [schemaAt, reduceCtorEq] at hS
        exact ih hS ⟨k, h⟩

/-- Setting a leaf without calling `_set` is a failure. -/
theorem run_set_loud {v : PyVal} {load : Bool} {p : Path} : ∀ {S : Schema} {po : Option Choice} {n : Inst},
    (run S po n p (.set v load)).err = none → (run S po n p (.set v load)).sigs ≠ [] := by
  induction p with
  | nil =>
    intro S po n he hn
    rw [run_nil] at hn he
    cases S with
    | leaf L => exact (leafSet_quiet hn).2 he
    | _ => cases n <;> simp [nodeOp, fail] at he
  | cons s p ih =>
    intro S po n he hn
    have hs := run_shape S po n s p (.set v load)
    generalize run S po n (s :: p) (.set v load) = o at hs hn he
    cases hs with
    | stuck => simp [fail] at he
    | field => exact ih he (by simpa [contPut] using hn)
    | entry => exact ih he hn

end Pyb
