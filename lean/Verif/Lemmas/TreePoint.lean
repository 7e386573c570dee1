import Verif.Lemmas.TreeInv

namespace Pyb
open Py Spec

variable {st : Bool}

/-! ## Where an operation takes effect -/

theorem find_lookup (es : Members Inst) (k : PyVal) :
    (es.find? fun q => pyEq q.1 k).map Prod.snd = (lookup es k).toOption := by
  simp only [lookup]
  cases es.find? (fun q => pyEq q.1 k) <;> rfl

theorem nodeAt_entry (ch : Bool) (es : Members Inst) (k : PyVal) (p : Path) :
    nodeAt (.list ch es) (.key k :: p) = (lookup es k).toOption.bind (nodeAt · p) := by
  rw [nodeAt_list, ← find_lookup]
  cases es.find? (fun q => pyEq q.1 k) <;> rfl

theorem nodeAt_append {p : Path} : ∀ (n : Inst) (q : Path), nodeAt n (p ++ q) = (nodeAt n p).bind (nodeAt · q) := by
  induction p with
  | nil => intro n q; simp
  | cons s p ih =>
    intro n q
    cases n with
    | leaf => simp [nodeAt_leaf]
    | leafList => simp [nodeAt_leafList]
    | cont ch pr ns =>
      cases s with
      | key k => simp [nodeAt_cont_key]
      | field i =>
        simp only [List.cons_append, nodeAt_cont]
        cases ns[i]? with
        | none => rfl
        | some c => exact ih c q
    | list ch es =>
      cases s with
      | field k => simp [nodeAt_list_field]
      | key k =>
        simp only [List.cons_append, nodeAt_list]
        cases es.find? (fun q => pyEq q.1 k) with
        | none => rfl
        | some c => exact ih c.2 q

theorem find_store_self {es : Members Inst} {k : PyVal} {q : PyVal × Inst}
    (h : (es.find? fun q => pyEq q.1 k) = some q) : store es k q.2 = es := by
  induction es with
  | nil => simp at h
  | cons p es ih =>
    by_cases hp : pyEq p.1 k = true
    · simp [hp] at h; subst h; simp [store, hp]
    · simp [hp] at h; simp [store, hp]; exact ih h

theorem set_same {ns : List Inst} {i : Nat} {c : Inst} (h : ns[i]? = some c) : ns.set i c = ns := by
  apply List.ext_getElem?
  intro j
  by_cases e : i = j
  · subst e
    rw [List.getElem?_set_self (List.getElem?_eq_some_iff.1 h).1, h]
  · rw [List.getElem?_set_ne e]

/-- An operation that fails at its target without any effect fails without effect. -/
theorem run_failed {p : Path} : ∀ {S : Schema} {own : Option Choice} {n : Inst} {op : Op} {e : Err},
    (run S own n p op).err = some e →
    (∀ T own' m, schemaAt S p = some T → nodeAt n p = some m → (nodeOp T own' m op).err = some e →
      nodeOp T own' m op = ⟨m, [], some e⟩) →
    run S own n p op = ⟨n, [], some e⟩ := by
  induction p with
  | nil =>
    intro S own n op e he h
    rw [run_nil] at he ⊢
    exact h S own n (by simp) (by simp) he
  | cons s p ih =>
    intro S own n op e he h
    have hs := run_shape S own n s p op
    generalize run S own n (s :: p) op = o at hs he
    cases hs with
    | stuck e' => simp only [fail, Option.some.injEq] at he; subst he; rfl
    | field pres kids ch pr ns i k c hk hc =>
      have := ih (S := k.2) (own := k.1.choice) (n := c) (op := op) he
        (fun T own' m hT hm => h T own' m (by rw [schemaAt_cont, hk]; exact hT) (by rw [nodeAt_cont, hc]; exact hm))
      rw [this, contPut_quiet _ _ _ _ _ _ _ _ rfl]
      simp [set_same hc]
    | entry info kids ch es k q hk hq hp hg =>
      have := ih (S := .cont false kids) (own := none) (n := q.2) (op := op) he
        (fun T own' m hT hm => h T own' m hT (by rw [nodeAt_list, hq]; exact hm))
      simp only [this, find_store_self hq]

/-- In a flat class, an operation that succeeds leaves its result at its path. -/
theorem run_at {p : Path} : ∀ {above : List Str} {own po : Option Choice} {S : Schema} {n : Inst} {op : Op},
    Choices st above own S → (run S po n p op).err = none → (po = own ∨ (po = none ∧ p ≠ [])) →
    ∃ T m own', schemaAt S p = some T ∧ nodeAt n p = some m ∧
      nodeAt (run S po n p op).inst p = some (nodeOp T own' m op).inst ∧ (nodeOp T own' m op).err = none := by
  induction p with
  | nil =>
    intro above own po S n op hf he hpo
    rw [run_nil] at he ⊢
    exact ⟨S, n, po, by simp, by simp, by simp, he⟩
  | cons s p ih =>
    intro above own po S n op hf he hpo
    have hs := run_shape S po n s p op
    generalize run S po n (s :: p) op = o at hs he
    cases hs with
    | stuck e' => simp [fail] at he
    | field pres kids ch pr ns i k c hk hc =>
      have hkf := (flatKids_mem hf (List.mem_of_getElem? hk)).2.2
      obtain ⟨T, m, own', h1, h2, h3, h4⟩ := ih hkf he (.inl rfl)
      obtain ⟨ns', g1, g2, _⟩ := contPut_flat (pres := pres) (po := po) (ch := ch) (pr := pr) hf hk
        (List.getElem?_eq_some_iff.1 hc).1 (run_good (n := c) (op := op) (p := p) hkf (.inl rfl))
      refine ⟨T, m, own', by rw [schemaAt_cont, hk]; exact h1, by rw [nodeAt_cont, hc]; exact h2, ?_, h4⟩
      rw [g1, nodeAt_cont, g2]
      exact h3
    | entry info kids ch es k q hk hq hp hg =>
      obtain ⟨T, m, own', h1, h2, h3, h4⟩ := ih (S := .cont false kids) (po := none) hf he (.inr ⟨rfl, hp⟩)
      refine ⟨T, m, own', h1, by rw [nodeAt_list, hq]; exact h2, ?_, h4⟩
      simp only [nodeAt_entry, lookup_store_same, Except.toOption, Option.bind_some]
      exact h3

/-- In a flat class, containers above the target of an operation that called `_set` are
marked. -/
theorem run_above {p1 : Path} : ∀ {p2 : Path} {above : List Str} {own po : Option Choice} {S : Schema} {n : Inst}
    {op : Op} {pres : Bool} {kids : List (Meta × Schema)} {ch pr : Bool} {ns : List Inst},
    Choices st above own S → (run S po n (p1 ++ p2) op).sigs ≠ [] → (po = own ∨ (po = none ∧ p1 ++ p2 ≠ [])) →
    p2 ≠ [] → schemaAt S p1 = some (.cont pres kids) →
    nodeAt (run S po n (p1 ++ p2) op).inst p1 = some (.cont ch pr ns) → ch = true ∧ (pres = true → pr = true) := by
  induction p1 with
  | nil =>
    intro p2 above own po S n op pres kids ch pr ns hf hs hpo hp hS hn
    simp only [List.nil_append, schemaAt_nil, Option.some.injEq, nodeAt_nil] at hs hS hn
    subst hS
    cases p2 with
    | nil => exact absurd rfl hp
    | cons s p2 =>
      have hsh := run_shape (.cont pres kids) po n s p2 op
      generalize run (.cont pres kids) po n (s :: p2) op = o at hsh hs hn
      cases hsh with
      | stuck e' => simp [fail] at hs
      | field pres kids ch pr ns i k c hk hc =>
        obtain ⟨ns', g1, _⟩ := contPut_spec pres po kids ch pr ns i (run k.2 k.1.choice c p2 op)
        rw [g1] at hn
        simp only [Inst.cont.injEq] at hn
        obtain ⟨rfl, rfl, _⟩ := hn
        cases h : (run k.2 k.1.choice c p2 op).sigs with
        | nil => simp [contPut, h] at hs
        | cons s t => simp; intro h; exact .inr h
  | cons s p1 ih =>
    intro p2 above own po S n op pres kids ch pr ns hf hs hpo hp hS hn
    simp only [List.cons_append] at hs hn
    have hsh := run_shape S po n s (p1 ++ p2) op
    generalize run S po n (s :: (p1 ++ p2)) op = o at hsh hs hn
    cases hsh with
    | stuck e' => simp [fail] at hs
    | field pres' kids' ch' pr' ns' i k c hk hc =>
      have hkf := (flatKids_mem hf (List.mem_of_getElem? hk)).2.2
      obtain ⟨ns'', g1, g2, _⟩ := contPut_flat (pres := pres') (po := po) (ch := ch') (pr := pr') hf hk
        (List.getElem?_eq_some_iff.1 hc).1 (run_good (n := c) (op := op) (p := p1 ++ p2) hkf (.inl rfl))
      rw [g1, nodeAt_cont, g2] at hn
      rw [schemaAt_cont, hk] at hS
      refine ih hkf (fun h => hs ?_) (.inl rfl) hp hS hn
      simp [contPut, h]
    | entry info kids' ch' es k q hk hq hp' hg =>
      simp only [nodeAt_entry, lookup_store_same, Except.toOption, Option.bind_some] at hn
      exact ih (S := .cont false kids') (po := none) hf hs (.inr ⟨rfl, hp'⟩) hp hS hn

/-- A path leading above the target leads to the same kind of object as before. -/
theorem run_leafData {S : Schema} {po : Option Choice} {n : Inst} {s : Step} {p : Path} {op : Op} :
    leafData (run S po n (s :: p) op).inst = leafData n := by
  have hs := run_shape S po n s p op
  generalize run S po n (s :: p) op = o at hs
  cases hs with
  | stuck => rfl
  | field pres kids ch pr ns i k c hk hc =>
    obtain ⟨ns', g1, _⟩ := contPut_spec pres po kids ch pr ns i (run k.2 k.1.choice c p op)
    rw [g1]; rfl
  | entry => rfl

/-- In a flat class, what is neither below nor above the target, nor in a competing case,
is untouched; above the target, what operations further down do not touch. -/
theorem run_frame_gen {α : Type} (g : Inst → Option α) {p : Path} : ∀ {above : List Str} {own po : Option Choice} {S : Schema} {n : Inst} {op : Op} {q : Path},
    Choices st above own S → (po = own ∨ (po = none ∧ p ≠ [])) → ¬ Covers p q → ¬ Competes S p q →
    ((∀ S po n s p op, g (run S po n (s :: p) op).inst = g n) ∨ ¬ Covers q p) →
    (nodeAt (run S po n p op).inst q).bind g = (nodeAt n q).bind g := by
  induction p with
  | nil => intro _ _ _ _ _ _ q _ _ h; simp [Covers] at h
  | cons s p ih =>
    intro above own po S n op q hf hpo h1 h2 h3
    rcases Decidable.em (q = []) with rfl | hqn
    · rcases h3 with h3 | h3
      · simp [h3]
      · simp [Covers] at h3
    have hs := run_shape S po n s p op
    generalize run S po n (s :: p) op = o at hs
    cases hs with
    | stuck => rfl
    | field pres kids ch pr ns i k c hk hc =>
      cases q with
      | nil => exact absurd rfl hqn
      | cons t q =>
        cases t with
        | key kk =>
          obtain ⟨ns', g1, _⟩ := contPut_spec pres po kids ch pr ns i (run k.2 k.1.choice c p op)
          rw [g1]; simp [nodeAt_cont_key]
        | field j =>
          have hkf := (flatKids_mem hf (List.mem_of_getElem? hk)).2.2
          obtain ⟨ns', g1, g2, _, g4, _, g6⟩ := contPut_flat (pres := pres) (po := po) (ch := ch) (pr := pr) hf hk
            (List.getElem?_eq_some_iff.1 hc).1 (run_good (n := c) (op := op) (p := p) hkf (.inl rfl))
          rw [g1, nodeAt_cont, nodeAt_cont]
          by_cases e : j = i
          · subst e
            rw [g2, hc]
            simp only [Option.bind_some]
            refine ih hkf (.inl rfl) (fun h => h1 ⟨rfl, h⟩) (fun h => h2 (.inr ⟨rfl, k, hk, h⟩)) (h3.imp id fun h3 h => h3 ⟨rfl, h⟩)
          · cases hj : kids[j]? with
            | none => rw [g4 j hj e]
            | some k' => rw [g6 j k' hj e (fun hr => absurd (.inl ⟨k, k', hk, hj, hr⟩) h2)]
    | entry info kids ch es k x hk hx hp hg =>
      cases q with
      | nil => exact absurd rfl hqn
      | cons t q =>
        cases t with
        | field j => simp [nodeAt_list_field]
        | key k' =>
          by_cases e : pyEq k k' = true
          · rw [nodeAt_entry, nodeAt_entry]
            have ee : ∀ es : Members Inst, lookup es k' = lookup es k := by
              intro es
              have : (fun q : PyVal × Inst => pyEq q.1 k') = fun q => pyEq q.1 k := by
                funext q
                rw [pyEq_symm q.1 k', pyEq_symm q.1 k]
                exact (pyEq_trans e).symm
              simp only [lookup, this]
            rw [ee, ee, lookup_store_same]
            have hl : lookup es k = .ok x.2 := by simp [lookup, hx]
            rw [hl]
            simp only [Except.toOption, Option.bind_some]
            refine ih (S := .cont false kids) (po := none) hf (.inr ⟨rfl, hp⟩) (fun h => h1 ⟨e, h⟩)
              (fun h => h2 ⟨e, h⟩) (h3.imp id fun h3 h => h3 ⟨by rw [pyEq_symm]; exact e, h⟩)
          · rw [nodeAt_entry, nodeAt_entry, lookup_store_other (by simpa using e)]

theorem run_frame {p : Path} {above : List Str} {own po : Option Choice} {S : Schema} {n : Inst} {op : Op} {q : Path}
    (hf : Choices st above own S) (hpo : po = own ∨ (po = none ∧ p ≠ [])) (h1 : ¬ Covers p q) (h2 : ¬ Competes S p q)
    (h3 : ¬ Covers q p) : nodeAt (run S po n p op).inst q = nodeAt n q := by
  have := run_frame_gen some (n := n) (op := op) hf hpo h1 h2 (.inr h3)
  simpa using this

theorem run_data {p : Path} {above : List Str} {own po : Option Choice} {S : Schema} {n : Inst} {op : Op} {q : Path}
    (hf : Choices st above own S) (hpo : po = own ∨ (po = none ∧ p ≠ [])) (h1 : ¬ Covers p q) (h2 : ¬ Competes S p q) :
    (nodeAt (run S po n p op).inst q).bind leafData = (nodeAt n q).bind leafData :=
  run_frame_gen leafData hf hpo h1 h2 (.inl fun _ _ _ _ _ _ => run_leafData)

/-- `_unset_<child>()` calls no `_set` and leaves a new object. -/
theorem run_unset {p : Path} : ∀ {S : Schema} {po : Option Choice} {n : Inst},
    (run S po n p .unset).sigs = [] ∧ ((run S po n p .unset).err = none → ∃ T, schemaAt S p = some T ∧
      nodeAt (run S po n p .unset).inst p = some (fresh T)) := by
  induction p with
  | nil =>
    intro S po n
    rw [run_nil]
    have : nodeOp S po n .unset = ⟨fresh S, [], none⟩ := by cases S <;> rfl
    rw [this]
    exact ⟨rfl, fun _ => ⟨S, by simp, by simp⟩⟩
  | cons s p ih =>
    intro S po n
    have hs := run_shape S po n s p .unset
    generalize run S po n (s :: p) .unset = o at hs
    cases hs with
    | stuck e' => exact ⟨rfl, by simp [fail]⟩
    | field pres kids ch pr ns i k c hk hc =>
      obtain ⟨h1, h2⟩ := ih (S := k.2) (po := k.1.choice) (n := c)
      rw [contPut_quiet _ _ _ _ _ _ _ _ h1]
      refine ⟨rfl, fun he => ?_⟩
      obtain ⟨T, g1, g2⟩ := h2 he
      refine ⟨T, by rw [schemaAt_cont, hk]; exact g1, ?_⟩
      rw [nodeAt_cont, List.getElem?_set_self (List.getElem?_eq_some_iff.1 hc).1]
      exact g2
    | entry info kids ch es k q hk hq hp hg =>
      obtain ⟨h1, h2⟩ := ih (S := .cont false kids) (po := none) (n := q.2)
      refine ⟨h1, fun he => ?_⟩
      obtain ⟨T, g1, g2⟩ := h2 he
      refine ⟨T, g1, ?_⟩
      simp only [nodeAt_entry, lookup_store_same, Except.toOption, Option.bind_some]
      exact g2

/-- The guard of key leaves. -/
theorem run_guard {p : Path} : ∀ {S : Schema} {po : Option Choice} {n : Inst} {info : ListInfo}
    {kids : List (Meta × Schema)} {k : PyVal} {j : Nat} {e : Inst} {op : Op},
    schemaAt S p = some (.list info kids) → nodeAt n (p ++ [.key k]) = some e →
    (∀ x, Step.key x ∈ p ++ [.key k] → hashable x = true) → keyGuard info [.field j] op = true →
    run S po n (p ++ [.key k, .field j]) op = ⟨n, [], some .attributeError⟩ := by
  induction p with
  | nil =>
    intro S po n info kids k j e op hS hn hh hg
    simp only [schemaAt_nil, Option.some.injEq] at hS
    subst hS
    cases n with
    | list ch es =>
      simp only [List.nil_append, nodeAt_list] at hn
      cases hf : es.find? (fun q => pyEq q.1 k) with
      | none => simp [hf] at hn
      | some q => simp [run, hh k (by simp), hf, hg, fail]
    | _ => simp [nodeAt] at hn
  | cons s p ih =>
    intro S po n info kids k j e op hS hn hh hg
    simp only [List.cons_append] at hn ⊢
    have hs := run_shape S po n s (p ++ [.key k, .field j]) op
    cases n with
    | leaf v ch => simp [nodeAt_leaf] at hn
    | leafList v ch => simp [nodeAt_leafList] at hn
    | cont ch pr ns =>
      cases s with
      | key k => simp [nodeAt_cont_key] at hn
      | field i =>
        cases S with
        | cont pres ks =>
          rw [nodeAt_cont] at hn
          rw [schemaAt_cont] at hS
          cases hc : ns[i]? with
          | none => simp [hc] at hn
          | some c =>
            cases hk : ks[i]? with
            | none => simp [hk] at hS
            | some kk =>
              simp only [hc, hk, Option.bind_some] at hn hS
              simp only [run, hk, hc, ih hS hn (fun x hx => hh x (List.mem_cons_of_mem _ hx)) hg]
              rw [contPut_quiet _ _ _ _ _ _ _ _ rfl]
              simp [set_same hc]
        | _ => simp [schemaAt] at hS
    | list ch es =>
      cases s with
      | field k => simp [nodeAt_list_field] at hn
      | key k' =>
        cases S with
        | list info' ks =>
          rw [nodeAt_list] at hn
          cases hc : es.find? (fun q => pyEq q.1 k') with
          | none => simp [hc] at hn
          | some q =>
            simp only [hc, Option.bind_some] at hn
            have hk' : hashable k' = true := hh k' (by simp)
            have : keyGuard info' (p ++ [.key k, .field j]) op = false := by
              cases p with
              | nil => rfl
              | cons t p => cases t <;> cases p <;> cases op <;> rfl
            have hS : schemaAt (.cont false ks) p = some (.list info kids) := hS
            have hne : p ++ [Step.key k, Step.field j] ≠ [] := by simp
            simp only [run, hk', hc, this, hne, ih hS hn (fun x hx => hh x (List.mem_cons_of_mem _ hx)) hg,
              find_store_self hc]
            simp
        | _ => simp [schemaAt] at hS

/-! ## Whole bindings -/

/-- An operation on a binding fails at once or is an operation on a top-level child. -/
theorem runRoot_cases (kids : List (Meta × Schema)) (ns : List Inst) (p : Path) (op : Op) :
    (∃ e, runRoot kids ns p op = (ns, some e)) ∨
    ∃ (i : Nat) (p' : Path) (k : Meta × Schema) (c : Inst), p = .field i :: p' ∧ kids[i]? = some k ∧ ns[i]? = some c ∧
      runRoot kids ns p op = (ns.set i (run k.2 k.1.choice c p' op).inst, (run k.2 k.1.choice c p' op).err) := by
  cases p with
  | nil => exact .inl ⟨_, rfl⟩
  | cons s p =>
    cases s with
    | key k => exact .inl ⟨_, rfl⟩
    | field i =>
      simp only [runRoot]
      split
      · rename_i k c hk hc; exact .inr ⟨i, p, k, c, rfl, hk, hc, rfl⟩
      · exact .inl ⟨_, rfl⟩

theorem objAt_field (ns : List Inst) (i : Nat) (p : Path) : objAt ns (.field i :: p) = ns[i]?.bind (nodeAt · p) :=
  nodeAt_cont ..

theorem clsAt_field (kids : List (Meta × Schema)) (i : Nat) (p : Path) :
    clsAt kids (.field i :: p) = kids[i]?.bind (fun k => schemaAt k.2 p) := schemaAt_cont ..

/-- After an operation below child `i` that called `_set`, the children in other cases
of the same choice are new. -/
theorem run_rivals {p1 : Path} : ∀ {i : Nat} {p2 : Path} {above : List Str} {own po : Option Choice} {S : Schema} {n : Inst}
    {op : Op} {pres : Bool} {kids : List (Meta × Schema)} {ch pr : Bool} {ns : List Inst} {j : Nat} {a b : Meta × Schema} {y : Inst},
    Choices true above own S → (run S po n (p1 ++ .field i :: p2) op).sigs ≠ [] → (po = own ∨ po = none) →
    schemaAt S p1 = some (.cont pres kids) →
    nodeAt (run S po n (p1 ++ .field i :: p2) op).inst p1 = some (.cont ch pr ns) →
    kids[i]? = some a → kids[j]? = some b → Rivals a.1 b.1 → ns[j]? = some y → y = fresh b.2 := by
  induction p1 with
  | nil =>
    intro i p2 above own po S n op pres kids ch pr ns j a b y hf hs hpo hS hn ha hb hr hy
    simp only [List.nil_append, schemaAt_nil, Option.some.injEq, nodeAt_nil] at hs hS hn
    subst hS
    have hsh := run_shape (.cont pres kids) po n (.field i) p2 op
    generalize run (.cont pres kids) po n (.field i :: p2) op = o at hsh hs hn
    cases hsh with
    | stuck e' => simp [fail] at hs
    | field pres kids ch pr ns i k c hk hc =>
      have hkf := (flatKids_mem hf (List.mem_of_getElem? hk)).2.2
      obtain ⟨ns'', g1, _, _, _, g5, _⟩ := contPut_flat (pres := pres) (po := po) (ch := ch) (pr := pr) hf hk
        (List.getElem?_eq_some_iff.1 hc).1 (run_good (n := c) (op := op) (p := p2) hkf (.inl rfl))
      rw [g1] at hn
      simp only [Inst.cont.injEq] at hn
      obtain ⟨rfl, rfl, rfl⟩ := hn
      rw [hk] at ha; simp at ha; subst ha
      rw [g5 rfl j b hb hr (fun h => hs (by simp [contPut, h]))] at hy
      simp only [Option.map_eq_some_iff] at hy
      obtain ⟨_, _, rfl⟩ := hy
      rfl
  | cons s p1 ih =>
    intro i p2 above own po S n op pres kids ch pr ns j a b y hf hs hpo hS hn ha hb hr hy
    simp only [List.cons_append] at hs hn
    have hsh := run_shape S po n s (p1 ++ .field i :: p2) op
    generalize run S po n (s :: (p1 ++ .field i :: p2)) op = o at hsh hs hn
    cases hsh with
    | stuck e' => simp [fail] at hs
    | field pres' kids' ch' pr' ns' i' k c hk hc =>
      have hkf := (flatKids_mem hf (List.mem_of_getElem? hk)).2.2
      obtain ⟨ns'', g1, g2, _⟩ := contPut_flat (pres := pres') (po := po) (ch := ch') (pr := pr') hf hk
        (List.getElem?_eq_some_iff.1 hc).1 (run_good (n := c) (op := op) (p := p1 ++ .field i :: p2) hkf (.inl rfl))
      rw [g1, nodeAt_cont, g2] at hn
      rw [schemaAt_cont, hk] at hS
      refine ih hkf (fun h => hs ?_) (.inl rfl) hS hn ha hb hr hy
      simp [contPut, h]
    | entry info kids' ch' es k q hk hq hp' hg =>
      simp only [nodeAt_entry, lookup_store_same, Except.toOption, Option.bind_some] at hn
      exact ih (S := .cont false kids') (po := none) hf hs (.inr rfl) hS hn ha hb hr hy

end Pyb
