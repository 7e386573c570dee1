import Verif.Spec.BitsTree
import Verif.Lemmas.ExtTypes
import Verif.Lemmas.TreePoint

/-! # Bits leaves changed in place -/

namespace Pyb
open Py Spec

theorem lookup_declared {allowed : List (Str × Str)} {b : Str} (h : b ∈ allowed.map Prod.fst) :
    ∃ p, allowed.lookup b = some p ∧ (b, p) ∈ allowed := by
  induction allowed with
  | nil => simp at h
  | cons a l ih =>
    obtain ⟨n, q⟩ := a
    by_cases e : b = n
    · subst e; exact ⟨q, by simp [List.lookup], by simp⟩
    · simp only [List.map_cons, List.mem_cons, e, false_or] at h
      obtain ⟨p, h1, h2⟩ := ih h
      have : (b == n) = false := by simpa using e
      exact ⟨p, by simp [List.lookup, this, h1], by simp [h2]⟩

theorem positions_inj {allowed : List (Str × Str)} (h : (allowed.map Prod.snd).Nodup) {a b p : Str} (ha : (a, p) ∈ allowed)
    (hb : (b, p) ∈ allowed) : a = b := by
  induction allowed with
  | nil => simp at ha
  | cons x l ih =>
    simp only [List.map_cons, List.nodup_cons] at h
    simp only [List.mem_cons] at ha hb
    rcases ha with rfl | ha
    · rcases hb with hb | hb
      · exact (Prod.mk.inj hb).1.symm
      · exact absurd (List.mem_map.2 ⟨_, hb, rfl⟩) h.1
    · rcases hb with rfl | hb
      · exact absurd (List.mem_map.2 ⟨_, ha, rfl⟩) h.1
      · exact ih h.2 ha hb

/-- Declared bits, sorted, are a value of the type. -/
theorem bits_value {allowed : List (Str × Str)} (hd : BitsDecl allowed) {t : List Str} (ht : ∀ b ∈ t, b ∈ allowed.map Prod.fst)
    (hn : t.Nodup) : ExtValue (.bits allowed) (.bits (bitSort allowed t)) := by
  have hp : (bitSort allowed t).Perm t := sortBy_perm _ t
  refine .bits _ _ hd.1 (fun b hb => ht b (hp.mem_iff.1 hb)) ?_
  have hs : (bitSort allowed t).Pairwise fun a b => strLe ((allowed.lookup a).getD []) ((allowed.lookup b).getD []) = true :=
    sortBy_sorted _ t
  have hn' := hp.nodup_iff.2 hn
  have hm : ∀ b ∈ bitSort allowed t, b ∈ allowed.map Prod.fst := fun b hb => ht b (hp.mem_iff.1 hb)
  generalize bitSort allowed t = l at hs hn' hm
  induction l with
  | nil => exact .nil
  | cons x l ih =>
    simp only [List.pairwise_cons, List.nodup_cons] at hs hn' ⊢
    refine ⟨fun b hb => ?_, ih hs.2 hn'.2 fun b hb => hm b (by simp [hb])⟩
    obtain ⟨p, p1, p2⟩ := lookup_declared (hm x (by simp))
    obtain ⟨q, q1, q2⟩ := lookup_declared (hm b (by simp [hb]))
    refine ⟨p, q, p1, q1, by simpa [p1, q1] using hs.1 b hb, ?_⟩
    rintro rfl
    exact hn'.1 (positions_inj hd.2.2 p2 q2 ▸ hb)

theorem value_nodup {allowed : List (Str × Str)} {s : List Str} (h : ExtValue (.bits allowed) (.bits s)) :
    s.Nodup ∧ ∀ b ∈ s, b ∈ allowed.map Prod.fst := by
  cases h with
  | bits _ _ h1 h2 h3 =>
    exact ⟨h3.imp fun {a b} ⟨p, q, e1, e2, _, ne⟩ e => by subst e; rw [e1] at e2; exact ne (Option.some.inj e2), h2⟩

/-- The new set of a call that does not raise. -/
theorem bitStep_after {allowed : List (Str × Str)} {s t : List Str} (h : ExtValue (.bits allowed) (.bits s)) (hd : BitsDecl allowed)
    {op : BitOp} {c : BitCall} (hs : bitStep allowed s op = .ok t)
    (hc : (∃ b, op = .add b ∧ c = .add b) ∨ (∃ b, op = .discard b ∧ c = .discard b) ∨ (op = .clear ∧ c = .clear) ∨
      (∃ b, op = .remove b ∧ c = .remove b) ∨ (∃ b, op = .pop b ∧ c = .pop b)) :
    ExtValue (.bits allowed) (.bits (bitSort allowed t)) ∧ ∀ b, b ∈ bitSort allowed t ↔ After s c b := by
  obtain ⟨hn, hm⟩ := value_nodup h
  have key : t.Nodup ∧ (∀ b ∈ t, b ∈ allowed.map Prod.fst) ∧ ∀ b, b ∈ t ↔ After s c b := by
    have flt : ∀ x, (s.filter (· ≠ x)).Nodup ∧ (∀ b ∈ s.filter (· ≠ x), b ∈ allowed.map Prod.fst) ∧
        ∀ b, b ∈ s.filter (· ≠ x) ↔ b ∈ s ∧ b ≠ x := fun x =>
      ⟨hn.filter _, fun b hb => hm b (List.mem_filter.1 hb).1, fun b => by simp [List.mem_filter]⟩
    rcases hc with ⟨x, rfl, rfl⟩ | ⟨x, rfl, rfl⟩ | ⟨rfl, rfl⟩ | ⟨x, rfl, rfl⟩ | ⟨x, rfl, rfl⟩
    · simp only [bitStep, bitAdd] at hs
      split at hs
      · next hx =>
        simp only [Except.ok.injEq] at hs
        subst hs
        by_cases e : x ∈ s
        · simp only [e, if_true]
          exact ⟨hn, hm, fun b => ⟨.inl, fun h => h.elim id fun h => h ▸ e⟩⟩
        · simp only [e, if_false]
          refine ⟨List.nodup_append.2 ⟨hn, by simp, fun a ha b hb => ?_⟩, fun b hb => ?_, fun b => by simp [After]⟩
          · simp only [List.mem_singleton] at hb
            subst hb
            rintro rfl
            exact e ha
          · rcases List.mem_append.1 hb with hb | hb
            · exact hm b hb
            · simp only [List.mem_singleton] at hb
              exact hb ▸ hx
      · simp at hs
    · simp only [bitStep] at hs
      split at hs
      · simp only [Except.ok.injEq] at hs; subst hs; exact flt x
      · simp at hs
    · simp only [bitStep, Except.ok.injEq] at hs
      subst hs
      exact ⟨by simp, by simp, by simp [After]⟩
    · simp only [bitStep] at hs
      split at hs
      · simp only [Except.ok.injEq] at hs; subst hs; exact flt x
      · simp at hs
    · simp only [bitStep] at hs
      split at hs
      · simp only [Except.ok.injEq] at hs; subst hs; exact flt x
      · simp at hs
  exact ⟨bits_value hd key.2.1 key.1, fun b => by rw [← key.2.2 b]; exact (sortBy_perm _ t).mem_iff⟩

theorem store_keys_found {es : Members Inst} {k : PyVal} {q : PyVal × Inst} {e : Inst}
    (h : (es.find? fun q => pyEq q.1 k) = some q) : (store es k e).map Prod.fst = es.map Prod.fst := by
  induction es with
  | nil => simp at h
  | cons p es ih =>
    by_cases hp : pyEq p.1 k = true
    · simp [store, hp]
    · simp only [Bool.not_eq_true] at hp
      simp only [List.find?_cons, hp] at h
      simp [store, hp, ih h]

/-- A call that tells nobody changes the object and nothing else. -/
theorem through_quiet {f : Option Choice → Inst → Out} {m m' : Inst} {e : Option Err} (hf : ∀ own, f own m = ⟨m', [], e⟩) {p : Path} :
    ∀ {S T : Schema} {own : Option Choice} {n : Inst}, schemaAt S p = some T → nodeAt n p = some m →
    (∀ k, Step.key k ∈ p → hashable k = true) →
    ∃ n', through f S own n p = ⟨n', [], e⟩ ∧ nodeAt n' p = some m' ∧ ∀ q, ¬ Covers p q → (nodeAt n' q).map shell = (nodeAt n q).map shell := by
  induction p with
  | nil =>
    intro S T own n hS hn hk
    simp only [nodeAt_nil, Option.some.injEq] at hn
    subst hn
    exact ⟨m', by cases S <;> exact hf own, nodeAt_nil _, fun q h => absurd trivial h⟩
  | cons st p ih =>
    intro S T own n hS hn hk
    cases st with
    | field i =>
      cases S with
      | cont pres kids =>
        cases n with
        | cont ch pr ns =>
          rw [nodeAt_cont] at hn
          rw [schemaAt_cont] at hS
          obtain ⟨c, hc, hn⟩ := Option.bind_eq_some_iff.1 hn
          obtain ⟨k, hkk, hS⟩ := Option.bind_eq_some_iff.1 hS
          obtain ⟨c', h1, h2, h3⟩ := ih (own := k.1.choice) hS hn fun x hx => hk x (by simp [hx])
          have hi := (List.getElem?_eq_some_iff.1 hc).1
          refine ⟨.cont ch pr (ns.set i c'), ?_, ?_, ?_⟩
          · simp only [through, hkk, hc, h1]; exact contPut_quiet _ _ _ _ _ _ _ _ rfl
          · rw [nodeAt_cont, List.getElem?_set_self hi]; exact h2
          · intro q hq
            cases q with
            | nil => simp [shell]
            | cons t q =>
              cases t with
              | key x => rfl
              | field j =>
                rw [nodeAt_cont, nodeAt_cont]
                by_cases e : i = j
                · subst e
                  simp only [List.getElem?_set_self hi, hc, Option.bind_some]
                  exact h3 q fun h => hq ⟨rfl, h⟩
                · rw [List.getElem?_set_ne e]
        | _ => simp [nodeAt] at hn
      | _ => simp [schemaAt] at hS
    | key k =>
      cases S with
      | list info kids =>
        cases n with
        | list ch es =>
          have hn0 := hn
          rw [nodeAt_list] at hn
          obtain ⟨c, hc, hn⟩ := Option.bind_eq_some_iff.1 hn
          simp only [schemaAt] at hS
          obtain ⟨c', h1, h2, h3⟩ := ih (own := none) hS hn fun x hx => hk x (by simp [hx])
          refine ⟨.list ch (store es k c'), ?_, ?_, ?_⟩
          · simp only [through, hk k (by simp), Bool.not_true, Bool.false_eq_true, if_false, hc, h1]
          · simp only [nodeAt_entry, lookup_store_same, Except.toOption, Option.bind_some]; exact h2
          · intro q hq
            cases q with
            | nil => simp [shell, store_keys_found hc]
            | cons t q =>
              cases t with
              | field j => rfl
              | key k' =>
                rw [nodeAt_entry, nodeAt_entry]
                by_cases e : pyEq k k' = true
                · have hl : lookup es k' = .ok c.2 := by
                    have : (es.find? fun q => pyEq q.1 k') = some c := by
                      rw [← hc]; congr 1; funext q
                      rw [pyEq_symm q.1 k', pyEq_symm q.1 k, ← pyEq_trans e]
                    simp [lookup, this]
                  have hl' : lookup (store es k c') k' = .ok c' := by
                    have h := lookup_store_same (ms := es) (k := k) (e := c')
                    have h' : ((store es k c').find? fun q => pyEq q.1 k') = (store es k c').find? fun q => pyEq q.1 k := by
                      congr 1; funext q
                      rw [pyEq_symm q.1 k', pyEq_symm q.1 k, ← pyEq_trans e]
                    simp only [lookup, h'] at h ⊢
                    exact h
                  simp only [hl, hl', Except.toOption, Option.bind_some]
                  exact h3 q fun h => hq ⟨e, h⟩
                · simp only [Bool.not_eq_true] at e
                  rw [lookup_store_other e]
        | _ => simp [nodeAt] at hn
      | _ => simp [schemaAt] at hS

/-- A call without any effect. -/
theorem through_same {f : Option Choice → Inst → Out} {m : Inst} {e : Option Err} (hf : ∀ own, f own m = ⟨m, [], e⟩) {p : Path} :
    ∀ {S T : Schema} {own : Option Choice} {n : Inst}, schemaAt S p = some T → nodeAt n p = some m →
    (∀ k, Step.key k ∈ p → hashable k = true) → through f S own n p = ⟨n, [], e⟩ := by
  induction p with
  | nil =>
    intro S T own n hS hn hk
    simp only [nodeAt_nil, Option.some.injEq] at hn
    subst hn
    cases S <;> exact hf own
  | cons st p ih =>
    intro S T own n hS hn hk
    cases st with
    | field i =>
      cases S with
      | cont pres kids =>
        cases n with
        | cont ch pr ns =>
          rw [nodeAt_cont] at hn
          rw [schemaAt_cont] at hS
          obtain ⟨c, hc, hn⟩ := Option.bind_eq_some_iff.1 hn
          obtain ⟨k, hkk, hS⟩ := Option.bind_eq_some_iff.1 hS
          simp only [through, hkk, hc, ih (own := k.1.choice) hS hn fun x hx => hk x (by simp [hx])]
          rw [contPut_quiet _ _ _ _ _ _ _ _ rfl, set_same hc]
        | _ => simp [nodeAt] at hn
      | _ => simp [schemaAt] at hS
    | key k =>
      cases S with
      | list info kids =>
        cases n with
        | list ch es =>
          rw [nodeAt_list] at hn
          obtain ⟨c, hc, hn⟩ := Option.bind_eq_some_iff.1 hn
          simp only [schemaAt] at hS
          simp only [through, hk k (by simp), Bool.not_true, Bool.false_eq_true, if_false, hc,
            ih (own := none) hS hn fun x hx => hk x (by simp [hx]), find_store_self hc]
        | _ => simp [nodeAt] at hn
      | _ => simp [schemaAt] at hS

theorem clearKids_twice (c : Choice) (kids : List (Meta × Schema)) (ns : List Inst) : clearKids c kids (clearKids c kids ns) = clearKids c kids ns := by
  induction kids generalizing ns with
  | nil => cases ns <;> rfl
  | cons k ks ih =>
    cases ns with
    | nil => rfl
    | cons n ns =>
      simp only [clearKids, ih]
      split <;> rfl

/-- A second call of `_set` has no effect. -/
theorem recvAll_twice (pres : Bool) (kids : List (Meta × Schema)) (ch pr : Bool) (ns : List Inst) (s : Option Choice) :
    recvAll pres kids (.cont ch pr ns) [s, s] = recvAll pres kids (.cont ch pr ns) [s] := by
  cases s with
  | none => simp [recvAll, recv]
  | some c => simp [recvAll, recv, clearKids_twice]

/-- A call on a leaf in no case that tells its container once, as an assignment does. -/
theorem through_assign {f : Option Choice → Inst → Out} {m m' : Inst} {L : LeafCls} {v : PyVal} (hf : f none m = ⟨m', [none], none⟩)
    (hs : leafSet L none m v = ⟨m', [none, none], none⟩) {p : Path} :
    ∀ {S : Schema} {own : Option Choice} {n : Inst}, schemaAt S p = some (.leaf L) → nodeAt n p = some m → caseAt own S p = none →
    (∀ k, Step.key k ∈ p → hashable k = true) →
    (through f S own n p).inst = (run S own n p (.set v true)).inst ∧ (through f S own n p).err = none ∧ (run S own n p (.set v true)).err = none ∧
      ∃ s, (through f S own n p).sigs = [s] ∧ (run S own n p (.set v true)).sigs = [s, s] := by
  induction p with
  | nil =>
    intro S own n hS hn hc hk
    simp only [nodeAt_nil, Option.some.injEq] at hn
    simp only [schemaAt_nil, Option.some.injEq] at hS
    subst hn hS
    simp only [caseAt] at hc
    subst hc
    simp only [through, run, nodeOp, hf, hs]
    exact ⟨trivial, trivial, trivial, none, rfl, rfl⟩
  | cons st p ih =>
    intro S own n hS hn hca hk
    cases st with
    | field i =>
      cases S with
      | cont pres kids =>
        cases n with
        | cont ch pr ns =>
          rw [nodeAt_cont] at hn
          rw [schemaAt_cont] at hS
          obtain ⟨c, hc, hn⟩ := Option.bind_eq_some_iff.1 hn
          obtain ⟨k, hkk, hS⟩ := Option.bind_eq_some_iff.1 hS
          simp only [caseAt, hkk] at hca
          obtain ⟨h1, h2, h3, s, h4, h5⟩ := ih (own := k.1.choice) hS hn hca fun x hx => hk x (by simp [hx])
          simp only [through, run, hkk, hc, contPut, h1, h2, h3, h4, h5, recvAll_twice, List.map_cons, List.map_nil]
          exact ⟨trivial, trivial, trivial, s.or own, rfl, rfl⟩
        | _ => simp [nodeAt] at hn
      | _ => simp [schemaAt] at hS
    | key k =>
      cases S with
      | list info kids =>
        cases n with
        | list ch es =>
          rw [nodeAt_list] at hn
          obtain ⟨c, hc, hn⟩ := Option.bind_eq_some_iff.1 hn
          simp only [schemaAt] at hS
          simp only [caseAt] at hca
          obtain ⟨h1, h2, h3, s, h4, h5⟩ := ih (own := none) hS hn hca fun x hx => hk x (by simp [hx])
          have hp : p ≠ [] := by rintro rfl; simp at hS
          have hg : keyGuard info p (.set v true) = false := by
            cases p with
            | nil => rfl
            | cons a p => cases a <;> cases p <;> rfl
          simp only [through, run, hk k (by simp), Bool.not_true, Bool.false_eq_true, if_false, hc, hp, hg, h1, h2, h3, h4, h5]
          exact ⟨trivial, trivial, trivial, s, rfl, rfl⟩
        | _ => simp [nodeAt] at hn
      | _ => simp [schemaAt] at hS

end Pyb
