import Verif.Lemmas.Dumps
import Verif.Spec.Written

namespace Pyb
open Py Spec

theorem writtenItems_nil (ietf : Bool) (pns : Option Str) : ∀ kids, WrittenItems ietf pns kids [] []
  | [] => .nil _ _
  | k :: ks => .skip _ _ _ _ _ _ (writtenItems_nil ietf pns ks)

theorem pairs_mapM {α β : Type} {f : α → Except Err β} : ∀ {l : List α} {r : List β}, l.mapM f = .ok r → Pairs (fun a b => f a = .ok b) l r
  | [], r, h => by simp [pure, Except.pure] at h; subst h; exact .nil
  | a :: l, r, h => by
    rw [List.mapM_cons] at h
    cases ha : f a with
    | error e => simp [ha, bind, Except.bind] at h
    | ok b =>
      cases hl : l.mapM f with
      | error e => simp [ha, hl, bind, Except.bind] at h
      | ok bs =>
        simp [ha, hl, bind, Except.bind, pure, Except.pure] at h
        subst h
        exact .cons ha (pairs_mapM hl)

/-- The children of a container or entry in IETF mode, given the same for each. -/
theorem ietf_items {o : DumpOpt} : ∀ {kids : List (Meta × Schema)} (_ : ∀ k ∈ kids, ∀ n x, ietfNode o k.1 k.2 n = .ok x →
      (ietfTree o k.1 k.2 n = none ∧ x = none) ∨ ∃ t j, ietfTree o k.1 k.2 n = some t ∧ x = some j ∧ Written true k.1 k.2 t j)
    {pns : Option Str} {ns : List Inst} {ms : List (Str × J)}, ietfKids o pns kids ns = .ok ms →
    WrittenItems true pns kids (ietfItems o pns kids ns) ms ∧ (ietfItems o pns kids ns).isEmpty = ms.isEmpty := by
  intro kids
  induction kids with
  | nil =>
    intro _ pns ns ms h
    simp [ietfKids] at h
    subst h
    simp [ietfItems]
    exact .nil _ _
  | cons k ks ih =>
    intro hk pns ns ms h
    cases ns with
    | nil =>
      simp [ietfKids] at h
      subst h
      simp [ietfItems]
      exact writtenItems_nil _ _ _
    | cons n ns =>
      simp only [ietfKids] at h
      cases hr : ietfKids o pns ks ns with
      | error e => cases hn : ietfNode o k.1 k.2 n with
        | error e => simp [hn, hr] at h
        | ok x => cases x <;> simp [hn, hr] at h
      | ok rest =>
        obtain ⟨i1, i2⟩ := ih (fun k hm => hk k (by simp [hm])) hr
        cases hn : ietfNode o k.1 k.2 n with
        | error e => simp [hn] at h
        | ok x =>
          rcases hk k (by simp) n x hn with ⟨ht, rfl⟩ | ⟨t, j, ht, rfl, hw⟩
          · simp [hn, hr] at h
            subst h
            simp only [ietfItems, ht]
            exact ⟨.skip _ _ _ _ _ _ i1, i2⟩
          · simp [hn, hr] at h
            subst h
            simp only [ietfItems, ht]
            exact ⟨.take _ _ _ _ _ _ _ _ _ rfl hw i1, rfl⟩

theorem ietf_written {o : DumpOpt} (S : Schema) : ∀ (m : Meta) (n : Inst) x, ietfNode o m S n = .ok x →
    (ietfTree o m S n = none ∧ x = none) ∨ ∃ t j, ietfTree o m S n = some t ∧ x = some j ∧ Written true m S t j := by
  induction S using Schema.ind with
  | hleaf L =>
    intro m n x h
    cases n with
    | leaf v ch =>
      simp only [ietfNode, ietfTree] at h ⊢
      split at h
      · rename_i hc
        cases hs : serLeaf true m.module_ L v with
        | error e => simp [hs, Except.map] at h
        | ok j =>
          simp [hs, Except.map] at h
          subst h
          exact .inr ⟨_, _, by simp [hc], rfl, .leaf _ _ _ _ _ hs⟩
      · rename_i hc
        simp at h
        exact .inl ⟨by simp [hc], h.symm⟩
    | _ => simp [ietfNode] at h; exact .inl ⟨by simp [ietfTree], h.symm⟩
  | hll L =>
    intro m n x h
    cases n with
    | leafList vs ch =>
      simp only [ietfNode, ietfTree] at h ⊢
      split at h
      · rename_i hc
        cases hs : vs.mapM (serElem true m.module_ L) with
        | error e => simp [hs, Except.map] at h
        | ok js =>
          simp [hs, Except.map] at h
          subst h
          exact .inr ⟨_, _, by simp [hc], rfl, .vals _ _ _ _ _ (pairs_mapM hs)⟩
      · rename_i hc
        simp at h
        exact .inl ⟨by simp [hc], h.symm⟩
    | _ => simp [ietfNode] at h; exact .inl ⟨by simp [ietfTree], h.symm⟩
  | hcont pres kids ih =>
    intro m n x h
    cases n with
    | cont ch pr ns =>
      simp only [ietfNode, ietfTree] at h ⊢
      cases hk : ietfKids o (some m.ns) kids ns with
      | error e => simp [hk] at h
      | ok ms =>
        obtain ⟨i1, i2⟩ := ietf_items (fun k hm => ih k hm k.1) hk
        rw [hk] at h
        simp only [Except.ok.injEq] at h
        rw [i2]
        split at h
        · rename_i hc
          exact .inl ⟨by simp [hc], h.symm⟩
        · rename_i hc
          exact .inr ⟨_, _, by simp [hc], h.symm, .cont _ _ _ _ _ _ i1⟩
    | _ => simp [ietfNode] at h; exact .inl ⟨by simp [ietfTree], h.symm⟩
  | hlist info kids ih =>
    intro m n x h
    cases n with
    | list ch es =>
      simp only [ietfNode, ietfTree] at h ⊢
      have : ∀ (es : List (PyVal × Inst)) (js : List J), es.mapM (fun q => (ietfKids o (some m.ns) kids q.2.kids).map J.obj) = .ok js →
          WrittenArray (some m.ns) kids (es.map fun q => .dict (ietfItems o (some m.ns) kids q.2.kids)) js ∧ es.isEmpty = js.isEmpty := by
        intro es
        induction es with
        | nil => intro js h; simp [pure, Except.pure] at h; subst h; exact ⟨.nil _ _, rfl⟩
        | cons q es ihe =>
          intro js h
          rw [List.mapM_cons] at h
          cases hk : ietfKids o (some m.ns) kids q.2.kids with
          | error e => simp [hk, bind, Except.bind, Except.map] at h
          | ok ms =>
            have hk' : (ietfKids o (some m.ns) kids q.2.kids).map J.obj = .ok (.obj ms) := by rw [hk]; rfl
            cases hl : es.mapM (fun q => (ietfKids o (some m.ns) kids q.2.kids).map J.obj) with
            | error e => simp [hk', hl, bind, Except.bind] at h
            | ok bs =>
              simp [hk', hl, bind, Except.bind, pure, Except.pure] at h
              subst h
              exact ⟨.cons _ _ _ _ _ _ (ietf_items (fun k hm => ih k hm k.1) hk).1 (ihe _ hl).1, rfl⟩
      cases hm : es.mapM (fun q => (ietfKids o (some m.ns) kids q.2.kids).map J.obj) with
      | error e => simp [hm] at h
      | ok js =>
        obtain ⟨i1, i2⟩ := this es js hm
        rw [hm] at h
        simp only [Except.ok.injEq] at h
        rw [i2]
        split at h
        · rename_i hc
          exact .inl ⟨by simp [hc], h.symm⟩
        · rename_i hc
          exact .inr ⟨_, _, by simp [hc], h.symm, .array _ _ _ _ _ i1⟩
    | _ => simp [ietfNode] at h; exact .inl ⟨by simp [ietfTree], h.symm⟩

/-! Native mode. -/

theorem native_items : ∀ {kids : List (Meta × Schema)} (_ : ∀ k ∈ kids, ∀ n x, nativeNode k.2 n = .ok x →
      (keepItem true k.2 n (getNode true k.2 n) = false ∧ x = none) ∨
        ∃ j, keepItem true k.2 n (getNode true k.2 n) = true ∧ x = some j ∧ Written false k.1 k.2 (treeOf (getNode true k.2 n)) j)
    {pns : Option Str} {ns : List Inst} {ms : List (Str × J)}, nativeKids kids ns = .ok ms →
    WrittenItems false pns kids (treeItems (getKids true kids ns)) ms ∧ (getKids true kids ns).isEmpty = ms.isEmpty := by
  intro kids
  induction kids with
  | nil =>
    intro _ pns ns ms h
    simp [nativeKids] at h
    subst h
    simp [getKids, treeItems]
    exact .nil _ _
  | cons k ks ih =>
    intro hk pns ns ms h
    cases ns with
    | nil =>
      simp [nativeKids] at h
      subst h
      simp [getKids, treeItems]
      exact writtenItems_nil _ _ _
    | cons n ns =>
      simp only [nativeKids] at h
      cases hr : nativeKids ks ns with
      | error e => cases hn : nativeNode k.2 n with
        | error e => simp [hn, hr] at h
        | ok x => cases x <;> simp [hn, hr] at h
      | ok rest =>
        obtain ⟨i1, i2⟩ := ih (pns := pns) (fun k hm => hk k (by simp [hm])) hr
        cases hn : nativeNode k.2 n with
        | error e => simp [hn] at h
        | ok x =>
          rcases hk k (by simp) n x hn with ⟨ht, rfl⟩ | ⟨j, ht, rfl, hw⟩
          · simp [hn, hr] at h
            subst h
            simp only [getKids, ht]
            exact ⟨.skip _ _ _ _ _ _ i1, i2⟩
          · simp [hn, hr] at h
            subst h
            simp only [getKids, ht, if_true, treeItems]
            exact ⟨.take _ _ _ _ _ _ _ _ _ rfl hw i1, rfl⟩

theorem native_written (S : Schema) : ∀ (m : Meta) (n : Inst) x, nativeNode S n = .ok x →
    (keepItem true S n (getNode true S n) = false ∧ x = none) ∨
      ∃ j, keepItem true S n (getNode true S n) = true ∧ x = some j ∧ Written false m S (treeOf (getNode true S n)) j := by
  induction S using Schema.ind with
  | hleaf L =>
    intro m n x h
    cases n with
    | leaf v ch =>
      simp only [nativeNode, getNode, keepItem, Bool.not_true, Bool.false_or, Bool.false_and, Bool.false_eq_true, if_false] at h ⊢
      cases ch with
      | false => simp at h; exact .inl ⟨rfl, h.symm⟩
      | true =>
        cases hs : serLeaf false [] L v with
        | error e => simp [hs, Except.map] at h
        | ok j =>
          simp [hs, Except.map] at h
          subst h
          exact .inr ⟨_, rfl, rfl, .leaf _ _ _ _ _ hs⟩
    | _ => simp [nativeNode] at h; exact .inl ⟨by simp [keepItem], h.symm⟩
  | hll L =>
    intro m n x h
    cases n with
    | leafList vs ch =>
      simp only [nativeNode, getNode, keepItem, Bool.not_true, Bool.false_or] at h ⊢
      cases he : vs.isEmpty with
      | true => simp [he] at h; exact .inl ⟨rfl, h.symm⟩
      | false =>
        simp only [he] at h
        cases hs : vs.mapM (serElem false [] L) with
        | error e => simp [hs, Except.map] at h
        | ok js =>
          simp [hs, Except.map] at h
          subst h
          exact .inr ⟨_, rfl, rfl, .vals _ _ _ _ _ (pairs_mapM hs)⟩
    | _ => simp [nativeNode] at h; exact .inl ⟨by simp [keepItem], h.symm⟩
  | hcont pres kids ih =>
    intro m n x h
    cases n with
    | cont ch pr ns =>
      simp only [nativeNode, getNode, keepItem, Inst.kids, Bool.not_true, Bool.false_or] at h ⊢
      cases hk : nativeKids kids ns with
      | error e => simp [hk] at h
      | ok ms =>
        obtain ⟨i1, i2⟩ := native_items (pns := some m.ns) (fun k hm => ih k hm k.1) hk
        rw [hk] at h
        simp only [Except.ok.injEq] at h
        rw [i2]
        split at h
        · rename_i hc
          refine .inl ⟨?_, h.symm⟩
          revert hc
          cases ms.isEmpty <;> cases pres <;> cases pr <;> decide
        · rename_i hc
          refine .inr ⟨_, ?_, h.symm, ?_⟩
          · simp only [Bool.and_eq_true, Bool.not_eq_true', not_and, Bool.not_eq_false] at hc
            cases hme : ms.isEmpty with
            | false => simp
            | true => simpa using hc hme
          · exact .cont _ _ _ _ _ _ i1
    | _ => simp [nativeNode] at h; exact .inl ⟨by simp [keepItem], h.symm⟩
  | hlist info kids ih =>
    intro m n x h
    cases n with
    | list ch es =>
      simp only [nativeNode, getNode, keepItem, Bool.not_true, Bool.false_or, List.isEmpty_map] at h ⊢
      have : ∀ (es : List (PyVal × Inst)) (i : Nat) (ms : List (Str × J)), nativeEntries info.ordered i (es.map fun q => (q.1, nativeKids kids q.2.kids)) = .ok ms →
          WrittenEntries info.ordered kids i (treeEntries (es.map fun q => (q.1, .dict (getKids true kids q.2.kids)))) ms := by
        intro es
        induction es with
        | nil => intro i ms h; simp [nativeEntries] at h; subst h; exact .nil _ _ _
        | cons q es ihe =>
          intro i ms h
          simp only [List.map_cons, nativeEntries] at h
          cases hj : jsonKey q.1 with
          | error e => simp [hj] at h
          | ok s =>
            cases hk : nativeKids kids q.2.kids with
            | error e => simp [hj, hk] at h
            | ok xs =>
              cases hl : nativeEntries info.ordered (i + 1) (es.map fun q => (q.1, nativeKids kids q.2.kids)) with
              | error e => simp [hj, hk, hl] at h
              | ok bs =>
                simp only [hj, hk, hl, Except.ok.injEq] at h
                subst h
                have e : (if info.ordered = true then xs ++ [(yangOrder, J.num i)] else xs) = xs ++ if info.ordered then [(yangOrder, .num i)] else [] := by
                  split <;> simp
                rw [e]
                exact .cons _ _ _ _ _ _ _ _ _ hj (native_items (fun k hm => ih k hm k.1) hk).1 (ihe _ _ hl)
      cases he : es.isEmpty with
      | true => simp [he] at h; exact .inl ⟨rfl, h.symm⟩
      | false =>
        simp only [he] at h
        cases hm : nativeEntries info.ordered 0 (es.map fun q => (q.1, nativeKids kids q.2.kids)) with
        | error e => simp [hm, Except.map] at h
        | ok js =>
          simp [hm, Except.map] at h
          subst h
          exact .inr ⟨_, rfl, rfl, .object _ _ _ _ _ (this es 0 js hm)⟩
    | _ => simp [nativeNode] at h; exact .inl ⟨by simp [keepItem], h.symm⟩

end Pyb
