import Verif.Spec.JsonDoc
import Verif.Lemmas.IetfList

namespace Pyb
open Py Spec

theorem ietfName_rfc (pm : Option Meta) (m : Meta) : ietfName (pm.map Meta.ns) m = rfcName pm m := by
  cases pm with
  | none => simp [ietfName, rfcName]
  | some p =>
    simp only [ietfName, rfcName, Option.map_some, Option.some.injEq]
    by_cases h : p.ns = m.ns
    · rw [if_pos h.symm, if_pos h]
    · rw [if_neg (fun e => h e.symm), if_neg h]; simp

theorem allNames_kid {kids : List (Meta × Schema)} (h : AllNamesKids kids) {k : Meta × Schema} (hk : k ∈ kids) : AllNames k.2 := by
  induction kids with
  | nil => simp at hk
  | cons a ks ih =>
    simp only [AllNamesKids] at h
    rcases List.mem_cons.1 hk with rfl | hk
    · exact h.1
    · exact ih h.2 hk

/-- What is written for an object, whether or not it is included. -/
inductive Emits (o : DumpOpt) (pm : Option Meta) : Schema → Inst → J → Prop where
  | leaf {L v ch m j} : pm = some m → serLeaf true m.module_ L v = .ok j → Emits o pm (.leaf L) (.leaf v ch) j
  | leafList {L vs ch m xs} : pm = some m → vs.mapM (serElem true m.module_ L) = .ok xs → Emits o pm (.leafList L) (.leafList vs ch) (.arr xs)
  | cont {pres kids n ms} : ietfKids o (pm.map Meta.ns) kids n.kids = .ok ms → Emits o pm (.cont pres kids) n (.obj ms)
  | list {info kids ch es xs} :
      (es.mapM fun q => (ietfKids o (pm.map Meta.ns) kids q.2.kids).map J.obj) = .ok xs → Emits o pm (.list info kids) (.list ch es) (.arr xs)

theorem mapM_len {α β ε} {f : α → Except ε β} : ∀ {l : List α} {r : List β}, l.mapM f = .ok r → r.length = l.length ∧
    ∀ (i : Nat) a, l[i]? = some a → ∃ b, r[i]? = some b ∧ f a = .ok b := by
  intro l
  induction l with
  | nil => intro r h; simp [pure, Except.pure] at h; subst h; simp
  | cons a l ih =>
    intro r h
    simp only [List.mapM_cons, bind_ok] at h
    obtain ⟨b, h1, bs, h2, h3⟩ := h
    simp only [pure, Except.pure, Except.ok.injEq] at h3
    subst h3
    obtain ⟨i1, i2⟩ := ih h2
    refine ⟨by simp [i1], ?_⟩
    intro i x hx
    cases i with
    | zero => simp at hx; subst hx; exact ⟨b, rfl, h1⟩
    | succ i => simpa using i2 i x (by simpa using hx)

theorem ietfKids_absent {o : DumpOpt} {pns : Option Str} {ks : List (Meta × Schema)} {ns : List Inst} {ms : List (Str × J)}
    (h : ietfKids o pns ks ns = .ok ms) {i : Nat} {k : Meta × Schema} {n : Inst} (hk : ks[i]? = some k) (hn : ns[i]? = some n) :
    ∃ r, ietfNode o k.1 k.2 n = .ok r := by
  induction ks generalizing ns ms i with
  | nil => simp at hk
  | cons k' ks ih =>
    cases ns with
    | nil => simp at hn
    | cons n' ns =>
      simp only [ietfKids] at h
      cases h1 : ietfNode o k'.1 k'.2 n' with
      | error e => simp [h1] at h
      | ok r =>
        cases h2 : ietfKids o pns ks ns with
        | error e => cases r <;> simp [h1, h2] at h
        | ok ms' =>
          cases i with
          | zero => simp at hk hn; subst hk hn; exact ⟨r, h1⟩
          | succ i => exact ih h2 (by simpa using hk) (by simpa using hn)

/-- A child is written, if it is shown. -/
theorem ietfNode_incl {o : DumpOpt} {m : Meta} : ∀ {S : Schema} {n : Inst} {r : Option J}, ietfNode o m S n = .ok r →
    ((∃ j, r = some j) ↔ Incl (leafIncluded o) (llIncluded o) S n) ∧ ∀ j, r = some j → Emits o (some m) S n j := by
  intro S
  induction S using Schema.ind generalizing m with
  | hleaf L =>
    intro n r h
    cases n with
    | leaf v ch =>
      simp only [ietfNode] at h
      cases hi : leafIncluded o L v ch with
      | false =>
        simp [hi] at h
        subst h
        exact ⟨⟨by simp, fun h => by cases h with | leaf h => rw [hi] at h; simp at h⟩, by simp⟩
      | true =>
        simp only [hi] at h
        cases hs : serLeaf true m.module_ L v with
        | error e => simp [hs, Except.map] at h
        | ok j =>
          simp [hs, Except.map] at h
          subst h
          exact ⟨⟨fun _ => .leaf hi, fun _ => ⟨j, rfl⟩⟩, by rintro _ ⟨⟩; exact .leaf rfl hs⟩
    | _ =>
      simp [ietfNode] at h
      subst h
      exact ⟨⟨by simp, fun h => by cases h⟩, by simp⟩
  | hll L =>
    intro n r h
    cases n with
    | leafList v ch =>
      simp only [ietfNode] at h
      cases hi : llIncluded o ch with
      | false =>
        simp [hi] at h
        subst h
        exact ⟨⟨by simp, fun h => by cases h with | leafList h => rw [hi] at h; simp at h⟩, by simp⟩
      | true =>
        simp only [hi] at h
        cases hs : v.mapM (serElem true m.module_ L) with
        | error e => simp [hs, Except.map] at h
        | ok j =>
          simp [hs, Except.map] at h
          subst h
          exact ⟨⟨fun _ => .leafList hi, fun _ => ⟨_, rfl⟩⟩, by rintro _ ⟨⟩; exact .leafList rfl hs⟩
    | _ =>
      simp [ietfNode] at h
      subst h
      exact ⟨⟨by simp, fun h => by cases h⟩, by simp⟩
  | hcont pres kids ih =>
    intro n r h
    cases n with
    | cont ch pr ns =>
      simp only [ietfNode] at h
      cases hk : ietfKids o (some m.ns) kids ns with
      | error e => simp [hk] at h
      | ok ms =>
        simp only [hk, Except.ok.injEq] at h
        have hms : ms ≠ [] ↔ ∃ (i : Nat) (k : Meta × Schema) (c : Inst), kids[i]? = some k ∧ ns[i]? = some c ∧ Incl (leafIncluded o) (llIncluded o) k.2 c := by
          constructor
          · intro hne
            cases ms with
            | nil => simp at hne
            | cons x ms =>
              obtain ⟨i, k, c, a, b, _, d⟩ := ietfKids_sub hk (x := x) (by simp)
              exact ⟨i, k, c, a, b, (ih k (List.mem_of_getElem? a) d).1.1 ⟨_, rfl⟩⟩
          · rintro ⟨i, k, c, a, b, hs⟩ rfl
            obtain ⟨r', hr⟩ := ietfKids_absent hk a b
            obtain ⟨j, rfl⟩ := (ih k (List.mem_of_getElem? a) hr).1.2 hs
            have : ∀ {ks : List (Meta × Schema)} {ns : List Inst} {i : Nat}, ietfKids o (some m.ns) ks ns = .ok [] → ks[i]? = some k →
                ns[i]? = some c → False := by
              intro ks
              induction ks with
              | nil => intro ns i _ a; simp at a
              | cons k' ks ih =>
                intro ns i hk a b
                cases ns with
                | nil => simp at b
                | cons c' ns =>
                  simp only [ietfKids] at hk
                  cases h1 : ietfNode o k'.1 k'.2 c' with
                  | error e => simp [h1] at hk
                  | ok r =>
                    cases h2 : ietfKids o (some m.ns) ks ns with
                    | error e => cases r <;> simp [h1, h2] at hk
                    | ok ms' =>
                      cases r with
                      | some j => simp [h1, h2] at hk
                      | none =>
                        simp [h1, h2] at hk
                        subst hk
                        cases i with
                        | zero => simp at a b; subst a b; rw [hr] at h1; simp at h1
                        | succ i => exact ih h2 (by simpa using a) (by simpa using b)
            exact this hk a b
        have hsh : Incl (leafIncluded o) (llIncluded o) (.cont pres kids) (.cont ch pr ns) ↔ pr = true ∨ ms ≠ [] := by
          rw [hms]
          constructor
          · intro h
            cases h with
            | present => exact .inl rfl
            | child a b c => exact .inr ⟨_, _, _, a, b, c⟩
          · rintro (rfl | ⟨_, _, _, a, b, c⟩)
            · exact .present
            · exact .child a b c
        rw [hsh]
        subst h
        have hkk : ietfKids o (Option.map Meta.ns (some m)) kids (Inst.cont ch pr ns).kids = .ok ms := hk
        cases ms with
        | nil =>
          cases pr with
          | false => simp
          | true => simpa using Emits.cont hkk
        | cons x ms => simpa using Emits.cont hkk
    | _ =>
      simp [ietfNode] at h
      subst h
      exact ⟨⟨by simp, fun h => by cases h⟩, by simp⟩
  | hlist info kids ih =>
    intro n r h
    cases n with
    | list ch es =>
      simp only [ietfNode] at h
      cases hk : es.mapM fun q => (ietfKids o (some m.ns) kids q.2.kids).map J.obj with
      | error e => simp [hk] at h
      | ok xs =>
        simp only [hk, Except.ok.injEq] at h
        have hl := (mapM_len hk).1
        have hsh : Incl (leafIncluded o) (llIncluded o) (.list info kids) (.list ch es) ↔ xs ≠ [] := by
          constructor
          · intro h
            cases h with
            | list h' => intro e; subst e; exact h' (List.length_eq_zero_iff.1 hl.symm)
          · intro h
            exact .list (by intro e; subst e; exact h (List.length_eq_zero_iff.1 hl))
        rw [hsh]
        subst h
        have hkk : (es.mapM fun q => (ietfKids o (Option.map Meta.ns (some m)) kids q.2.kids).map J.obj) = .ok xs := hk
        cases xs with
        | nil => simp
        | cons x xs => simpa using Emits.list hkk
    | _ =>
      simp [ietfNode] at h
      subst h
      exact ⟨⟨by simp, fun h => by cases h⟩, by simp⟩

/-- A member that is not written is not found. -/
theorem ietfKids_none {o : DumpOpt} {pns : Option Str} {ks : List (Meta × Schema)} {ns : List Inst} {ms : List (Str × J)}
    (h : ietfKids o pns ks ns = .ok ms) (hd : (ks.map fun k => ietfName pns k.1).Nodup) {i : Nat} {k : Meta × Schema}
    (hk : ks[i]? = some k) (hn : ∀ n, ns[i]? = some n → ietfNode o k.1 k.2 n = .ok none) :
    jget ms (ietfName pns k.1) = none := by
  rw [jget, List.lookup_eq_none_iff]
  intro x hx
  simp only [bne_iff_ne, ne_eq]
  intro e
  obtain ⟨j, k', n, a, b, c, d⟩ := ietfKids_sub h hx
  rw [c] at e
  have hj : j < (ks.map fun k => ietfName pns k.1).length := by
    simpa using (List.getElem?_eq_some_iff.1 a).1
  have hi : i < (ks.map fun k => ietfName pns k.1).length := by
    simpa using (List.getElem?_eq_some_iff.1 hk).1
  have hij : i = j := by
    apply (List.getElem_inj (h₀ := hi) (h₁ := hj) hd).1
    simp [(List.getElem?_eq_some_iff.1 a).2, (List.getElem?_eq_some_iff.1 hk).2, e]
  subst hij
  rw [hk] at a
  simp at a; subst a
  rw [hn n b] at d
  simp at d

theorem endsInChild_cons {s : Pos} {p : List Pos} (hp : p ≠ []) : EndsInChild (s :: p) ↔ EndsInChild p := by
  cases p with
  | nil => exact absurd rfl hp
  | cons a p => simp [EndsInChild]

/-- An object shown below is a reason to show those above. -/
theorem incl_above {o : DumpOpt} {p : List Pos} : ∀ {pm : Option Meta} {S : Schema} {n : Inst} {r}, treeAt pm S n p = some r →
    (EndsInChild p → Incl (leafIncluded o) (llIncluded o) r.2.1 r.2.2) → p ≠ [] → Incl (leafIncluded o) (llIncluded o) S n := by
  induction p with
  | nil => intro _ _ _ _ _ _ h; exact absurd rfl h
  | cons s p ih =>
    intro pm S n r ht hs hne
    clear hne
    cases S <;> cases n <;> cases s <;> simp only [treeAt, reduceCtorEq] at ht
    · rename_i pres kids ch pr ns i
      cases hk : kids[i]? with
      | none => simp [hk] at ht
      | some k =>
        cases hc : ns[i]? with
        | none => simp [hk, hc] at ht
        | some c =>
          simp only [hk, hc] at ht
          refine .child hk hc ?_
          by_cases hp : p = []
          · subst hp
            have : r = (some k.1, k.2, c) := by cases k with | mk a b => cases b <;> cases c <;> simpa [treeAt] using ht.symm
            subst this
            exact hs ⟨i, rfl⟩
          · exact ih ht (fun h => hs ((endsInChild_cons hp).2 h)) hp
    · rename_i info kids ch es i
      exact .list (by intro e; subst e; simp at ht)

theorem treeAt_nil {pm : Option Meta} {S : Schema} {n : Inst} : treeAt pm S n [] = some (pm, S, n) := by
  cases S <;> cases n <;> rfl

theorem docAt_nil {pm : Option Meta} {S : Schema} {j : J} : docAt pm S j [] = some j := by
  cases S <;> cases j <;> rfl

/-- What is found in the document, and what is in the tree. -/
theorem docAt_incl {o : DumpOpt} {p : List Pos} : ∀ {pm : Option Meta} {S : Schema} {n : Inst} {j : J}, AllNames S → Emits o pm S n j →
    (∀ x, docAt pm S j p = some x → ∃ r, treeAt pm S n p = some r ∧ Emits o r.1 r.2.1 r.2.2 x ∧ (EndsInChild p → Incl (leafIncluded o) (llIncluded o) r.2.1 r.2.2)) ∧
    (∀ r, treeAt pm S n p = some r → (EndsInChild p → Incl (leafIncluded o) (llIncluded o) r.2.1 r.2.2) → ∃ x, docAt pm S j p = some x) := by
  induction p with
  | nil =>
    intro pm S n j _ he
    refine ⟨?_, ?_⟩
    · intro x hx
      rw [docAt_nil] at hx
      simp at hx; subst hx
      exact ⟨_, treeAt_nil, he, by rintro ⟨i, h⟩; simp at h⟩
    · intro r _ _
      exact ⟨_, docAt_nil⟩
  | cons s p ih =>
    intro pm S n j hn he
    have hself : ∀ {pm : Option Meta} {S : Schema} {n : Inst} {r}, p = [] → treeAt pm S n p = some r → r = (pm, S, n) := by
      intro pm S n r hp h; subst hp; rw [treeAt_nil] at h; simpa using h.symm
    cases he with
    | leaf => cases s <;> simp [docAt, treeAt]
    | leafList => cases s <;> simp [docAt, treeAt]
    | @cont pres kids n ms hk =>
      simp only [AllNames] at hn
      have hcont : (∃ ch pr ns, n = .cont ch pr ns) ∨ (n.kids = [] ∧ ∀ i, treeAt pm (.cont pres kids) n (.child i :: p) = none) := by
        cases n with
        | cont ch pr ns => exact .inl ⟨_, _, _, rfl⟩
        | _ => exact .inr ⟨rfl, fun i => rfl⟩
      rcases hcont with ⟨ch, pr, ns, rfl⟩ | ⟨hk0, ht⟩
      rotate_left
      · rw [hk0] at hk
        have : ms = [] := by cases kids <;> simpa [ietfKids] using hk.symm
        subst this
        cases s with
        | elem i => simp [docAt, treeAt]
        | child i =>
          refine ⟨?_, by simp [ht]⟩
          intro x hx
          simp only [docAt, jget, List.lookup_nil] at hx
          split at hx <;> simp at hx
      simp only [Inst.kids] at hk
      have hnd := ietfName_inj (pns := pm.map Meta.ns) hn.1
      cases s with
      | elem i => simp [docAt, treeAt]
      | child i =>
        simp only [docAt, treeAt]
        cases hki : kids[i]? with
        | none => simp
        | some k =>
          have hnk := allNames_kid hn.2 (List.mem_of_getElem? hki)
          simp only [← ietfName_rfc]
          cases hci : ns[i]? with
          | none =>
            rw [ietfKids_none hk hnd hki (by simp [hci])]
            simp
          | some c =>
            simp only
            obtain ⟨r0, hr0⟩ := ietfKids_absent hk hki hci
            obtain ⟨hsh, hem⟩ := ietfNode_incl hr0
            cases r0 with
            | none =>
              rw [ietfKids_none hk hnd hki (by intro n h; rw [hci] at h; simp at h; subst h; exact hr0)]
              refine ⟨by simp, ?_⟩
              intro r hr hs
              have hns : ¬ Incl (leafIncluded o) (llIncluded o) k.2 c := fun h => by obtain ⟨j, h⟩ := hsh.2 h; simp at h
              by_cases hp : p = []
              · have := hself hp hr
                subst this; subst hp
                exact absurd (hs ⟨i, rfl⟩) hns
              · exact absurd (incl_above hr (fun h => hs ((endsInChild_cons hp).2 h)) hp) hns
            | some j =>
              rw [ietfKids_lookup hk hnd hki hci hr0]
              obtain ⟨i1, i2⟩ := ih (pm := some k.1) hnk (hem j rfl)
              refine ⟨?_, ?_⟩
              · intro x hx
                obtain ⟨r, a, b, cc⟩ := i1 x hx
                refine ⟨r, a, b, ?_⟩
                intro hend
                by_cases hp : p = []
                · have := hself hp a
                  subst this
                  exact hsh.1 ⟨j, rfl⟩
                · exact cc ((endsInChild_cons hp).1 hend)
              · intro r hr hs
                refine i2 r hr ?_
                intro hend
                by_cases hp : p = []
                · subst hp; obtain ⟨_, h⟩ := hend; simp at h
                · exact hs ((endsInChild_cons hp).2 hend)
    | @list info kids ch es xs hm =>
      simp only [AllNames] at hn
      obtain ⟨hl, hget⟩ := mapM_len hm
      cases s with
      | child i => simp [docAt, treeAt]
      | elem i =>
        simp only [docAt, treeAt]
        cases hei : es[i]? with
        | none =>
          have : xs[i]? = none := by
            rw [List.getElem?_eq_none_iff] at hei ⊢; omega
          simp [this]
        | some q =>
          obtain ⟨j, hj, hq⟩ := hget i q hei
          simp only [hj]
          cases hkk : ietfKids o (pm.map Meta.ns) kids q.2.kids with
          | error e => simp [hkk, Except.map] at hq
          | ok ms =>
            simp [hkk, Except.map] at hq
            subst hq
            have hend : ∀ (P : Prop), (EndsInChild (.elem i :: p) → P) ↔ (EndsInChild p → P) := by
              intro P
              by_cases hp : p = []
              · subst hp; simp [EndsInChild]
              · rw [endsInChild_cons hp]
            simp only [hend]
            exact ih (S := .cont false kids) hn (.cont hkk)

theorem incl_shown {S : Schema} {n : Inst} : Incl (leafIncluded {}) (llIncluded {}) S n ↔ Shown S n := by
  constructor
  · intro h
    induction h with
    | @leaf L v ch h =>
      cases ch with
      | false => simp [leafIncluded] at h
      | true => exact .leaf
    | @leafList L vs ch h =>
      cases ch with
      | false => simp [llIncluded] at h
      | true => exact .leafList
    | list h => exact .list h
    | present => exact .present
    | child a b _ ih => exact .child a b ih
  · intro h
    induction h with
    | leaf => exact .leaf rfl
    | leafList => exact .leafList rfl
    | list h => exact .list h
    | present => exact .present
    | child a b _ ih => exact .child a b ih

/-- A child is written, if it is shown. -/
theorem ietfNode_shown {m : Meta} {S : Schema} {n : Inst} {r : Option J} (h : ietfNode {} m S n = .ok r) :
    ((∃ j, r = some j) ↔ Shown S n) ∧ ∀ j, r = some j → Emits {} (some m) S n j := by
  rw [← incl_shown]
  exact ietfNode_incl h

theorem docAt_emits {p : List Pos} {pm : Option Meta} {S : Schema} {n : Inst} {j : J} (hn : AllNames S) (h : Emits {} pm S n j) :
    (∀ x, docAt pm S j p = some x → ∃ r, treeAt pm S n p = some r ∧ Emits {} r.1 r.2.1 r.2.2 x ∧ (EndsInChild p → Shown r.2.1 r.2.2)) ∧
    (∀ r, treeAt pm S n p = some r → (EndsInChild p → Shown r.2.1 r.2.2) → ∃ x, docAt pm S j p = some x) := by
  simp only [← incl_shown]
  exact docAt_incl hn h

/-- Anything but a container is reached as a child. -/
theorem treeAt_ends {p : List Pos} : ∀ {pm : Option Meta} {S : Schema} {n : Inst} {r}, treeAt pm S n p = some r → p ≠ [] →
    EndsInChild p ∨ ∃ kids, r.2.1 = .cont false kids := by
  induction p with
  | nil => intro _ _ _ _ _ h; exact absurd rfl h
  | cons s p ih =>
    intro pm S n r ht hne
    clear hne
    by_cases hp : p = []
    · subst hp
      cases s with
      | child i => exact .inl ⟨i, rfl⟩
      | elem i =>
        right
        cases S <;> cases n <;> simp only [treeAt, reduceCtorEq] at ht
        rename_i info kids ch es
        cases hi : es[i]? with
        | none => simp [hi] at ht
        | some q => simp [hi] at ht; subst ht; exact ⟨kids, rfl⟩
    · rw [endsInChild_cons hp]
      cases S <;> cases n <;> cases s <;> simp only [treeAt, reduceCtorEq] at ht
      · split at ht
        · exact ih ht hp
        · simp at ht
      · split at ht
        · exact ih ht hp
        · simp at ht

theorem allNames_treeAt {p : List Pos} : ∀ {pm pm' : Option Meta} {S : Schema} {n n' : Inst} {pres : Bool} {kids : List (Meta × Schema)},
    AllNames S → treeAt pm S n p = some (pm', .cont pres kids, n') → GoodNames kids := by
  induction p with
  | nil =>
    intro pm pm' S n n' pres kids hn ht
    rw [treeAt_nil] at ht
    simp at ht
    obtain ⟨_, rfl, _⟩ := ht
    exact hn.1
  | cons s p ih =>
    intro pm pm' S n n' pres kids hn ht
    cases S <;> cases n <;> cases s <;> simp only [treeAt, reduceCtorEq] at ht
    · split at ht
      · rename_i hk _
        exact ih (allNames_kid hn.2 (List.mem_of_getElem? hk)) ht
      · simp at ht
    · split at ht
      · exact ih (S := .cont false _) hn ht
      · simp at ht

/-- The names of the members are a selection of those of the children. -/
theorem ietfKids_names {o : DumpOpt} {pns : Option Str} {ks : List (Meta × Schema)} {ns : List Inst} {ms : List (Str × J)}
    (h : ietfKids o pns ks ns = .ok ms) : (ms.map Prod.fst).Sublist (ks.map fun k => ietfName pns k.1) := by
  induction ks generalizing ns ms with
  | nil => simp [ietfKids] at h; subst h; simp
  | cons k ks ih =>
    cases ns with
    | nil => simp [ietfKids] at h; subst h; simp
    | cons n ns =>
      simp only [ietfKids] at h
      cases h1 : ietfNode o k.1 k.2 n with
      | error e => simp [h1] at h
      | ok r =>
        cases h2 : ietfKids o pns ks ns with
        | error e => cases r <;> simp [h1, h2] at h
        | ok ms' =>
          cases r with
          | none => simp [h1, h2] at h; subst h; exact (ih h2).cons _
          | some j =>
            simp [h1, h2] at h
            subst h
            exact (ih h2).cons_cons _

end Pyb
