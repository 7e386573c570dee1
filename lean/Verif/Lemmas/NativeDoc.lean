import Verif.Spec.NativeDoc
import Verif.Lemmas.JsonDoc
import Verif.Lemmas.NativeOrder
import Verif.Lemmas.NativeTypes

namespace Pyb
open Py Spec

theorem name_inj {kids : List (Meta × Schema)} (h : GoodNames kids) : (kids.map fun k => k.1.name).Nodup := by
  have e : (kids.map fun k => safeName k.1.name) = (kids.map fun k => k.1.name).map safeName := by simp
  have h2 := h.2
  rw [e] at h2
  exact List.Pairwise.of_map _ (fun _ _ h1 h2 => h1 (by rw [h2])) h2

theorem memberText_jsonKey {k : PyVal} {s : Str} : jsonKey k = .ok s ↔ memberText k = some s := by
  cases k with
  | bool b => cases b <;> simp [jsonKey, memberText]
  | obj o => cases o <;> simp [jsonKey, memberText]
  | _ => simp [jsonKey, memberText]

theorem noOrder_kid {kids : List (Meta × Schema)} (h : NoOrderNames kids) {k : Meta × Schema} (hk : k ∈ kids) : NoOrderName k.2 := by
  induction kids with
  | nil => simp at hk
  | cons a ks ih =>
    simp only [NoOrderNames] at h
    rcases List.mem_cons.1 hk with rfl | hk
    · exact h.1
    · exact ih h.2 hk

theorem nKids_absent {ks : List (Meta × Schema)} {ns : List Inst} {ms : List (Str × J)}
    (h : nativeKids ks ns = .ok ms) {i : Nat} {k : Meta × Schema} {n : Inst} (hk : ks[i]? = some k) (hn : ns[i]? = some n) :
    ∃ r, nativeNode k.2 n = .ok r ∧ ∀ j, r = some j → (k.1.name, j) ∈ ms := by
  induction ks generalizing ns ms i with
  | nil => simp at hk
  | cons k' ks ih =>
    cases ns with
    | nil => simp at hn
    | cons n' ns =>
      simp only [nativeKids] at h
      cases h1 : nativeNode k'.2 n' with
      | error e => simp [h1] at h
      | ok r =>
        cases h2 : nativeKids ks ns with
        | error e => cases r <;> simp [h1, h2] at h
        | ok ms' =>
          cases i with
          | zero =>
            simp at hk hn; subst hk hn
            refine ⟨r, h1, ?_⟩
            rintro j rfl
            simp [h1, h2] at h; subst h; simp
          | succ i =>
            obtain ⟨r', a, b⟩ := ih h2 (by simpa using hk) (by simpa using hn)
            refine ⟨r', a, fun j hj => ?_⟩
            have := b j hj
            cases r <;> simp [h1, h2] at h <;> subst h
            · exact this
            · exact List.mem_cons_of_mem _ this

theorem nKids_fst {ks : List (Meta × Schema)} {ns : List Inst} {ms : List (Str × J)}
    (h : nativeKids ks ns = .ok ms) : (ms.map Prod.fst).Sublist (ks.map fun k => k.1.name) := by
  induction ks generalizing ns ms with
  | nil => simp [nativeKids] at h; subst h; simp
  | cons k ks ih =>
    cases ns with
    | nil => simp [nativeKids] at h; subst h; simp
    | cons n ns =>
      simp only [nativeKids] at h
      cases h1 : nativeNode k.2 n with
      | error e => simp [h1] at h
      | ok r =>
        cases h2 : nativeKids ks ns with
        | error e => cases r <;> simp [h1, h2] at h
        | ok ms' =>
          cases r with
          | none => simp [h1, h2] at h; subst h; exact (ih h2).cons _
          | some j => simp [h1, h2] at h; subst h; exact (ih h2).cons_cons _

theorem jget_mem {ms : List (Str × J)} (hd : (ms.map Prod.fst).Nodup) {s : Str} {j : J} (h : (s, j) ∈ ms) : jget ms s = some j := by
  induction ms with
  | nil => simp at h
  | cons m ms ih =>
    simp only [List.map_cons, List.nodup_cons] at hd
    simp only [jget, List.lookup]
    by_cases e : s = m.1
    · subst e
      simp only [beq_self_eq_true]
      rcases List.mem_cons.1 h with h | h
      · rw [← h]
      · exact absurd (List.mem_map_of_mem h) hd.1
    · rw [show (s == m.1) = false by simpa using e]
      refine ih hd.2 ?_
      rcases List.mem_cons.1 h with h | h
      · rw [← h] at e; exact absurd rfl e
      · exact h

theorem jget_sound {ms : List (Str × J)} {s : Str} {j : J} (h : jget ms s = some j) : (s, j) ∈ ms := by
  induction ms with
  | nil => simp [jget] at h
  | cons m ms ih =>
    simp only [jget, List.lookup] at h
    by_cases e : s = m.1
    · subst e; simp at h; subst h; simp
    · rw [show (s == m.1) = false by simpa using e] at h
      exact List.mem_cons_of_mem _ (ih h)

theorem jget_skip {ms ex : List (Str × J)} {s : Str} (h : ∀ x ∈ ex, x.1 ≠ s) : jget (ms ++ ex) s = jget ms s := by
  simp only [jget, List.lookup_append]
  have : ex.lookup s = none := by
    rw [List.lookup_eq_none_iff]
    intro x hx
    simpa using Ne.symm (h x hx)
  simp [this]

/-- What is written for an object, whether or not it is included.  `ex` is the position in
a user-ordered list. -/
inductive NEmits : Schema → Inst → J → Prop where
  | leaf {L v ch j} : serLeaf false [] L v = .ok j → NEmits (.leaf L) (.leaf v ch) j
  | leafList {L vs ch xs} : vs.mapM (serElem false [] L) = .ok xs → NEmits (.leafList L) (.leafList vs ch) (.arr xs)
  | cont {pres kids n ms ex} : nativeKids kids n.kids = .ok ms → (∀ x ∈ ex, x.1 = yangOrder) → ex.length ≤ 1 →
      (ex ≠ [] → ∀ k ∈ kids, k.1.name ≠ yangOrder) → NEmits (.cont pres kids) n (.obj (ms ++ ex))
  | list {info kids ch es ms} : nativeEntries info.ordered 0 (es.map fun q => (q.1, nativeKids kids q.2.kids)) = .ok ms →
      NEmits (.list info kids) (.list ch es) (.obj ms)

theorem nEntries_len {ordered : Bool} : ∀ {es : List (PyVal × Except Err (List (Str × J)))} {i : Nat} {ms : List (Str × J)},
    nativeEntries ordered i es = .ok ms → ms.length = es.length ∧
    ∀ (p : Nat) q, es[p]? = some q → ∃ s ms1, memberText q.1 = some s ∧ q.2 = .ok ms1 ∧
      ms[p]? = some (s, .obj (if ordered then ms1 ++ [(yangOrder, .num ((i + p : Nat) : Int))] else ms1)) := by
  intro es
  induction es with
  | nil => intro i ms h; simp [nativeEntries] at h; subst h; simp
  | cons q es ih =>
    intro i ms h
    obtain ⟨k, r⟩ := q
    simp only [nativeEntries] at h
    cases h1 : jsonKey k with
    | error e => simp [h1] at h
    | ok s =>
      cases r with
      | error e => simp [h1] at h
      | ok ms1 =>
        cases h2 : nativeEntries ordered (i + 1) es with
        | error e => simp [h1, h2] at h
        | ok rest =>
          simp only [h1, h2, Except.ok.injEq] at h
          subst h
          obtain ⟨hl, hg⟩ := ih h2
          refine ⟨by simp [hl], ?_⟩
          intro p q hq
          cases p with
          | zero =>
            simp at hq; subst hq
            exact ⟨s, ms1, memberText_jsonKey.1 h1, rfl, rfl⟩
          | succ p =>
            obtain ⟨s', ms2, a, b, c⟩ := hg p q (by simpa using hq)
            refine ⟨s', ms2, a, b, ?_⟩
            rw [List.getElem?_cons_succ, c, show i + 1 + p = i + (p + 1) by omega]

theorem nEntries_texts {ordered : Bool} {es : List (PyVal × Except Err (List (Str × J)))} {i : Nat} {ms : List (Str × J)}
    (h : nativeEntries ordered i es = .ok ms) : (ms.map fun m => some m.1) = es.map fun q => memberText q.1 := by
  obtain ⟨hl, hg⟩ := nEntries_len h
  apply List.ext_getElem?
  intro p
  simp only [List.getElem?_map]
  cases hp : es[p]? with
  | none =>
    have : ms[p]? = none := by rw [List.getElem?_eq_none_iff] at hp ⊢; omega
    simp [this]
  | some q =>
    obtain ⟨s, ms1, a, _, c⟩ := hg p q hp
    simp [c, a]

/-- A child is written, if it is shown. -/
theorem nNode_shown : ∀ {S : Schema} {n : Inst} {r : Option J}, nativeNode S n = .ok r →
    ((∃ j, r = some j) ↔ NShown S n) ∧ ∀ j, r = some j → NEmits S n j := by
  intro S
  induction S using Schema.ind with
  | hleaf L =>
    intro n r h
    cases n with
    | leaf v ch =>
      cases ch with
      | false =>
        simp [nativeNode] at h
        subst h
        exact ⟨⟨by simp, fun h => by cases h⟩, by simp⟩
      | true =>
        simp only [nativeNode] at h
        cases hs : serLeaf false [] L v with
        | error e => simp [hs, Except.map] at h
        | ok j =>
          simp [hs, Except.map] at h
          subst h
          exact ⟨⟨fun _ => .leaf, fun _ => ⟨j, rfl⟩⟩, by rintro _ ⟨⟩; exact .leaf hs⟩
    | _ =>
      simp [nativeNode] at h
      subst h
      exact ⟨⟨by simp, fun h => by cases h⟩, by simp⟩
  | hll L =>
    intro n r h
    cases n with
    | leafList v ch =>
      simp only [nativeNode] at h
      cases v with
      | nil =>
        simp at h
        subst h
        exact ⟨⟨by simp, fun h => by cases h with | leafList h => exact absurd rfl h⟩, by simp⟩
      | cons a v =>
        simp only [List.isEmpty_cons] at h
        cases hs : (a :: v).mapM (serElem false [] L) with
        | error e => rw [hs] at h; simp [Except.map] at h
        | ok j =>
          rw [hs] at h
          simp [Except.map] at h
          subst h
          exact ⟨⟨fun _ => .leafList (by simp), fun _ => ⟨_, rfl⟩⟩, by rintro _ ⟨⟩; exact .leafList hs⟩
    | _ =>
      simp [nativeNode] at h
      subst h
      exact ⟨⟨by simp, fun h => by cases h⟩, by simp⟩
  | hcont pres kids ih =>
    intro n r h
    cases n with
    | cont ch pr ns =>
      simp only [nativeNode] at h
      cases hk : nativeKids kids ns with
      | error e => simp [hk] at h
      | ok ms =>
        simp only [hk, Except.ok.injEq] at h
        have hms : ms ≠ [] ↔ ∃ (i : Nat) (k : Meta × Schema) (c : Inst), kids[i]? = some k ∧ ns[i]? = some c ∧ NShown k.2 c := by
          constructor
          · intro hne
            cases ms with
            | nil => simp at hne
            | cons x ms =>
              obtain ⟨i, k, c, a, b, _, d⟩ := nKids_sub hk (x := x) (by simp)
              exact ⟨i, k, c, a, b, (ih k (List.mem_of_getElem? a) d).1.1 ⟨_, rfl⟩⟩
          · rintro ⟨i, k, c, a, b, hs⟩ rfl
            obtain ⟨r', hr, hin⟩ := nKids_absent hk a b
            obtain ⟨j, rfl⟩ := (ih k (List.mem_of_getElem? a) hr).1.2 hs
            simpa using hin j rfl
        have hsh : NShown (.cont pres kids) (.cont ch pr ns) ↔ (pres = true ∧ pr = true) ∨ ms ≠ [] := by
          rw [hms]
          constructor
          · intro h
            cases h with
            | present => exact .inl ⟨rfl, rfl⟩
            | child a b c => exact .inr ⟨_, _, _, a, b, c⟩
          · rintro (⟨rfl, rfl⟩ | ⟨_, _, _, a, b, c⟩)
            · exact .present
            · exact .child a b c
        rw [hsh]
        subst h
        have hkk : NEmits (.cont pres kids) (.cont ch pr ns) (.obj (ms ++ [])) := .cont hk (by simp) (by simp) (by simp)
        rw [List.append_nil] at hkk
        cases ms with
        | nil => cases pres <;> cases pr <;> simp [hkk]
        | cons x ms => simpa using hkk
    | _ =>
      simp [nativeNode] at h
      subst h
      exact ⟨⟨by simp, fun h => by cases h⟩, by simp⟩
  | hlist info kids ih =>
    intro n r h
    cases n with
    | list ch es =>
      simp only [nativeNode] at h
      cases es with
      | nil =>
        simp at h
        subst h
        exact ⟨⟨by simp, fun h => by cases h with | list h => exact absurd rfl h⟩, by simp⟩
      | cons e es =>
        simp only [List.isEmpty_cons] at h
        cases hk : nativeEntries info.ordered 0 ((e :: es).map fun q => (q.1, nativeKids kids q.2.kids)) with
        | error e => rw [hk] at h; simp [Except.map] at h
        | ok ms =>
          rw [hk] at h
          simp [Except.map] at h
          subst h
          exact ⟨⟨fun _ => .list (by simp), fun _ => ⟨_, rfl⟩⟩, by rintro _ ⟨⟩; exact .list hk⟩
    | _ =>
      simp [nativeNode] at h
      subst h
      exact ⟨⟨by simp, fun h => by cases h⟩, by simp⟩

/-- The member for a child. -/
theorem nKids_jget {kids : List (Meta × Schema)} (hn : GoodNames kids) {ns : List Inst} {ms ex : List (Str × J)}
    (h : nativeKids kids ns = .ok ms) (hex : ∀ x ∈ ex, x.1 = yangOrder) (hno : ex ≠ [] → ∀ k ∈ kids, k.1.name ≠ yangOrder)
    {i : Nat} {k : Meta × Schema} {c : Inst} (hk : kids[i]? = some k) (hc : ns[i]? = some c) :
    nativeNode k.2 c = .ok (jget (ms ++ ex) k.1.name) := by
  rw [jget_skip]
  · obtain ⟨r, hr, hin⟩ := nKids_absent h hk hc
    rw [hr]
    have hd : (ms.map Prod.fst).Nodup := (nKids_fst h).nodup (name_inj hn)
    cases r with
    | some j => rw [jget_mem hd (hin j rfl)]
    | none =>
      cases hg : jget ms k.1.name with
      | none => rfl
      | some j =>
        obtain ⟨i', k', n', a, b, e, d⟩ := nKids_sub h (jget_sound hg)
        have hi' : i' < (kids.map fun k => k.1.name).length := by simpa using (List.getElem?_eq_some_iff.1 a).1
        have hi : i < (kids.map fun k => k.1.name).length := by simpa using (List.getElem?_eq_some_iff.1 hk).1
        have hij : i = i' := by
          apply (List.getElem_inj (h₀ := hi) (h₁ := hi') (name_inj hn)).1
          simp only [List.getElem_map, (List.getElem?_eq_some_iff.1 a).2, (List.getElem?_eq_some_iff.1 hk).2]
          exact e
        subst hij
        rw [hk] at a; simp at a; subst a
        rw [hc] at b; simp at b; subst b
        rw [hr] at d; simp at d
  · intro x hx e
    rw [hex x hx] at e
    have : ex ≠ [] := by rintro rfl; simp at hx
    exact hno this k (List.mem_of_getElem? hk) e.symm

/-- An object shown below is a reason to show those above. -/
theorem nShown_above {p : List Pos} : ∀ {pm : Option Meta} {S : Schema} {n : Inst} {r}, treeAt pm S n p = some r →
    (EndsInChild p → NShown r.2.1 r.2.2) → p ≠ [] → NShown S n := by
  induction p with
  | nil => intro _ _ _ _ _ _ h; exact absurd rfl h
  | cons s p ih =>
    intro pm S n r ht hs hne
    clear hne
    cases S <;> cases n <;> cases s <;> simp only [treeAt, reduceCtorEq] at ht
    · rename_i pres kids ch pr ns i
      cases hk : kids[i]? with
      | none => simp [hk] at ht
      | some k =>
        cases hc : ns[i]? with
        | none => simp [hk, hc] at ht
        | some c =>
          simp only [hk, hc] at ht
          refine .child hk hc ?_
          by_cases hp : p = []
          · subst hp
            have : r = (some k.1, k.2, c) := by cases k with | mk a b => cases b <;> cases c <;> simpa [treeAt] using ht.symm
            subst this
            exact hs ⟨i, rfl⟩
          · exact ih ht (fun h => hs ((endsInChild_cons hp).2 h)) hp
    · rename_i info kids ch es i
      exact .list (by intro e; subst e; simp at ht)

theorem nDocAt_nil {S : Schema} {n : Inst} {j : J} : nDocAt S n j [] = some j := by
  cases S <;> cases n <;> cases j <;> rfl

theorem textsApart_kid {ch pr : Bool} {ns : List Inst} (h : TextsApart (.cont ch pr ns)) {c : Inst} (hc : c ∈ ns) : TextsApart c :=
  fun _ _ hw => h _ _ (.field hc hw)

theorem textsApart_entry {ch : Bool} {es : List (PyVal × Inst)} (h : TextsApart (.list ch es)) {q : PyVal × Inst} (hq : q ∈ es) :
    TextsApart q.2 := fun _ _ hw => h _ _ (.entry (k := q.1) (e := q.2) hq hw)

/-- The member for an entry. -/
theorem nEntries_jget {info : ListInfo} {kids : List (Meta × Schema)} {es : List (PyVal × Inst)} {ms : List (Str × J)}
    (h : nativeEntries info.ordered 0 (es.map fun q => (q.1, nativeKids kids q.2.kids)) = .ok ms)
    (ha : (es.map fun q => memberText q.1).Nodup) {i : Nat} {q : PyVal × Inst} (hq : es[i]? = some q) :
    ∃ s ms1, memberText q.1 = some s ∧ nativeKids kids q.2.kids = .ok ms1 ∧
      jget ms s = some (.obj (ms1 ++ if info.ordered then [(yangOrder, .num (i : Int))] else [])) := by
  obtain ⟨_, hg⟩ := nEntries_len h
  obtain ⟨s, ms1, a, b, c⟩ := hg i (q.1, nativeKids kids q.2.kids) (by simp [hq])
  refine ⟨s, ms1, a, b, ?_⟩
  have hd : (ms.map Prod.fst).Nodup := by
    have e := nEntries_texts h
    have e2 : (es.map fun q => (q.1, nativeKids kids q.2.kids)).map (fun q => memberText q.1) = es.map fun q => memberText q.1 := by
      rw [List.map_map]; rfl
    rw [e2] at e
    rw [← e] at ha
    have e3 : (ms.map fun m => some m.1) = (ms.map Prod.fst).map some := by rw [List.map_map]; rfl
    rw [e3] at ha
    exact List.Pairwise.of_map _ (fun _ _ h1 h2 => h1 (by rw [h2])) ha
  rw [jget_mem hd (List.mem_of_getElem? c)]
  cases info.ordered <;> simp

/-- What is found in the document, and what is in the tree. -/
theorem nDocAt_emits {p : List Pos} : ∀ {pm : Option Meta} {S : Schema} {n : Inst} {j : J}, AllNames S → NoOrderName S → TextsApart n →
    NEmits S n j →
    (∀ x, nDocAt S n j p = some x → ∃ r, treeAt pm S n p = some r ∧ NEmits r.2.1 r.2.2 x ∧ (EndsInChild p → NShown r.2.1 r.2.2)) ∧
    (∀ r, treeAt pm S n p = some r → (EndsInChild p → NShown r.2.1 r.2.2) → ∃ x, nDocAt S n j p = some x) := by
  induction p with
  | nil =>
    intro pm S n j _ _ _ he
    refine ⟨?_, ?_⟩
    · intro x hx
      rw [nDocAt_nil] at hx
      simp at hx; subst hx
      exact ⟨_, treeAt_nil, he, by rintro ⟨i, h⟩; simp at h⟩
    · intro r _ _
      exact ⟨_, nDocAt_nil⟩
  | cons s p ih =>
    intro pm S n j hn hno hta he
    have hself : ∀ {pm : Option Meta} {S : Schema} {n : Inst} {r}, p = [] → treeAt pm S n p = some r → r = (pm, S, n) := by
      intro pm S n r hp h; subst hp; rw [treeAt_nil] at h; simpa using h.symm
    cases he with
    | leaf => cases s <;> simp [nDocAt, treeAt]
    | leafList => cases s <;> simp [nDocAt, treeAt]
    | @cont pres kids n ms ex hk hex _ hny =>
      simp only [AllNames] at hn
      simp only [NoOrderName] at hno
      cases n with
      | cont ch pr ns =>
        simp only [Inst.kids] at hk
        cases s with
        | elem i => simp [nDocAt, treeAt]
        | child i =>
          simp only [nDocAt, treeAt]
          cases hki : kids[i]? with
          | none => simp
          | some k =>
            have hnk := allNames_kid hn.2 (List.mem_of_getElem? hki)
            have hok := noOrder_kid hno (List.mem_of_getElem? hki)
            cases hci : ns[i]? with
            | none => simp
            | some c =>
              have htc := textsApart_kid hta (List.mem_of_getElem? hci)
              simp only
              have hr0 := nKids_jget hn.1 hk hex hny hki hci
              obtain ⟨hsh, hem⟩ := nNode_shown hr0
              cases hg : jget (ms ++ ex) k.1.name with
              | none =>
                rw [hg] at hsh
                refine ⟨by simp, ?_⟩
                intro r hr hs
                have hns : ¬ NShown k.2 c := fun h => by obtain ⟨j, h⟩ := hsh.2 h; simp at h
                by_cases hp : p = []
                · have := hself hp hr
                  subst this; subst hp
                  exact absurd (hs ⟨i, rfl⟩) hns
                · exact absurd (nShown_above hr (fun h => hs ((endsInChild_cons hp).2 h)) hp) hns
              | some j =>
                obtain ⟨i1, i2⟩ := ih (pm := some k.1) hnk hok htc (hem j hg)
                refine ⟨?_, ?_⟩
                · intro x hx
                  obtain ⟨r, a, b, cc⟩ := i1 x hx
                  refine ⟨r, a, b, ?_⟩
                  intro hend
                  by_cases hp : p = []
                  · have := hself hp a
                    subst this
                    exact hsh.1 ⟨j, hg⟩
                  · exact cc ((endsInChild_cons hp).1 hend)
                · intro r hr hs
                  refine i2 r hr ?_
                  intro hend
                  by_cases hp : p = []
                  · subst hp; obtain ⟨_, h⟩ := hend; simp at h
                  · exact hs ((endsInChild_cons hp).2 hend)
      | _ => cases s <;> simp [nDocAt, treeAt]
    | @list info kids ch es ms hm =>
      simp only [AllNames] at hn
      simp only [NoOrderName] at hno
      cases s with
      | child i => simp [nDocAt, treeAt]
      | elem i =>
        simp only [nDocAt, treeAt]
        cases hei : es[i]? with
        | none => simp
        | some q =>
          obtain ⟨s, ms1, a, b, c⟩ := nEntries_jget hm (hta ch es .here) hei
          simp only [a, c]
          have hend : ∀ (P : Prop), (EndsInChild (.elem i :: p) → P) ↔ (EndsInChild p → P) := by
            intro P
            by_cases hp : p = []
            · subst hp; simp [EndsInChild]
            · rw [endsInChild_cons hp]
          simp only [hend]
          refine ih (S := .cont false kids) hn hno.2 (textsApart_entry hta (List.mem_of_getElem? hei)) (.cont b ?_ ?_ ?_)
          · cases info.ordered <;> simp
          · cases info.ordered <;> simp
          · cases ho : info.ordered
            · simp
            · intro _; exact hno.1 ho

/-- Positions split. -/
theorem treeAt_append {p q : List Pos} : ∀ {pm : Option Meta} {S : Schema} {n : Inst},
    treeAt pm S n (p ++ q) = (treeAt pm S n p).bind fun r => treeAt r.1 r.2.1 r.2.2 q := by
  induction p with
  | nil => intro pm S n; rw [treeAt_nil]; rfl
  | cons s p ih =>
    intro pm S n
    cases S <;> cases n <;> cases s <;> simp only [List.cons_append, treeAt, Option.bind_none]
    · split
      · exact ih
      · rfl
    · split
      · exact ih
      · rfl

theorem nDocAt_snoc {p : List Pos} {s : Pos} : ∀ {pm : Option Meta} {S : Schema} {n : Inst} {j : J} {r},
    treeAt pm S n p = some r → nDocAt S n j (p ++ [s]) = (nDocAt S n j p).bind fun x => nDocAt r.2.1 r.2.2 x [s] := by
  induction p with
  | nil =>
    intro pm S n j r h
    rw [treeAt_nil] at h
    simp at h; subst h
    rw [nDocAt_nil]; rfl
  | cons a p ih =>
    intro pm S n j r h
    cases S <;> cases n <;> cases a <;> simp only [treeAt, reduceCtorEq] at h
    · split at h
      · rename_i hk hc
        cases j <;> simp only [List.cons_append, nDocAt, Option.bind_none, hk, hc]
        split
        · exact ih h
        · rfl
      · simp at h
    · split at h
      · rename_i hk
        cases j <;> simp only [List.cons_append, nDocAt, Option.bind_none, hk]
        split
        · split
          · exact ih h
          · rfl
        · rfl
      · simp at h

theorem noOrder_treeAt {p : List Pos} : ∀ {pm : Option Meta} {S : Schema} {n : Inst} {r}, NoOrderName S → treeAt pm S n p = some r →
    NoOrderName r.2.1 := by
  induction p with
  | nil => intro pm S n r hn ht; rw [treeAt_nil] at ht; simp at ht; subst ht; exact hn
  | cons s p ih =>
    intro pm S n r hn ht
    cases S <;> cases n <;> cases s <;> simp only [treeAt, reduceCtorEq] at ht
    · split at ht
      · rename_i hk _
        exact ih (noOrder_kid hn (List.mem_of_getElem? hk)) ht
      · simp at ht
    · split at ht
      · exact ih (S := .cont false _) hn.2 ht
      · simp at ht

theorem textsApart_treeAt {p : List Pos} : ∀ {pm : Option Meta} {S : Schema} {n : Inst} {r}, TextsApart n → treeAt pm S n p = some r →
    TextsApart r.2.2 := by
  induction p with
  | nil => intro pm S n r hn ht; rw [treeAt_nil] at ht; simp at ht; subst ht; exact hn
  | cons s p ih =>
    intro pm S n r hn ht
    cases S <;> cases n <;> cases s <;> simp only [treeAt, reduceCtorEq] at ht
    · split at ht
      · rename_i hk hc
        exact ih (textsApart_kid hn (List.mem_of_getElem? hc)) ht
      · simp at ht
    · split at ht
      · rename_i hk
        exact ih (textsApart_entry hn (List.mem_of_getElem? hk)) ht
      · simp at ht

theorem plainJson_leaf {t : YTy} {v : PyVal} (h : Value t v) : PlainJson v (nLeafJ t v) := by
  cases h with
  | int => exact .num _
  | str => exact .str _
  | ident => exact .str _
  | bool name b => cases b <;> exact .bool _
  | empty => exact .bool _
  | ext name x o ha hx =>
    cases hx with
    | dec => exact .dec _
    | bin => exact .bytes _
    | bits => exact .bits _

theorem nSerElem_value {rx : Str → Str → Bool} {t : YTy} {v : PyVal} {u : Bool} {tx : List PyVal → Str}
    (hv : Value t v) (hne : ∀ n, t ≠ .empty n) {j : J} (hj : serElem false [] (t.llCls rx u tx) v = .ok j) : j = nElemJ t v := by
  suffices h : serElem false [] (t.llCls rx u tx) v = .ok (nElemJ t v) ∨ ∃ e, serElem false [] (t.llCls rx u tx) v = .error e by
    rcases h with h | ⟨e, h⟩ <;> rw [h] at hj
    · exact (Except.ok.inj hj).symm
    · cases hj
  simp only [serElem, YTy.llCls]
  rw [serVal_typedef (by decide)]
  cases hv with
  | ext name x o ha hx =>
    cases hx with
    | dec fd k h1 h2 => exact .inl (serDecimal_dec false _)
    | bin => exact .inr ⟨_, rfl⟩
    | bits => exact .inl rfl
  | int name t chain lo hi n ha hb hl hn =>
    left
    simp only [nElemJ]
    rw [serMapped_int (t := t) (rs := chain.map rangeText) (.inr rfl)]
    simp
  | str name T s ha => left; cases T <;> simp [serMapped, YTy.ser, SerCls.pyc, SerCls.bare, serNative, nElemJ, PyVal.toStr]
  | ident name ids s ha hs hc hm => left; simp [serMapped, YTy.ser, SerCls.pyc, SerCls.bare, serNative, nElemJ, PyVal.toStr]
  | bool name b ha => left; cases b <;> simp [serMapped, YTy.ser, SerCls.pyc, SerCls.bare, serNative, nElemJ, PyVal.truthy]
  | empty name ha => exact absurd rfl (hne name)

theorem plainJson_elem {t : YTy} {v : PyVal} (h : Value t v) (hb : ∀ n, t ≠ .bool n) (he : ∀ n, t ≠ .empty n) :
    PlainJson v (nElemJ t v) := by
  cases h with
  | int => exact .num _
  | str => exact .str _
  | ident => exact .str _
  | bool name b => exact absurd rfl (hb name)
  | empty name => exact absurd rfl (he name)
  | ext name x o ha hx =>
    cases hx with
    | dec => exact .dec _
    | bin => exact .bytes _
    | bits => exact .bits _

end Pyb
