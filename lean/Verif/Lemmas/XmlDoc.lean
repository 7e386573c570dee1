import Verif.Lemmas.XmlTypes
import Verif.Lemmas.JsonDoc
import Verif.Lemmas.JsonUnknown
import Verif.Lemmas.NativeOrder
import Verif.Spec.XmlDoc

namespace Pyb
open Py Spec

section
variable {nsOf : Str → Str}

/-- What is written for each child. -/
theorem xmlKids_node {ks : List (Meta × Schema)} {ns : List Inst} {xss : List (List Xml)}
    (h : xmlKids nsOf true ks ns = .ok xss) {i : Nat} {k : Meta × Schema} {n : Inst} (hk : ks[i]? = some k) (hn : ns[i]? = some n) :
    ∃ r, xmlNode nsOf true k.1 k.2 n = .ok r := by
  induction ks generalizing ns xss i with
  | nil => simp at hk
  | cons k' ks ih =>
    cases ns with
    | nil => simp at hn
    | cons n' ns =>
      simp only [xmlKids] at h
      cases h1 : xmlNode nsOf true k'.1 k'.2 n' with
      | error e => simp [h1] at h
      | ok r =>
        cases h2 : xmlKids nsOf true ks ns with
        | error e => cases r <;> simp [h1, h2] at h
        | ok ms' =>
          cases i with
          | zero => simp at hk hn; subst hk hn; exact ⟨r, h1⟩
          | succ i => exact ih h2 (by simpa using hk) (by simpa using hn)

/-- The elements for a child are found by its name. -/
theorem xmlKids_filter {ks : List (Meta × Schema)} {ns : List Inst} {xss : List (List Xml)}
    (h : xmlKids nsOf true ks ns = .ok xss) (hd : (ks.map fun k => k.1.name).Nodup) {i : Nat} {k : Meta × Schema}
    (hk : ks[i]? = some k) :
    (xss.flatten.filter fun x => x.ns == k.1.ns && x.name == k.1.name) =
      match ns[i]? with
      | some n => match xmlNode nsOf true k.1 k.2 n with
        | .ok r => r.getD []
        | .error _ => []
      | none => [] := by
  induction ks generalizing ns xss i with
  | nil => simp at hk
  | cons k' ks ih =>
    cases ns with
    | nil => simp [xmlKids] at h; subst h; simp
    | cons n' ns =>
      simp only [xmlKids] at h
      simp only [List.map_cons, List.nodup_cons] at hd
      cases h1 : xmlNode nsOf true k'.1 k'.2 n' with
      | error e => simp [h1] at h
      | ok r =>
        cases h2 : xmlKids nsOf true ks ns with
        | error e => cases r <;> simp [h1, h2] at h
        | ok ms' =>
          have hx : xss.flatten = r.getD [] ++ ms'.flatten := by
            cases r with
            | none => simp [h1, h2] at h; subst h; simp
            | some j => simp [h1, h2] at h; subst h; simp
          have hall : ∀ x ∈ r.getD [], x.ns = k'.1.ns ∧ x.name = k'.1.name := by
            intro x hx
            cases r with
            | none => simp at hx
            | some j => exact xmlNode_names h1 hx
          rw [hx, List.filter_append]
          cases i with
          | zero =>
            simp at hk; subst hk
            have e1 : (r.getD []).filter (fun x => x.ns == k'.1.ns && x.name == k'.1.name) = r.getD [] := by
              rw [List.filter_eq_self]
              intro x hx
              simp [hall x hx]
            have e2 : ms'.flatten.filter (fun x => x.ns == k'.1.ns && x.name == k'.1.name) = [] := by
              rw [List.filter_eq_nil_iff]
              intro x hx hp
              simp only [Bool.and_eq_true, beq_iff_eq] at hp
              have hin : ∀ {ks : List (Meta × Schema)} {ns : List Inst} {xss}, xmlKids nsOf true ks ns = .ok xss → x ∈ xss.flatten →
                  ∃ k ∈ ks, x.name = k.1.name := by
                intro ks
                induction ks with
                | nil => intro ns xss h hx; simp [xmlKids] at h; subst h; simp at hx
                | cons a ks iha =>
                  intro ns xss h hx
                  cases ns with
                  | nil => simp [xmlKids] at h; subst h; simp at hx
                  | cons b ns =>
                    simp only [xmlKids] at h
                    cases g1 : xmlNode nsOf true a.1 a.2 b with
                    | error e => simp [g1] at h
                    | ok r =>
                      cases g2 : xmlKids nsOf true ks ns with
                      | error e => cases r <;> simp [g1, g2] at h
                      | ok ms' =>
                        cases r with
                        | none =>
                          simp [g1, g2] at h; subst h
                          obtain ⟨k, hk, e⟩ := iha g2 hx
                          exact ⟨k, by simp [hk], e⟩
                        | some j =>
                          simp [g1, g2] at h; subst h
                          rw [List.flatten_cons, List.mem_append] at hx
                          rcases hx with hx | hx
                          · exact ⟨a, by simp, (xmlNode_names g1 hx).2⟩
                          · obtain ⟨k, hk, e⟩ := iha g2 hx
                            exact ⟨k, by simp [hk], e⟩
              obtain ⟨k, hk, e⟩ := hin h2 hx
              exact hd.1 (List.mem_map.2 ⟨k, hk, by rw [← e, hp.2]⟩)
            rw [e1, e2]
            simp [h1]
          | succ i =>
            have hk' : ks[i]? = some k := by simpa using hk
            have hne : k'.1.name ≠ k.1.name := by
              intro e; exact hd.1 (e ▸ List.mem_map.2 ⟨k, List.mem_of_getElem? hk', rfl⟩)
            have e1 : (r.getD []).filter (fun x => x.ns == k.1.ns && x.name == k.1.name) = [] := by
              rw [List.filter_eq_nil_iff]
              intro x hx hp
              simp only [Bool.and_eq_true, beq_iff_eq] at hp
              exact hne (by rw [← (hall x hx).2, hp.2])
            rw [e1, List.nil_append, ih h2 hd.2 hk']
            simp

/-- What is written for an object, whether or not it is included. -/
inductive XEmits (nsOf : Str → Str) (pm : Option Meta) : Schema → Inst → List Xml → Prop where
  | node {m S n r} : pm = some m → xmlNode nsOf true m S n = .ok r → XEmits nsOf pm S n (r.getD [])
  | cont {pres kids n x xss} : xmlKids nsOf true kids n.kids = .ok xss → x.kids = xss.flatten → XEmits nsOf pm (.cont pres kids) n [x]

theorem elemsAt_nil {S : Schema} {xs : List Xml} : elemsAt S xs [] = xs := by
  cases S <;> rfl

/-- What is found in the document is what is written for the object. -/
theorem elemsAt_emits {p : List Pos} : ∀ {pm : Option Meta} {S : Schema} {n : Inst} {xs : List Xml} {r}, AllNames S →
    XEmits nsOf pm S n xs → treeAt pm S n p = some r → XEmits nsOf r.1 r.2.1 r.2.2 (elemsAt S xs p) := by
  induction p with
  | nil =>
    intro pm S n xs r _ he ht
    rw [treeAt_nil] at ht
    simp at ht; subst ht
    rw [elemsAt_nil]
    exact he
  | cons s p ih =>
    intro pm S n xs r hn he ht
    cases S <;> cases n <;> cases s <;> simp only [treeAt, reduceCtorEq] at ht
    · rename_i pres kids ch pr ns i
      simp only [AllNames] at hn
      cases hk : kids[i]? with
      | none => simp [hk] at ht
      | some k =>
        cases hc : ns[i]? with
        | none => simp [hk, hc] at ht
        | some c =>
          simp only [hk, hc] at ht
          have hnk := allNames_kid hn.2 (List.mem_of_getElem? hk)
          simp only [elemsAt, hk]
          refine ih hnk ?_ ht
          have main : ∀ xss, xmlKids nsOf true kids ns = .ok xss →
              XEmits nsOf (some k.1) k.2 c (xss.flatten.filter fun x => x.ns == k.1.ns && x.name == k.1.name) := by
            intro xss h
            obtain ⟨r0, hr0⟩ := xmlKids_node h hk hc
            rw [xmlKids_filter h (names_nodup hn.1) hk]
            simp only [hc, hr0]
            exact .node rfl hr0
          cases he with
          | @node m _ _ r0 hm h =>
            simp only [xmlNode] at h
            cases hx : xmlKids nsOf true kids ns with
            | error e => simp [hx] at h
            | ok xss =>
              simp only [hx, Except.ok.injEq] at h
              by_cases hnone : (xss.isEmpty && !pr) = true
              · rw [if_pos hnone] at h
                subst h
                simp only [Bool.and_eq_true, List.isEmpty_iff] at hnone
                obtain ⟨rfl, _⟩ := hnone
                simpa using main [] hx
              · rw [if_neg hnone] at h
                subst h
                simpa [Xml.kids] using main xss hx
          | @cont _ _ _ x xss h hxk =>
            simpa [hxk] using main xss h
    · rename_i info kids ch es i
      simp only [AllNames] at hn
      cases hei : es[i]? with
      | none => simp [hei] at ht
      | some q =>
        simp only [hei] at ht
        simp only [elemsAt]
        refine ih (S := .cont false kids) hn ?_ ht
        cases he with
        | @node m _ _ r0 hm h =>
          simp only [xmlNode] at h
          cases hx : (es.mapM fun q => (xmlKids nsOf true kids q.2.kids).map fun xs => Xml.elem m.ns m.name [] none xs.flatten) with
          | error e => simp [hx] at h
          | ok xs =>
            simp only [hx, Except.ok.injEq] at h
            obtain ⟨hl, hget⟩ := mapM_len hx
            obtain ⟨x, h1, h2⟩ := hget i q hei
            have hr : r0.getD [] = xs := by
              subst h
              cases xs <;> simp
            rw [hr, h1]
            cases hkk : xmlKids nsOf true kids q.2.kids with
            | error e => simp [hkk, Except.map] at h2
            | ok ms =>
              simp [hkk, Except.map] at h2
              subst h2
              exact .cont hkk rfl

theorem xroot_emits {kids : List (Meta × Schema)} {ns : List Inst} {name mns : Str} {x : Xml}
    (h : xmlDump nsOf true name mns kids ns = .ok x) :
    XEmits nsOf none (.cont false kids) (.cont false false ns) [x] := by
  simp only [xmlDump] at h
  cases hk : xmlKids nsOf true kids ns with
  | error e => simp [hk, Except.map] at h
  | ok ms =>
    simp [hk, Except.map] at h
    subst h
    exact .cont hk rfl

/-- Containers are written if there is something to be shown. -/
theorem xmlNode_shown {m : Meta} : ∀ {S : Schema} {n : Inst} {r : Option (List Xml)}, xmlNode nsOf true m S n = .ok r →
    ((∃ j, r = some j) ↔ Shown S n) := by
  intro S
  induction S using Schema.ind generalizing m with
  | hleaf L =>
    intro n r h
    cases n with
    | leaf v ch =>
      cases ch with
      | false =>
        simp [xmlNode] at h
        subst h
        exact ⟨by simp, fun h => by cases h⟩
      | true =>
        simp only [xmlNode] at h
        cases hs : xmlLeaf nsOf m L v true with
        | error e => simp [hs, Except.map] at h
        | ok j =>
          simp [hs, Except.map] at h
          subst h
          exact ⟨fun _ => .leaf, fun _ => ⟨_, rfl⟩⟩
    | _ =>
      simp [xmlNode] at h
      subst h
      exact ⟨by simp, fun h => by cases h⟩
  | hll L =>
    intro n r h
    cases n with
    | leafList v ch =>
      simp only [xmlNode, bind_ok] at h
      obtain ⟨_, _, h⟩ := h
      cases ch with
      | false =>
        simp at h
        subst h
        exact ⟨by simp, fun h => by cases h⟩
      | true =>
        cases hs : xmlLeafList m L v with
        | error e => simp [hs, Except.map] at h
        | ok j =>
          simp [hs, Except.map] at h
          subst h
          exact ⟨fun _ => .leafList, fun _ => ⟨_, rfl⟩⟩
    | _ =>
      simp [xmlNode] at h
      subst h
      exact ⟨by simp, fun h => by cases h⟩
  | hcont pres kids ih =>
    intro n r h
    cases n with
    | cont ch pr ns =>
      simp only [xmlNode] at h
      cases hk : xmlKids nsOf true kids ns with
      | error e => simp [hk] at h
      | ok ms =>
        simp only [hk, Except.ok.injEq] at h
        have hms : ms ≠ [] ↔ ∃ (i : Nat) (k : Meta × Schema) (c : Inst), kids[i]? = some k ∧ ns[i]? = some c ∧ Shown k.2 c := by
          constructor
          · intro hne
            have : ∀ {ks : List (Meta × Schema)} {ns : List Inst} {ms : List (List Xml)}, (∀ k ∈ ks, k ∈ kids) → xmlKids nsOf true ks ns = .ok ms → ms ≠ [] →
                ∃ (i : Nat) (k : Meta × Schema) (c : Inst), ks[i]? = some k ∧ ns[i]? = some c ∧ Shown k.2 c := by
              intro ks
              induction ks with
              | nil => intro ns ms _ h hne; simp [xmlKids] at h; subst h; simp at hne
              | cons a ks iha =>
                intro ns ms hsub h hne
                cases ns with
                | nil => simp [xmlKids] at h; subst h; simp at hne
                | cons b ns =>
                  simp only [xmlKids] at h
                  cases g1 : xmlNode nsOf true a.1 a.2 b with
                  | error e => simp [g1] at h
                  | ok r =>
                    cases g2 : xmlKids nsOf true ks ns with
                    | error e => cases r <;> simp [g1, g2] at h
                    | ok ms' =>
                      cases r with
                      | some j => exact ⟨0, a, b, rfl, rfl, (ih a (hsub a (by simp)) g1).1 ⟨_, rfl⟩⟩
                      | none =>
                        simp [g1, g2] at h
                        subst h
                        obtain ⟨i, k, c, h1, h2, h3⟩ := iha (fun k hk => hsub k (by simp [hk])) g2 hne
                        exact ⟨i + 1, k, c, by simpa using h1, by simpa using h2, h3⟩
            exact this (fun _ h => h) hk hne
          · rintro ⟨i, k, c, a, b, hs⟩ rfl
            have h1 := xmlKids_nil hk a b
            obtain ⟨j, hj⟩ := (ih k (List.mem_of_getElem? a) h1).2 hs
            simp at hj
        have hsh : Shown (.cont pres kids) (.cont ch pr ns) ↔ pr = true ∨ ms ≠ [] := by
          rw [hms]
          constructor
          · intro h
            cases h with
            | present => exact .inl rfl
            | child a b c => exact .inr ⟨_, _, _, a, b, c⟩
          · rintro (rfl | ⟨_, _, _, a, b, c⟩)
            · exact .present
            · exact .child a b c
        rw [hsh]
        subst h
        cases ms with
        | nil => cases pr <;> simp
        | cons x ms => simp
    | _ =>
      simp [xmlNode] at h
      subst h
      exact ⟨by simp, fun h => by cases h⟩
  | hlist info kids ih =>
    intro n r h
    cases n with
    | list ch es =>
      simp only [xmlNode] at h
      cases hk : (es.mapM fun q => (xmlKids nsOf true kids q.2.kids).map fun xs => Xml.elem m.ns m.name [] none xs.flatten) with
      | error e => simp [hk] at h
      | ok xs =>
        simp only [hk, Except.ok.injEq] at h
        have hl := (mapM_len hk).1
        have hsh : Shown (.list info kids) (.list ch es) ↔ xs ≠ [] := by
          constructor
          · intro h
            cases h with
            | list h' => intro e; subst e; exact h' (List.length_eq_zero_iff.1 hl.symm)
          · intro h
            exact .list (by intro e; subst e; exact h (List.length_eq_zero_iff.1 hl))
        rw [hsh]
        subst h
        cases xs with
        | nil => simp
        | cons x xs => simp
    | _ =>
      simp [xmlNode] at h
      subst h
      exact ⟨by simp, fun h => by cases h⟩

end

end Pyb

namespace Pyb
open Py Spec

section
variable {infer : Str → PyVal}

/-- The child found by name. -/
theorem kidIdx_childNamed (kids : List (Meta × Schema)) (name : Str) :
    (kidIdx kids name = none ∧ childNamed kids name = none) ∨
    ∃ i k, kidIdx kids name = some i ∧ kids[i]? = some k ∧ childNamed kids name = some k := by
  unfold kidIdx childNamed
  induction kids with
  | nil => exact .inl ⟨rfl, rfl⟩
  | cons k ks ih =>
    by_cases h : (safeName k.1.name == safeName name) = true
    · refine .inr ⟨0, k, ?_, rfl, ?_⟩
      · simp [List.findIdx?_cons, h]
      · simp [List.find?_cons, h]
    · have h' : (safeName k.1.name == safeName name) = false := by simpa using h
      rw [List.find?_cons_of_neg (by simpa using h'), List.findIdx?_cons]
      simp only [h', Bool.false_eq_true, if_false]
      rcases ih with ⟨a, b⟩ | ⟨i, k', a, b, c⟩
      · exact .inl ⟨by rw [a]; rfl, b⟩
      · exact .inr ⟨i + 1, k', by rw [a]; rfl, by simpa using b, c⟩

theorem xthen_ok {o : Out} {f : Inst → Out} (h : (o.andThen f).err = none) : o.err = none ∧ (f o.inst).err = none := by
  unfold Out.andThen at h
  cases ho : o.err with
  | none => rw [ho] at h; exact ⟨rfl, h⟩
  | some e => rw [ho] at h; simp only at h; rw [ho] at h; simp at h

/-- If nothing is raised, all elements stand for a child. -/
theorem xmembers_known {wrapped : Bool} {pres : Bool} {kids : List (Meta × Schema)} {keys : List Nat} {own : Option Choice} :
    ∀ {xs : List Xml} {n : Inst}, (xmlMembers infer wrapped (.cont pres kids) keys own n xs).err = none →
    ∀ x ∈ xs, ∃ k c isKey, childNamed kids x.name = some k ∧ (xmlChild infer k.2 k.1.choice isKey c x).err = none := by
  intro xs
  induction xs with
  | nil => intro n _ x hx; simp at hx
  | cons y ys ih =>
    intro n h x hx
    rw [xmlMembers] at h
    obtain ⟨h1, h2⟩ := xthen_ok h
    rcases List.mem_cons.1 hx with rfl | hx
    · simp only [withKid] at h1
      rcases kidIdx_childNamed kids x.name with ⟨a, b⟩ | ⟨i, k, a, b, c⟩
      · simp [a, fail] at h1
      · simp only [a, b] at h1
        cases n with
        | cont ch pr ns =>
          simp only at h1
          cases hn : ns[i]? with
          | none => simp [hn, fail] at h1
          | some q =>
            simp only [hn, holdPut_err] at h1
            exact ⟨k, q, _, c, h1⟩
        | _ => simp [fail] at h1
    · exact ih h2 x hx

theorem xunknown_err {kids : List (Meta × Schema)} {xs : List Xml} (h : XHasUnknown kids xs) :
    ∀ {wrapped pres : Bool} {keys : List Nat} {own : Option Choice} {n : Inst},
    (xmlMembers infer wrapped (.cont pres kids) keys own n xs).err ≠ none := by
  induction h with
  | here hx hk =>
    intro _ _ _ _ _ he
    obtain ⟨k, _, _, h, _⟩ := xmembers_known he _ hx
    rw [hk] at h; simp at h
  | @cont kids xs x m pres ks hx hk _ ih =>
    intro _ _ _ _ _ he
    obtain ⟨k, c, isKey, h, h2⟩ := xmembers_known he _ hx
    rw [hk] at h; simp at h; subst h
    cases x with
    | elem ns nm ds t xs =>
      simp only [xmlChild] at h2
      exact ih (xthen_ok h2).2
  | @list kids xs x m info ks hx hk _ ih =>
    intro _ _ _ _ _ he
    obtain ⟨k, c, isKey, h, h2⟩ := xmembers_known he _ hx
    rw [hk] at h; simp at h; subst h
    cases x with
    | elem ns nm ds t xs =>
      cases c with
      | list ch es =>
        simp only [xmlChild] at h2
        have h3 := (xthen_ok h2).2
        unfold withEntry at h3
        cases hn : (xmlEntry infer info ks ch es ns xs).1.inst with
        | list ch' es' =>
          rw [hn] at h3
          simp only at h3
          cases hf : es'.find? fun q => pyEq q.1 (xmlEntry infer info ks ch es ns xs).2 with
          | none => simp [hf, fail] at h3
          | some q =>
            rw [hf] at h3
            exact ih h3
        | _ => rw [hn] at h3; simp [fail] at h3
      | _ => simp [xmlChild, fail] at h2
  | @leafList kids xs x m L hx hk hne _ =>
    intro _ _ _ _ _ he
    obtain ⟨k, c, isKey, h, h2⟩ := xmembers_known he _ hx
    rw [hk] at h; simp at h; subst h
    cases x with
    | elem ns nm ds t xs =>
      have hne' : xs.isEmpty = false := by
        cases xs with
        | nil => exact absurd rfl hne
        | cons => rfl
      cases c with
      | leafList vs ch => simp [xmlChild, fail, hne'] at h2
      | _ => simp [xmlChild, fail] at h2

end

end Pyb

namespace Pyb
open Py Spec

/-- The elements written for children. -/
theorem xmlKids_mem {nsOf : Str → Str} {ks : List (Meta × Schema)} {ns : List Inst} {xss : List (List Xml)}
    (h : xmlKids nsOf true ks ns = .ok xss) {x : Xml} (hx : x ∈ xss.flatten) : ∃ k ∈ ks, x.ns = k.1.ns ∧ x.name = k.1.name := by
  induction ks generalizing ns xss with
  | nil => simp [xmlKids] at h; subst h; simp at hx
  | cons a ks iha =>
    cases ns with
    | nil => simp [xmlKids] at h; subst h; simp at hx
    | cons b ns =>
      simp only [xmlKids] at h
      cases g1 : xmlNode nsOf true a.1 a.2 b with
      | error e => simp [g1] at h
      | ok r =>
        cases g2 : xmlKids nsOf true ks ns with
        | error e => cases r <;> simp [g1, g2] at h
        | ok ms' =>
          cases r with
          | none =>
            simp [g1, g2] at h; subst h
            obtain ⟨k, hk, e⟩ := iha g2 hx
            exact ⟨k, by simp [hk], e⟩
          | some j =>
            simp [g1, g2] at h; subst h
            rw [List.flatten_cons, List.mem_append] at hx
            rcases hx with hx | hx
            · exact ⟨a, by simp, xmlNode_names g1 hx⟩
            · obtain ⟨k, hk, e⟩ := iha g2 hx
              exact ⟨k, by simp [hk], e⟩

/-- For a child, what is found is what is written for the node. -/
theorem elemsAt_node {nsOf : Str → Str} {p : List Pos} : ∀ {pm : Option Meta} {S : Schema} {n : Inst} {xs : List Xml} {m : Meta} {S' : Schema} {n' : Inst},
    AllNames S → XEmits nsOf pm S n xs → EndsInChild p → treeAt pm S n p = some (some m, S', n') →
    ∃ r, xmlNode nsOf true m S' n' = .ok r ∧ elemsAt S xs p = r.getD [] := by
  induction p with
  | nil => intro pm S n xs m S' n' _ _ he _; obtain ⟨i, hi⟩ := he; simp at hi
  | cons s p ih =>
    intro pm S n xs m S' n' hn he hp ht
    by_cases hnil : p = []
    · subst hnil
      obtain ⟨i, hi⟩ := hp
      simp at hi
      subst hi
      cases S <;> cases n <;> simp only [treeAt, reduceCtorEq] at ht
      rename_i pres kids ch pr ns
      simp only [AllNames] at hn
      cases hk : kids[i]? with
      | none => simp [hk] at ht
      | some k =>
        cases hc : ns[i]? with
        | none => simp [hk, hc] at ht
        | some c =>
          simp only [hk, hc, treeAt_nil, Option.some.injEq, Prod.mk.injEq] at ht
          obtain ⟨rfl, rfl, rfl⟩ := ht
          simp only [elemsAt, hk, elemsAt_nil]
          have main : ∀ xss, xmlKids nsOf true kids ns = .ok xss → ∃ r, xmlNode nsOf true k.1 k.2 c = .ok r ∧
              (xss.flatten.filter fun x => x.ns == k.1.ns && x.name == k.1.name) = r.getD [] := by
            intro xss h
            obtain ⟨r0, hr0⟩ := xmlKids_node h hk hc
            refine ⟨r0, hr0, ?_⟩
            rw [xmlKids_filter h (names_nodup hn.1) hk]
            simp only [hc, hr0]
          cases he with
          | @node m _ _ r0 hm h =>
            simp only [xmlNode] at h
            cases hx : xmlKids nsOf true kids ns with
            | error e => simp [hx] at h
            | ok xss =>
              simp only [hx, Except.ok.injEq] at h
              by_cases hnone : (xss.isEmpty && !pr) = true
              · rw [if_pos hnone] at h
                subst h
                simp only [Bool.and_eq_true, List.isEmpty_iff] at hnone
                obtain ⟨rfl, _⟩ := hnone
                simpa using main [] hx
              · rw [if_neg hnone] at h
                subst h
                simpa [Xml.kids] using main xss hx
          | @cont _ _ _ x xss h hxk =>
            simpa [hxk] using main xss h
    · have hs : ∃ r, treeAt pm S n [s] = some r ∧ treeAt r.1 r.2.1 r.2.2 p = some (some m, S', n') ∧
          AllNames r.2.1 ∧ elemsAt S xs (s :: p) = elemsAt r.2.1 (elemsAt S xs [s]) p := by
        cases S <;> cases n <;> cases s <;> simp only [treeAt, reduceCtorEq] at ht
        · rename_i pres kids ch pr ns i
          simp only [AllNames] at hn
          cases hk : kids[i]? with
          | none => simp [hk] at ht
          | some k =>
            cases hc : ns[i]? with
            | none => simp [hk, hc] at ht
            | some c =>
              simp only [hk, hc] at ht
              refine ⟨(some k.1, k.2, c), by simp only [treeAt, hk, hc, treeAt_nil], ht, allNames_kid hn.2 (List.mem_of_getElem? hk), ?_⟩
              simp only [elemsAt, hk, elemsAt_nil]
        · rename_i info kids ch es i
          simp only [AllNames] at hn
          cases hei : es[i]? with
          | none => simp [hei] at ht
          | some q =>
            simp only [hei] at ht
            refine ⟨(pm, .cont false kids, q.2), by simp only [treeAt, hei, treeAt_nil], ht, hn, ?_⟩
            simp only [elemsAt]
      obtain ⟨r, h1, h2, h3, h4⟩ := hs
      rw [h4]
      have hp' : EndsInChild p := by
        obtain ⟨i, hi⟩ := hp
        refine ⟨i, ?_⟩
        rw [List.getLast?_cons] at hi
        cases hg : p.getLast? with
        | none => simp at hg; exact absurd hg hnil
        | some z => simp [hg] at hi; rw [hi]
      exact ih h3 (elemsAt_emits hn he h1) hp' h2

section
variable {infer : Str → PyVal}

theorem xmembers_stop {wrapped pres : Bool} {kids : List (Meta × Schema)} {keys : List Nat} {own : Option Choice} {o : Out}
    {x : Xml} {xs : List Xml} (ho : o.err = none) (hx : childNamed kids x.name = none) :
    (o.andThen fun n => xmlMembers infer wrapped (.cont pres kids) keys own n (x :: xs)) = ⟨o.inst, o.sigs, some .attributeError⟩ := by
  have hk : kidIdx kids x.name = none := by
    rcases kidIdx_childNamed kids x.name with ⟨a, _⟩ | ⟨i, k, _, _, c⟩
    · exact a
    · rw [hx] at c; simp at c
  simp only [xmlMembers, withKid, hk]
  simp [Out.andThen, ho, fail]

theorem mapM_finds {ns : Str} {xs : List Xml} : ∀ {names : List Str} {raws : List PyVal},
    names.map (fun k => (xs.find? fun y => y.ns == ns && y.name == k).map fun y => pyval infer y.text) = raws.map some →
    xmlKeys infer ns names xs = .ok raws := by
  intro names
  induction names with
  | nil => intro raws h; cases raws <;> simp at h; rfl
  | cons k names ih =>
    intro raws h
    cases raws with
    | nil => simp at h
    | cons r raws =>
      simp only [List.map_cons, List.cons.injEq] at h
      have := ih h.2
      simp only [xmlKeys] at this ⊢
      cases hf : xs.find? fun y => y.ns == ns && y.name == k with
      | none => rw [hf] at h; simp at h
      | some y =>
        rw [hf] at h
        simp only [Option.map_some, Option.some.injEq] at h
        have h1 : (xmlFind ns k xs).map (fun x => pyval infer x.text) = .ok r := by
          simp only [xmlFind, hf, Except.map, h.1]
        simp only [List.mapM_cons, h1, this]
        rfl

theorem pyEq_text {k : PyVal} {s : Str} : pyEq k (.str s) = true ↔ k = .str s := by
  cases k with
  | obj o => cases ho : o.num? <;> simp [pyEq, PyVal.num?, PyVal.norm, ho]
  | _ => simp [pyEq, PyVal.num?, PyVal.norm]

/-- Loading one element into a list. -/
theorem xlist_merge {info : ListInfo} {ek : List (Meta × Schema)} {own : Option Choice} {isKey : Bool} {ch : Bool}
    {es : List (PyVal × Inst)} {x : Xml} {raws : List PyVal}
    (hraws : (keyNames info ek).map (fun k => (x.kids.find? fun y => y.ns == x.ns && y.name == k).map fun y => pyval infer y.text) = raws.map some)
    (h : (xmlChild infer (.list info ek) own isKey (.list ch es) x).err = none) :
    ∃ es', (xmlChild infer (.list info ek) own isKey (.list ch es) x).inst = .list ch es' ∧
      ((∃ e, (.str (Spec.keyText raws), e) ∈ es) → ∃ l e e' r, es = l ++ (.str (Spec.keyText raws), e) :: r ∧
        es' = l ++ (.str (Spec.keyText raws), e') :: r) ∧
      ((¬ ∃ e, (.str (Spec.keyText raws), e) ∈ es) → ∃ e', es' = es ++ [(.str (Spec.keyText raws), e')]) := by
  cases x with
  | elem ns nm ds t xs =>
    simp only [xmlChild] at h ⊢
    obtain ⟨h1, h2⟩ := xthen_ok h
    simp only [Out.andThen, h1]
    have hkeys := mapM_finds hraws
    simp only [Xml.ns, Xml.kids] at hkeys
    simp only [xmlEntry, hkeys] at h1 h2 ⊢
    have hnk : namedKey raws = .str (Spec.keyText raws) := rfl
    rw [hnk] at h1 h2 ⊢
    by_cases hne : info.keys = []
    · simp [hne, fail] at h1
    · simp only [hne, if_false] at h1 h2 ⊢
      cases hm : mem es (.str (Spec.keyText raws)) with
      | true =>
        simp only [hm, if_true, Out.same, withEntry] at h2 ⊢
        cases hf : es.find? fun q => pyEq q.1 (.str (Spec.keyText raws)) with
        | none => simp [hf, fail] at h2
        | some q =>
          simp only
          refine ⟨_, rfl, ?_, ?_⟩
          · rintro -
            obtain ⟨l, p, r, a, b, c, d⟩ := store_old (e := (xmlMembers infer true (Schema.cont false ek) info.keys none q.2 xs).inst) hm
            rw [pyEq_text] at b
            obtain ⟨p1, p2⟩ := p
            simp only at b
            subst b
            exact ⟨l, p2, _, r, a, d⟩
          · intro hno
            obtain ⟨p, hp, he⟩ := mem_true.1 hm
            rw [pyEq_text] at he
            exact absurd ⟨p.2, by rw [← he]; exact hp⟩ hno
      | false =>
        simp only [hm, Bool.false_eq_true, if_false] at h1 h2 ⊢
        have hno : ¬ ∃ e, (PyVal.str (Spec.keyText raws), e) ∈ es := by
          rintro ⟨e, he⟩
          have := mem_false.1 hm _ he
          rw [Bool.eq_false_iff] at this
          exact this (pyEq_text.2 rfl)
        have hadd : ∃ e, (nodeOp (.list info ek) none (.list ch es) (.addNamed (raws.map some))).inst =
            .list ch (es ++ [(.str (Spec.keyText raws), e)]) := by
          simp only [nodeOp] at h1 ⊢
          split at h1
          · simp [fail] at h1
          · rename_i hc
            rw [if_neg hc]
            cases ha : ylAddNamed (entryCls info ek) es (raws.map some) none with
            | error e => simp [ha, listOut] at h1
            | ok es' =>
              simp only [listOut]
              obtain ⟨rs, e, g1, -, -, g4⟩ := ylAddNamed_ok ha
              rw [allGiven_ok] at g1
              have : rs = raws := by
                have := congrArg (List.filterMap id) g1
                simpa [List.filterMap_map] using this.symm
              subst this
              exact ⟨e, by rw [g4, hnk]⟩
        obtain ⟨e, he⟩ := hadd
        rw [he] at h2 ⊢
        simp only [withEntry] at h2 ⊢
        have hm' : mem (es ++ [(PyVal.str (Spec.keyText raws), e)]) (.str (Spec.keyText raws)) = true :=
          mem_true.2 ⟨(.str (Spec.keyText raws), e), by simp, pyEq_text.2 rfl⟩
        cases hf : (es ++ [(PyVal.str (Spec.keyText raws), e)]).find? fun q => pyEq q.1 (.str (Spec.keyText raws)) with
        | none => simp [hf, fail] at h2
        | some q =>
          simp only
          refine ⟨_, rfl, fun h => absurd h hno, fun _ => ⟨(xmlMembers infer true (Schema.cont false ek) info.keys none q.2 xs).inst, ?_⟩⟩
          obtain ⟨l, p, r, a, b, c, d⟩ := store_old (e := (xmlMembers infer true (Schema.cont false ek) info.keys none q.2 xs).inst) hm'
          have hr : r = [] := by
            rcases r.eq_nil_or_concat with rfl | ⟨r', z, rfl⟩
            · rfl
            · exfalso
              have e1 : es ++ [(PyVal.str (Spec.keyText raws), e)] = (l ++ p :: r') ++ [z] := by rw [a]; simp
              have e2 := (List.append_inj' e1 rfl).1
              have := mem_false.1 hm p (by rw [e2]; simp)
              rw [b] at this
              exact absurd this (by simp)
          subst hr
          obtain ⟨e1, e2⟩ := List.append_inj' a rfl
          simp only [List.cons.injEq, and_true] at e2
          rw [d, ← e1, ← e2]

end

end Pyb
