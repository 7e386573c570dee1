import Verif.Lemmas.NativeDoc
import Verif.Props.Native

/-! # What native JSON documents contain (C76) -/

namespace Pyb
open Py Spec

theorem root_nEmits {kids : List (Meta × Schema)} {ns : List Inst} {j : J} (h : nativeDump kids ns = .ok j) :
    NEmits (rootCls kids) (rootObj ns) j := by
  simp only [nativeDump] at h
  cases hk : nativeKids kids ns with
  | error e => simp [hk, Except.map] at h
  | ok ms =>
    simp [hk, Except.map] at h
    subst h
    have : NEmits (rootCls kids) (rootObj ns) (.obj (ms ++ [])) := .cont hk (by simp) (by simp) (by simp)
    simpa using this

theorem leaf_ends {p : List Pos} {kids : List (Meta × Schema)} {ns : List Inst} {m : Option Meta} {S : Schema} {n : Inst}
    (ht : treeAt none (rootCls kids) (rootObj ns) p = some (m, S, n)) (hS : ∀ pres ks, S ≠ .cont pres ks) : EndsInChild p := by
  have hp : p ≠ [] := by
    rintro rfl
    rw [treeAt_nil] at ht
    simp only [Option.some.injEq, Prod.mk.injEq] at ht
    exact hS _ _ ht.2.1.symm
  rcases treeAt_ends ht hp with h | ⟨_, h⟩
  · exact h
  · exact absurd h (hS _ _)

/-- C76, leaves: wherever a leaf is in a tree, the native document has a member there if
and only if the leaf is set; and then it is the number, text or boolean the leaf holds (`PlainJson`).

The value is not covered for the types that `Value` leaves out: unions and leafrefs. -/
theorem C76_leaf_iff_set_partial (kids : List (Meta × Schema)) (hn : AllNames (rootCls kids)) (ho : NoOrderName (rootCls kids))
    (ns : List Inst) (ha : TextsApart (rootObj ns)) (j : J) (hj : nativeDump kids ns = .ok j) (p : List Pos) (m : Meta) (L : LeafCls)
    (v : PyVal) (ch : Bool) (ht : treeAt none (rootCls kids) (rootObj ns) p = some (some m, .leaf L, .leaf v ch)) :
    ((∃ x, nDocAt (rootCls kids) (rootObj ns) j p = some x) ↔ ch = true) ∧
    ∀ x, nDocAt (rootCls kids) (rootObj ns) j p = some x → ∀ rx t d, L = YTy.cls rx t d → Value t v → PlainJson v x := by
  obtain ⟨h1, h2⟩ := nDocAt_emits (pm := none) (p := p) hn ho ha (root_nEmits hj)
  have he := leaf_ends ht (by simp)
  refine ⟨⟨?_, ?_⟩, ?_⟩
  · rintro ⟨x, hx⟩
    obtain ⟨r, a, _, c⟩ := h1 x hx
    rw [ht] at a; simp at a; subst a
    cases c he
    rfl
  · rintro rfl
    exact h2 _ ht fun _ => .leaf
  · rintro x hx rx t d rfl hv
    obtain ⟨r, a, b, _⟩ := h1 x hx
    rw [ht] at a; simp at a; subst a
    cases b with
    | leaf h =>
      rw [nSerLeaf_value hv] at h
      simp at h; subst h
      exact plainJson_leaf hv

/-- C76, leaf-lists: there is a member if and only if there are values; and then it is an
array of these values in the same order.

Not covered: the types that `Value` leaves out, and booleans (see
`C76_boolean_leaflist_refuted`). -/
theorem C76_leaflist_partial (kids : List (Meta × Schema)) (hn : AllNames (rootCls kids)) (ho : NoOrderName (rootCls kids))
    (ns : List Inst) (ha : TextsApart (rootObj ns)) (j : J) (hj : nativeDump kids ns = .ok j) (p : List Pos) (m : Meta) (L : LLCls)
    (vs : List PyVal) (ch : Bool) (ht : treeAt none (rootCls kids) (rootObj ns) p = some (some m, .leafList L, .leafList vs ch)) :
    ((∃ x, nDocAt (rootCls kids) (rootObj ns) j p = some x) ↔ vs ≠ []) ∧
    ∀ x, nDocAt (rootCls kids) (rootObj ns) j p = some x →
      ∃ xs, x = .arr xs ∧ xs.length = vs.length ∧
        ∀ rx t u tx, L = YTy.llCls rx t u tx → (∀ n, t ≠ .bool n) → (∀ n, t ≠ .empty n) → (∀ v ∈ vs, Value t v) →
          ∀ (i : Nat) v y, vs[i]? = some v → xs[i]? = some y → PlainJson v y := by
  obtain ⟨h1, h2⟩ := nDocAt_emits (pm := none) (p := p) hn ho ha (root_nEmits hj)
  have he := leaf_ends ht (by simp)
  refine ⟨⟨?_, ?_⟩, ?_⟩
  · rintro ⟨x, hx⟩
    obtain ⟨r, a, _, c⟩ := h1 x hx
    rw [ht] at a; simp at a; subst a
    cases c he with
    | leafList h => exact h
  · intro hne
    exact h2 _ ht fun _ => .leafList hne
  · intro x hx
    obtain ⟨r, a, b, _⟩ := h1 x hx
    rw [ht] at a; simp at a; subst a
    cases b with
    | @leafList _ _ _ xs h =>
      obtain ⟨hl, hg⟩ := mapM_len h
      refine ⟨xs, rfl, hl, ?_⟩
      rintro rx t u tx rfl hb hne hv i v y hi hy
      obtain ⟨y', h3, h4⟩ := hg i v hi
      rw [hy] at h3; simp at h3; subst h3
      have hvv := hv v (List.mem_of_getElem? hi)
      rw [nSerElem_value hvv hne h4]
      exact plainJson_elem hvv hb hne

/-- C76: what is in the document is in the tree, and all there is to be shown is in the
document. -/
theorem C76_same_places (kids : List (Meta × Schema)) (hn : AllNames (rootCls kids)) (ho : NoOrderName (rootCls kids))
    (ns : List Inst) (ha : TextsApart (rootObj ns)) (j : J) (hj : nativeDump kids ns = .ok j) (p : List Pos) :
    (∃ x, nDocAt (rootCls kids) (rootObj ns) j p = some x) ↔
    ∃ r, treeAt none (rootCls kids) (rootObj ns) p = some r ∧ (EndsInChild p → NShown r.2.1 r.2.2) := by
  obtain ⟨h1, h2⟩ := nDocAt_emits (pm := none) (p := p) hn ho ha (root_nEmits hj)
  constructor
  · rintro ⟨x, hx⟩
    obtain ⟨r, a, _, c⟩ := h1 x hx
    exact ⟨r, a, c⟩
  · rintro ⟨r, a, c⟩
    exact h2 r a c

/-- C76, containers: one without members is only in the document if it is a presence
container, and present. -/
theorem C76_no_empty_container (kids : List (Meta × Schema)) (hn : AllNames (rootCls kids)) (ho : NoOrderName (rootCls kids))
    (ns : List Inst) (ha : TextsApart (rootObj ns)) (j : J) (hj : nativeDump kids ns = .ok j) (p : List Pos) (hp : EndsInChild p)
    (pm : Option Meta) (pres ch pr : Bool) (kids' : List (Meta × Schema)) (ns' : List Inst)
    (ht : treeAt none (rootCls kids) (rootObj ns) p = some (pm, .cont pres kids', .cont ch pr ns'))
    (hx : nDocAt (rootCls kids) (rootObj ns) j p = some (.obj [])) : pres = true ∧ pr = true := by
  obtain ⟨h1, _⟩ := nDocAt_emits (pm := none) (p := p) hn ho ha (root_nEmits hj)
  obtain ⟨r, a, b, c⟩ := h1 _ hx
  rw [ht] at a; simp at a; subst a
  have hs := c hp
  cases hs with
  | present => exact ⟨rfl, rfl⟩
  | @child _ _ _ _ _ i k c hk hc hs =>
    generalize hj' : J.obj [] = j' at b
    cases b with
    | @cont _ _ _ ms ex h hex _ hny =>
      simp only [J.obj.injEq] at hj'
      obtain ⟨r0, hr, hin⟩ := nKids_absent h hk hc
      obtain ⟨j', rfl⟩ := (nNode_shown hr).1.2 hs
      have hm := hin _ rfl
      rw [List.nil_eq_append_iff] at hj'
      rw [hj'.1] at hm
      simp at hm

/-- C76, names: the members of the object for a container or an entry are children, under
their names, none twice.  Only entries of lists can have a member `__yang_order` besides
(see `C76_entries`). -/
theorem C76_member_names (kids : List (Meta × Schema)) (hn : AllNames (rootCls kids)) (ho : NoOrderName (rootCls kids))
    (ns : List Inst) (ha : TextsApart (rootObj ns)) (j : J) (hj : nativeDump kids ns = .ok j) (p : List Pos) (pm : Option Meta)
    (pres : Bool) (kids' : List (Meta × Schema)) (n : Inst)
    (ht : treeAt none (rootCls kids) (rootObj ns) p = some (pm, .cont pres kids', n)) (ms : List (Str × J))
    (hx : nDocAt (rootCls kids) (rootObj ns) j p = some (.obj ms)) :
    (∀ x ∈ ms, (∃ k ∈ kids', x.1 = k.1.name) ∨ (x.1 = py!"__yang_order" ∧ ∃ i, p.getLast? = some (.elem i))) ∧
    (ms.map Prod.fst).Nodup := by
  obtain ⟨h1, _⟩ := nDocAt_emits (pm := none) (p := p) hn ho ha (root_nEmits hj)
  obtain ⟨r, a, b, _⟩ := h1 _ hx
  rw [ht] at a; simp at a; subst a
  have hg : GoodNames kids' := allNames_treeAt hn ht
  constructor
  · intro x hxm
    cases hl : p.getLast? with
    | none =>
      rw [List.getLast?_eq_none_iff] at hl
      subst hl
      rw [treeAt_nil] at ht
      rw [nDocAt_nil] at hx
      simp only [Option.some.injEq, Prod.mk.injEq, Schema.cont.injEq] at ht hx
      obtain ⟨_, ⟨_, rfl⟩, _⟩ := ht
      subst hx
      simp only [nativeDump] at hj
      cases hk : nativeKids kids ns with
      | error e => simp [hk, Except.map] at hj
      | ok ms' =>
        simp [hk, Except.map] at hj
        subst hj
        exact .inl (nKids_names hk x hxm)
    | some s =>
      cases s with
      | elem i =>
        cases b with
        | @cont _ _ _ ms' ex h hex _ hny =>
          rcases List.mem_append.1 hxm with hx | hx
          · exact .inl (nKids_names h x hx)
          · exact .inr ⟨hex x hx, i, rfl⟩
      | child i =>
        obtain ⟨p', rfl⟩ := List.getLast?_eq_some_iff.1 hl
        rw [treeAt_append] at ht
        cases ht' : treeAt none (rootCls kids) (rootObj ns) p' with
        | none => simp [ht'] at ht
        | some r =>
          simp only [ht', Option.bind_some] at ht
          rw [nDocAt_snoc ht'] at hx
          cases hx' : nDocAt (rootCls kids) (rootObj ns) j p' with
          | none => simp [hx'] at hx
          | some y =>
            simp only [hx', Option.bind_some] at hx
            obtain ⟨h1', _⟩ := nDocAt_emits (pm := none) (p := p') hn ho ha (root_nEmits hj)
            obtain ⟨r', a', b', _⟩ := h1' _ hx'
            rw [ht'] at a'; simp at a'; subst a'
            obtain ⟨pm', S', n'⟩ := r
            cases b' with
            | leaf => simp [treeAt] at ht
            | leafList => simp [treeAt] at ht
            | list => simp [treeAt] at ht
            | @cont pres' kids0 n' ms' ex h hex _ hny =>
              cases n' with
              | cont ch pr ns' =>
                simp only [treeAt, nDocAt] at ht hx
                cases hki : kids0[i]? with
                | none => simp [hki] at ht
                | some k =>
                  cases hci : ns'[i]? with
                  | none => simp [hki, hci] at ht
                  | some c =>
                    simp only [hki, hci, treeAt_nil, Option.some.injEq, Prod.mk.injEq] at ht hx
                    obtain ⟨_, hk2, rfl⟩ := ht
                    have hjg := nKids_jget (allNames_treeAt hn ht') h hex hny hki hci
                    cases hgt : jget (ms' ++ ex) k.1.name with
                    | none => simp [hgt] at hx
                    | some z =>
                      simp only [hgt, nDocAt_nil, Option.some.injEq] at hx
                      subst hx
                      rw [hgt, hk2] at hjg
                      cases c with
                      | cont ch pr cs =>
                        simp only [nativeNode] at hjg
                        cases hkk : nativeKids kids' cs with
                        | error e => simp [hkk] at hjg
                        | ok ms2 =>
                          simp only [hkk, Except.ok.injEq] at hjg
                          split at hjg
                          · simp at hjg
                          · simp at hjg
                            subst hjg
                            exact .inl (nKids_names hkk x hxm)
                      | _ => simp [nativeNode] at hjg
              | _ => simp [treeAt] at ht
  · cases b with
    | @cont _ _ _ ms' ex h hex hlen hny =>
      have hd := (nKids_fst h).nodup (name_inj hg)
      cases ex with
      | nil => simpa using hd
      | cons y ex =>
        have : ex = [] := by simpa using hlen
        subst this
        rw [List.map_append, List.nodup_append]
        refine ⟨hd, by simp, ?_⟩
        intro u hu v hv e
        simp only [List.map_cons, List.map_nil, List.mem_singleton] at hv
        obtain ⟨z, hz, rfl⟩ := List.mem_map.1 hu
        obtain ⟨k, hk, e2⟩ := nKids_names h z hz
        refine hny (by simp) k hk ?_
        rw [← e2, e, hv, hex y (by simp)]

/-- C76, lists: the object for a list has one member for each entry, in the order of the
entries; its name is the text of the key, and its value an object.  In a user-ordered list
that object gives the position of the entry, counted from 0, in a member `__yang_order`;
in other lists it has no such member, unless a child is called so. -/
theorem C76_entries (kids : List (Meta × Schema)) (hn : AllNames (rootCls kids)) (ho : NoOrderName (rootCls kids))
    (ns : List Inst) (ha : TextsApart (rootObj ns)) (j : J) (hj : nativeDump kids ns = .ok j) (p : List Pos) (pm : Option Meta)
    (info : ListInfo) (kids' : List (Meta × Schema)) (ch : Bool) (es : List (PyVal × Inst))
    (ht : treeAt none (rootCls kids) (rootObj ns) p = some (pm, .list info kids', .list ch es)) (x : J)
    (hx : nDocAt (rootCls kids) (rootObj ns) j p = some x) :
    ∃ ms, x = .obj ms ∧ (ms.map fun m => some m.1) = es.map (fun q => memberText q.1) ∧
      ∀ (i : Nat) m, ms[i]? = some m → ∃ xs, m.2 = .obj xs ∧
        (info.ordered = true → xs.lookup py!"__yang_order" = some (.num (i : Int))) ∧
        (info.ordered = false → (∀ k ∈ kids', k.1.name ≠ py!"__yang_order") → xs.lookup py!"__yang_order" = none) := by
  obtain ⟨h1, _⟩ := nDocAt_emits (pm := none) (p := p) hn ho ha (root_nEmits hj)
  obtain ⟨r, a, b, _⟩ := h1 _ hx
  rw [ht] at a; simp at a; subst a
  have hno : NoOrderName (.list info kids') := noOrder_treeAt ho ht
  cases b with
  | @list _ _ _ _ ms h =>
    refine ⟨ms, rfl, ?_, ?_⟩
    · rw [nEntries_texts h, List.map_map]; rfl
    · intro i m hm
      obtain ⟨q, ms1, hq, hq2, e⟩ := nEntries_sub h i m hm
      simp only [List.getElem?_map, Option.map_eq_some_iff] at hq
      obtain ⟨q', _, rfl⟩ := hq
      refine ⟨_, e, ?_, ?_⟩
      · intro hor
        have := orderOf_written hq2 (hno.1 hor) i
        simp only [orderOf] at this
        rw [if_pos hor, Nat.zero_add]
        have hne : ∀ x ∈ ms1, x.1 ≠ yangOrder := by
          intro x hx
          obtain ⟨k, hk, e⟩ := nKids_names hq2 x hx
          rw [e]; exact hno.1 hor k hk
        have h0 : ms1.lookup yangOrder = none := by
          rw [List.lookup_eq_none_iff]
          intro x hx
          simpa using Ne.symm (hne x hx)
        show List.lookup yangOrder (ms1 ++ [(yangOrder, .num (i : Int))]) = _
        rw [List.lookup_append, h0]
        simp [List.lookup]
      · intro hor hk
        rw [hor]
        simp only [Bool.false_eq_true, if_false]
        rw [List.lookup_eq_none_iff]
        intro x hx
        obtain ⟨k, hk', e⟩ := nKids_names hq2 x hx
        have := hk k hk'
        rw [← e] at this
        simpa using Ne.symm this

/-! Examples: the module and tree of `Props/Json`, and a user-ordered list. -/

theorem json_noOrder : NoOrderName (rootCls jsonKids) := by
  simp [rootCls, jsonKids, jsonC, jsonL, NoOrderName, NoOrderNames]

/-- A tree checked list by list. -/
def apartB : Inst → Bool
  | .cont _ _ ns => ns.attach.all fun c => apartB c.1
  | .list _ es => decide ((es.map fun q => memberText q.1).Nodup) && es.attach.all fun q => apartB q.1.2
  | _ => true
decreasing_by
  · have := List.sizeOf_lt_of_mem c.2; simp; omega
  · have h := List.sizeOf_lt_of_mem q.2
    have : sizeOf q.1.2 < sizeOf q.1 := by cases q with | mk q h => cases q; simp; omega
    simp; omega

theorem apart_of {n : Inst} (h : apartB n = true) : TextsApart n := by
  intro ch es hw
  generalize hm : Inst.list ch es = m at hw
  induction hw with
  | here =>
    subst hm
    rw [apartB] at h
    simp only [Bool.and_eq_true, decide_eq_true_eq] at h
    exact h.1
  | field hc _ ih =>
    rw [apartB] at h
    simp only [List.all_eq_true, List.mem_attach, true_implies] at h
    exact ih (h ⟨_, hc⟩)
  | @entry ch es k e hc _ ih =>
    rw [apartB] at h
    simp only [Bool.and_eq_true, List.all_eq_true, List.mem_attach, true_implies] at h
    exact ih (h.2 ⟨_, hc⟩)

theorem json_apart : TextsApart (rootObj jsonTree) := apart_of (by simp [apartB, jsonTree]; decide)

example : nDocAt (rootCls jsonKids) (rootObj jsonTree) jsonNative [.child 0, .child 5, .elem 1, .child 1] = some (.num 50) ∧
    nDocAt (rootCls jsonKids) (rootObj jsonTree) jsonNative [.child 0, .child 5, .elem 0, .child 1] = none := ⟨rfl, rfl⟩

example : PlainJson (.int 50) (.num 50) :=
  (C76_leaf_iff_set_partial jsonKids json_names json_noOrder jsonTree json_apart jsonNative rfl [.child 0, .child 5, .elem 1, .child 1] _ _ _ _ rfl).2
    _ rfl noRx tPercent none rfl (val_percent _ (by decide))

theorem ord_names : AllNames (rootCls ordKids) := by
  refine ⟨⟨by decide, by decide⟩, ⟨⟨by decide, by decide⟩, trivial, ⟨⟨by decide, by decide⟩, trivial, trivial⟩, trivial⟩, trivial⟩

theorem ord_noOrder : NoOrderName (rootCls ordKids) := by
  simp only [rootCls, ordKids, ordL, ordN, NoOrderName, NoOrderNames]
  decide

theorem ord_apart : TextsApart (rootObj ordTree) := apart_of (by simp [apartB, ordTree]; decide)

example : ∃ ms, nDocAt (rootCls ordKids) (rootObj ordTree) ordWritten [.child 0] = some (.obj ms) ∧
    (ms.map fun m => some m.1) = [some py!"z", some py!"a"] ∧
    ∀ (i : Nat) m, ms[i]? = some m → ∃ xs, m.2 = .obj xs ∧ xs.lookup py!"__yang_order" = some (.num (i : Int)) := by
  obtain ⟨ms, h1, h2, h3⟩ := C76_entries ordKids ord_names ord_noOrder ordTree ord_apart ordWritten rfl [.child 0] _ _ _ _ _ rfl _ rfl
  refine ⟨ms, by rw [← h1]; rfl, h2, fun i m hm => ?_⟩
  obtain ⟨xs, a, b, _⟩ := h3 i m hm
  exact ⟨xs, a, b rfl⟩

/-- A list whose key is a string. -/
def textKeyKids : List (Meta × Schema) :=
  [(inM py!"l", .list { keys := [0] } [(inM py!"k", .leaf (tStr.cls noRx)), (inM py!"z", .leaf (tU8.cls noRx))])]

/-- C76 fails for keys that differ, but have the same text: both entries are written
under the same name. -/
theorem C76_same_text_refuted :
    nativeDump textKeyKids (history textKeyKids (freshKids textKeyKids)
      [([.field 0], .add (.int 5)), ([.field 0], .add (.str py!"5")), ([.field 0, .key (.str py!"5"), .field 1], .set (.int 1) false)]) =
    .ok (.obj [(py!"l", .obj [(py!"5", .obj [(py!"k", .str py!"5")]), (py!"5", .obj [(py!"k", .str py!"5"), (py!"z", .num 1)])])]) := rfl

/-- C76 fails for leaf-lists of booleans: numbers are written. -/
theorem C76_boolean_leaflist_refuted :
    nativeDump [(inM py!"b", .leafList (tBool.llCls noRx))] (history [(inM py!"b", .leafList (tBool.llCls noRx))]
      (freshKids [(inM py!"b", .leafList (tBool.llCls noRx))]) [([.field 0], .ll (.append (.bool true)))]) =
    .ok (.obj [(py!"b", .arr [.num 1])]) := rfl

end Pyb
