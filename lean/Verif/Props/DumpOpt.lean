import Verif.Props.JsonDoc

/-! # What IETF documents contain, with `filter=False` and with `with_defaults` (C82) -/

namespace Pyb
open Py Spec

theorem incl_mono {f g : LeafCls → PyVal → Bool → Bool} {a b : Bool → Bool} (hf : ∀ L v ch, f L v ch = true → g L v ch = true)
    (ha : ∀ ch, a ch = true → b ch = true) {S : Schema} {n : Inst} (h : Incl f a S n) : Incl g b S n := by
  induction h with
  | leaf h => exact .leaf (hf _ _ _ h)
  | leafList h => exact .leafList (ha _ h)
  | list h => exact .list h
  | present => exact .present
  | child hk hc _ ih => exact .child hk hc ih

/-- A leaf is in the document, if it is included; then it is the encoding of its value. -/
theorem dump_leaf {o : DumpOpt} {kids : List (Meta × Schema)} (hn : AllNames (rootCls kids)) {ns : List Inst} {j : J}
    (hj : ietfDump o kids ns = .ok j) {p : List Pos} {m : Meta} {L : LeafCls} {v : PyVal} {ch : Bool}
    (ht : treeAt none (rootCls kids) (rootObj ns) p = some (some m, .leaf L, .leaf v ch)) :
    ((∃ x, docAt none (rootCls kids) j p = some x) ↔ leafIncluded o L v ch = true) ∧
    ∀ x, docAt none (rootCls kids) j p = some x → serLeaf true m.module_ L v = .ok x := by
  obtain ⟨h1, h2⟩ := docAt_incl (p := p) hn (root_emits hj)
  have hp : p ≠ [] := by rintro rfl; rw [treeAt_nil] at ht; simp at ht
  have he : EndsInChild p := by
    rcases treeAt_ends ht hp with h | ⟨_, h⟩
    · exact h
    · simp at h
  refine ⟨⟨?_, ?_⟩, ?_⟩
  · rintro ⟨x, hx⟩
    obtain ⟨r, a, _, c⟩ := h1 x hx
    rw [ht] at a; simp at a; subst a
    cases c he with
    | leaf h => exact h
  · intro h
    exact h2 _ ht fun _ => .leaf h
  · intro x hx
    obtain ⟨r, a, b, _⟩ := h1 x hx
    rw [ht] at a; simp at a; subst a
    cases b with
    | leaf h h' => simp only [Option.some.injEq] at h; subst h; exact h'

/-- The same for leaf-lists. -/
theorem dump_leafList {o : DumpOpt} {kids : List (Meta × Schema)} (hn : AllNames (rootCls kids)) {ns : List Inst} {j : J}
    (hj : ietfDump o kids ns = .ok j) {p : List Pos} {m : Meta} {L : LLCls} {vs : List PyVal} {ch : Bool}
    (ht : treeAt none (rootCls kids) (rootObj ns) p = some (some m, .leafList L, .leafList vs ch)) :
    ((∃ x, docAt none (rootCls kids) j p = some x) ↔ llIncluded o ch = true) ∧
    ∀ x, docAt none (rootCls kids) j p = some x → ∃ xs, x = .arr xs ∧ vs.mapM (serElem true m.module_ L) = .ok xs := by
  obtain ⟨h1, h2⟩ := docAt_incl (p := p) hn (root_emits hj)
  have hp : p ≠ [] := by rintro rfl; rw [treeAt_nil] at ht; simp at ht
  have he : EndsInChild p := by
    rcases treeAt_ends ht hp with h | ⟨_, h⟩
    · exact h
    · simp at h
  refine ⟨⟨?_, ?_⟩, ?_⟩
  · rintro ⟨x, hx⟩
    obtain ⟨r, a, _, c⟩ := h1 x hx
    rw [ht] at a; simp at a; subst a
    cases c he with
    | leafList h => exact h
  · intro h
    exact h2 _ ht fun _ => .leafList h
  · intro x hx
    obtain ⟨r, a, b, _⟩ := h1 x hx
    rw [ht] at a; simp at a; subst a
    cases b with
    | leafList h h' => simp only [Option.some.injEq] at h; subst h; exact ⟨_, rfl, h'⟩

/-! ## `filter=False` -/

/-- C82, `filter=False`: every leaf of the tree is in the document, set or not, as the
encoding of its value. -/
theorem C82_unfiltered_leaf (kids : List (Meta × Schema)) (hn : AllNames (rootCls kids)) (ns : List Inst) (j : J)
    (hj : ietfDump { flt := false } kids ns = .ok j) (p : List Pos) (m : Meta) (L : LeafCls) (v : PyVal) (ch : Bool)
    (ht : treeAt none (rootCls kids) (rootObj ns) p = some (some m, .leaf L, .leaf v ch)) :
    ∃ x, docAt none (rootCls kids) j p = some x ∧ serLeaf true m.module_ L v = .ok x := by
  obtain ⟨h1, h2⟩ := dump_leaf hn hj ht
  obtain ⟨x, hx⟩ := h1.2 rfl
  exact ⟨x, hx, h2 x hx⟩

/-- C82, `filter=False`: every leaf-list is in the document, even if it is empty, with its
values in order. -/
theorem C82_unfiltered_leaflist (kids : List (Meta × Schema)) (hn : AllNames (rootCls kids)) (ns : List Inst) (j : J)
    (hj : ietfDump { flt := false } kids ns = .ok j) (p : List Pos) (m : Meta) (L : LLCls) (vs : List PyVal) (ch : Bool)
    (ht : treeAt none (rootCls kids) (rootObj ns) p = some (some m, .leafList L, .leafList vs ch)) :
    ∃ xs, docAt none (rootCls kids) j p = some (.arr xs) ∧ vs.mapM (serElem true m.module_ L) = .ok xs := by
  obtain ⟨h1, h2⟩ := dump_leafList hn hj ht
  obtain ⟨x, hx⟩ := h1.2 rfl
  obtain ⟨xs, rfl, h⟩ := h2 x hx
  exact ⟨xs, hx, h⟩

/-! ## `with_defaults=WithDefaults.IF_SET` -/

/-- C82, `IF_SET`: a leaf is in the document if and only if it is set or its value equals
its default (which is `False` for a leaf without default). -/
theorem C82_if_set_leaf (kids : List (Meta × Schema)) (hn : AllNames (rootCls kids)) (flt : Bool) (ns : List Inst) (j : J)
    (hj : ietfDump { flt := flt, wd := true } kids ns = .ok j) (p : List Pos) (m : Meta) (L : LeafCls) (v : PyVal) (ch : Bool)
    (ht : treeAt none (rootCls kids) (rootObj ns) p = some (some m, .leaf L, .leaf v ch)) :
    ((∃ x, docAt none (rootCls kids) j p = some x) ↔ ch = true ∨ pyEq (L.default.getD (.bool false)) v = true) ∧
    ∀ x, docAt none (rootCls kids) j p = some x → serLeaf true m.module_ L v = .ok x := by
  obtain ⟨h1, h2⟩ := dump_leaf hn hj ht
  exact ⟨h1.trans (by simp [leafIncluded]), h2⟩

/-- C82, `IF_SET`: a leaf is in the document if and only if it is explicitly set.

Missing: leaves of number and boolean types that are not set and have no default (see
`C82_unset_number_refuted`).  `hz` holds of all leaves of bindings
(`C74_unset_default`). -/
theorem C82_if_set_partial (kids : List (Meta × Schema)) (hn : AllNames (rootCls kids)) (flt : Bool) (ns : List Inst) (j : J)
    (hj : ietfDump { flt := flt, wd := true } kids ns = .ok j) (p : List Pos) (m : Meta) (L : LeafCls) (v : PyVal) (ch : Bool)
    (ht : treeAt none (rootCls kids) (rootObj ns) p = some (some m, .leaf L, .leaf v ch)) (hz : ch = false → v = L.zero)
    (hd : ∀ d, L.default = some d → pyEq d L.zero = false) (ht' : L.default = none → ∃ s, L.zero = .str s) :
    (∃ x, docAt none (rootCls kids) j p = some x) ↔ ch = true := by
  refine (C82_if_set_leaf kids hn flt ns j hj p m L v ch ht).1.trans ⟨fun h => ?_, .inl⟩
  rcases h with h | h
  · exact h
  · cases ch with
    | true => rfl
    | false =>
      rw [hz rfl] at h
      cases he : L.default with
      | some d => simp [he, hd d he] at h
      | none =>
        obtain ⟨s, e⟩ := ht' he
        simp [he, e, pyEq, PyVal.num?] at h

/-- C82, `IF_SET`: a leaf-list is in the document if and only if it was changed. -/
theorem C82_if_set_leaflist (kids : List (Meta × Schema)) (hn : AllNames (rootCls kids)) (flt : Bool) (ns : List Inst) (j : J)
    (hj : ietfDump { flt := flt, wd := true } kids ns = .ok j) (p : List Pos) (m : Meta) (L : LLCls) (vs : List PyVal) (ch : Bool)
    (ht : treeAt none (rootCls kids) (rootObj ns) p = some (some m, .leafList L, .leafList vs ch)) :
    ((∃ x, docAt none (rootCls kids) j p = some x) ↔ ch = true) ∧
    ∀ x, docAt none (rootCls kids) j p = some x → ∃ xs, x = .arr xs ∧ vs.mapM (serElem true m.module_ L) = .ok xs := by
  obtain ⟨h1, h2⟩ := dump_leafList hn hj ht
  exact ⟨h1.trans (by simp [llIncluded]), h2⟩

/-! ## All options -/

/-- C82: whatever the options, there is a place in the document for everything in the
document without them, and there is nothing that is not in the tree. -/
theorem C82_more (kids : List (Meta × Schema)) (hn : AllNames (rootCls kids)) (o : DumpOpt) (ns : List Inst) (j j' : J)
    (hj : ietfDump {} kids ns = .ok j) (hj' : ietfDump o kids ns = .ok j') (p : List Pos) :
    (∀ x, docAt none (rootCls kids) j p = some x → ∃ x', docAt none (rootCls kids) j' p = some x') ∧
    (∀ x, docAt none (rootCls kids) j' p = some x → ∃ r, treeAt none (rootCls kids) (rootObj ns) p = some r) := by
  obtain ⟨h1, _⟩ := docAt_incl (p := p) hn (root_emits hj)
  obtain ⟨h1', h2'⟩ := docAt_incl (p := p) hn (root_emits hj')
  constructor
  · intro x hx
    obtain ⟨r, a, _, c⟩ := h1 x hx
    refine h2' r a fun he => incl_mono ?_ ?_ (c he)
    · intro L v ch h
      simp [leafIncluded] at h
      simp [leafIncluded, h]
    · intro ch h
      simp [llIncluded] at h
      simp [llIncluded, h]
  · intro x hx
    obtain ⟨r, a, _⟩ := h1' x hx
    exact ⟨r, a⟩

/-- C82: and a container without members is only in the document if it is marked as
present. -/
theorem C82_no_empty_container (kids : List (Meta × Schema)) (hn : AllNames (rootCls kids)) (o : DumpOpt) (ns : List Inst) (j : J)
    (hj : ietfDump o kids ns = .ok j) (p : List Pos) (hp : EndsInChild p) (pm : Option Meta) (pres ch pr : Bool)
    (kids' : List (Meta × Schema)) (ns' : List Inst)
    (ht : treeAt none (rootCls kids) (rootObj ns) p = some (pm, .cont pres kids', .cont ch pr ns'))
    (hx : docAt none (rootCls kids) j p = some (.obj [])) : pr = true := by
  obtain ⟨h1, _⟩ := docAt_incl (p := p) hn (root_emits hj)
  obtain ⟨r, a, b, c⟩ := h1 _ hx
  rw [ht] at a; simp at a; subst a
  cases c hp with
  | present => rfl
  | @child _ _ _ _ _ i k c hk hc hs =>
    cases b with
    | cont h =>
      obtain ⟨r0, hr⟩ := ietfKids_absent h hk hc
      obtain ⟨j', rfl⟩ := (ietfNode_incl hr).1.2 hs
      have := ietfKids_lookup h (ietfName_inj (allNames_treeAt hn ht)) hk hc hr
      simp [jget] at this

/-! ## Cases -/

/-- What is written for the example with `filter=False`. -/
example : ietfDump { flt := false } jsonKids jsonTree = .ok (.obj [(py!"m:c", .obj
    [(py!"a", .str py!"18446744073709551615"), (py!"b", .bool false), (py!"i", .str py!"n:red"), (py!"e", .arr [.null]),
     (py!"p", .obj [(py!"y", .num 7)]),
     (py!"l", .arr [.obj [(py!"k", .str py!"x"), (py!"z", .num 0)], .obj [(py!"k", .str py!"y"), (py!"z", .num 50)]]),
     (py!"v", .arr [.str py!"5", .str py!"6"])])]) := rfl

/-- What is written for texts with and without default, with `IF_SET`. -/
example : AllNames (rootCls dfltKids) ∧
    ietfDump { wd := true } dfltKids (freshKids dfltKids) = .ok (.obj []) ∧
    ietfDump { wd := true } dfltKids (history dfltKids (freshKids dfltKids) [([.field 0], .set (.str py!"dflt") false)]) =
      .ok (.obj [(py!"m:d", .str py!"dflt")]) ∧
    treeAt none (rootCls dfltKids) (rootObj (freshKids dfltKids)) [.child 0] =
      some (some (inM py!"d"), .leaf { tStr.cls noRx with default := some (.str py!"dflt") }, .leaf (.str []) false) ∧
    pyEq (.str py!"dflt") (tStr.cls noRx).zero = false ∧ (tStr.cls noRx).zero = .str [] :=
  ⟨⟨⟨by decide, by decide⟩, trivial, trivial, trivial⟩, rfl, rfl, rfl, rfl, rfl⟩

/-- C82 fails for numbers and booleans without default: with `IF_SET` they are written
although they were never set. -/
theorem C82_unset_number_refuted :
    ietfDump { wd := true } [(inM py!"a", .leaf (tTen.cls noRx)), (inM py!"b", .leaf (tBool.cls noRx))]
      (freshKids [(inM py!"a", .leaf (tTen.cls noRx)), (inM py!"b", .leaf (tBool.cls noRx))]) =
      .ok (.obj [(py!"m:a", .num 0), (py!"m:b", .bool false)]) := rfl

/-- C82 fails for defaults: with `filter=False` a leaf that is not set is not written with
its default, as `get(filter=False)` shows it, but with the value of a new one. -/
theorem C82_default_refuted :
    itemAt (rootCls dfltKids) (getRoot false dfltKids (freshKids dfltKids)) [.field 0] = some (.leaf (.str py!"dflt")) ∧
    ietfDump { flt := false } dfltKids (freshKids dfltKids) = .ok (.obj [(py!"m:d", .str []), (py!"m:s", .str [])]) := ⟨rfl, rfl⟩

end Pyb
