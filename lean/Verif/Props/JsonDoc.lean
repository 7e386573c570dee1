import Verif.Lemmas.JsonDoc
import Verif.Lemmas.Get
import Verif.Props.Json
import Verif.Props.Tree

/-! # What IETF documents contain (C41, C42), and defaults (C49) -/

namespace Pyb
open Py Spec

/-- The class and object of a module, from its children. -/
abbrev rootCls (kids : List (Meta × Schema)) : Schema := .cont false kids
abbrev rootObj (ns : List Inst) : Inst := .cont false false ns

theorem root_emits {o : DumpOpt} {kids : List (Meta × Schema)} {ns : List Inst} {j : J} (h : ietfDump o kids ns = .ok j) :
    Emits o none (rootCls kids) (rootObj ns) j := by
  simp only [ietfDump] at h
  cases hk : ietfKids o none kids ns with
  | error e => simp [hk, Except.map] at h
  | ok ms =>
    simp [hk, Except.map] at h
    subst h
    exact .cont hk

/-! ## C41 -/

/-- C41, leaves: wherever a leaf is in a tree, the document has a member there if and
only if the leaf is set; and then it is the encoding of its value. -/
theorem C41_leaf_iff_set (kids : List (Meta × Schema)) (hn : AllNames (rootCls kids)) (ns : List Inst) (j : J)
    (hj : ietfDump {} kids ns = .ok j) (p : List Pos) (m : Meta) (L : LeafCls) (v : PyVal) (ch : Bool)
    (ht : treeAt none (rootCls kids) (rootObj ns) p = some (some m, .leaf L, .leaf v ch)) :
    ((∃ x, docAt none (rootCls kids) j p = some x) ↔ ch = true) ∧
    ∀ x, docAt none (rootCls kids) j p = some x → serLeaf true m.module_ L v = .ok x := by
  obtain ⟨h1, h2⟩ := docAt_emits (p := p) hn (root_emits hj)
  have hp : p ≠ [] := by rintro rfl; rw [treeAt_nil] at ht; simp at ht
  have he : EndsInChild p := by
    rcases treeAt_ends ht hp with h | ⟨_, h⟩
    · exact h
    · simp at h
  refine ⟨⟨?_, ?_⟩, ?_⟩
  · rintro ⟨x, hx⟩
    obtain ⟨r, a, _, c⟩ := h1 x hx
    rw [ht] at a; simp at a; subst a
    cases c he
    rfl
  · rintro rfl
    exact h2 _ ht fun _ => .leaf
  · intro x hx
    obtain ⟨r, a, b, _⟩ := h1 x hx
    rw [ht] at a; simp at a; subst a
    cases b with
    | leaf h h' => simp only [Option.some.injEq] at h; subst h; exact h'

/-- C41, containers: a container without members is only in the document if it is marked
as present. -/
theorem C41_no_empty_container (kids : List (Meta × Schema)) (hn : AllNames (rootCls kids)) (ns : List Inst) (j : J)
    (hj : ietfDump {} kids ns = .ok j) (p : List Pos) (hp : EndsInChild p) (pm : Option Meta) (pres ch pr : Bool)
    (kids' : List (Meta × Schema)) (ns' : List Inst)
    (ht : treeAt none (rootCls kids) (rootObj ns) p = some (pm, .cont pres kids', .cont ch pr ns'))
    (hx : docAt none (rootCls kids) j p = some (.obj [])) : pr = true := by
  obtain ⟨h1, _⟩ := docAt_emits (p := p) hn (root_emits hj)
  obtain ⟨r, a, b, c⟩ := h1 _ hx
  rw [ht] at a; simp at a; subst a
  have hs := c hp
  cases hs with
  | present => rfl
  | @child _ _ _ _ _ i k c hk hc hs =>
    cases b with
    | cont h =>
      obtain ⟨r0, hr⟩ := ietfKids_absent h hk hc
      obtain ⟨j', rfl⟩ := (ietfNode_shown hr).1.2 hs
      have hnn : (kids'.map fun k => ietfName (pm.map Meta.ns) k.1).Nodup → False := by
        intro hd
        have := ietfKids_lookup h hd hk hc hr
        simp [jget] at this
      exact absurd (ietfName_inj (allNames_treeAt hn ht)) (fun h => hnn h)

/-- C41: what is in the document is in the tree, and all there is to be shown is in the
document. -/
theorem C41_same_places (kids : List (Meta × Schema)) (hn : AllNames (rootCls kids)) (ns : List Inst) (j : J)
    (hj : ietfDump {} kids ns = .ok j) (p : List Pos) :
    (∃ x, docAt none (rootCls kids) j p = some x) ↔
    ∃ r, treeAt none (rootCls kids) (rootObj ns) p = some r ∧ (EndsInChild p → Shown r.2.1 r.2.2) := by
  obtain ⟨h1, h2⟩ := docAt_emits (p := p) hn (root_emits hj)
  constructor
  · rintro ⟨x, hx⟩
    obtain ⟨r, a, _, c⟩ := h1 x hx
    exact ⟨r, a, c⟩
  · rintro ⟨r, a, c⟩
    exact h2 r a c

/-- The names of the example are in order. -/
theorem json_names : AllNames (rootCls jsonKids) := by
  refine ⟨⟨by decide, by decide⟩, ⟨⟨by decide, by decide⟩, ?_⟩, trivial⟩
  exact ⟨trivial, trivial, trivial, trivial, ⟨⟨by decide, by decide⟩, trivial, trivial⟩,
    ⟨⟨by decide, by decide⟩, trivial, trivial, trivial⟩, trivial, trivial⟩

example : treeAt none (rootCls jsonKids) (rootObj jsonTree) [.child 0, .child 5, .elem 1, .child 1] =
    some (some (inM py!"z"), .leaf (tPercent.cls noRx), .leaf (.int 50) true) ∧
    docAt none (rootCls jsonKids) jsonDoc [.child 0, .child 5, .elem 1, .child 1] = some (.num 50) ∧
    docAt none (rootCls jsonKids) jsonDoc [.child 0, .child 5, .elem 0, .child 1] = none := ⟨rfl, rfl, rfl⟩

/-- C41 fails for leaf-lists: one whose only value was removed is still written, as an
empty array. -/
theorem C41_emptied_leaflist_refuted :
    history dupKids (freshKids dupKids) [([.field 0], .ll (.append (.int 5))), ([.field 0], .ll (.remove (.int 5)))] =
      [.leafList [] true] ∧
    ietfDump {} dupKids [.leafList [] true] = .ok (.obj [(py!"m:v", .arr [])]) := ⟨rfl, rfl⟩

/-! ## C42 -/

/-- C42: every member of every object in the document has the name RFC 7951 requires for
one of the children there: qualified if and only if it is at the top level or in another
namespace than its parent.  No name is used twice. -/
theorem C42_member_names (kids : List (Meta × Schema)) (hn : AllNames (rootCls kids)) (ns : List Inst) (j : J)
    (hj : ietfDump {} kids ns = .ok j) (p : List Pos) (pm : Option Meta) (pres : Bool) (kids' : List (Meta × Schema)) (n : Inst)
    (ht : treeAt none (rootCls kids) (rootObj ns) p = some (pm, .cont pres kids', n)) (ms : List (Str × J))
    (hx : docAt none (rootCls kids) j p = some (.obj ms)) :
    (∀ x ∈ ms, ∃ k ∈ kids', x.1 = rfcName pm k.1) ∧ (ms.map Prod.fst).Nodup := by
  obtain ⟨h1, _⟩ := docAt_emits (p := p) hn (root_emits hj)
  obtain ⟨r, a, b, _⟩ := h1 _ hx
  rw [ht] at a; simp at a; subst a
  cases b with
  | cont h =>
    constructor
    · intro x hx
      obtain ⟨i, k, c, hk, _, e, _⟩ := ietfKids_sub h hx
      exact ⟨k, List.mem_of_getElem? hk, by rw [e, ietfName_rfc]⟩
    · exact (ietfKids_names h).nodup (ietfName_inj (allNames_treeAt hn ht))

/-- C42: the names of siblings are unambiguous.  If namespaces and module names
correspond, and identifiers have no colon, a member name determines the name and the
namespace of the child. -/
theorem C42_unambiguous (pm : Option Meta) (a b : Meta) (hmod : a.ns = b.ns ↔ a.module_ = b.module_)
    (ha : ':' ∉ a.name ∧ ':' ∉ a.module_) (hb : ':' ∉ b.name ∧ ':' ∉ b.module_) (h : rfcName pm a = rfcName pm b) :
    a.name = b.name ∧ a.ns = b.ns := by
  have qual : ∀ {x y u v : Str}, ':' ∉ x → ':' ∉ u → x ++ ':' :: y = u ++ ':' :: v → x = u ∧ y = v := by
    intro x
    induction x with
    | nil =>
      intro y u v _ hu e
      cases u with
      | nil => simpa using e
      | cons c u => simp at e; exact absurd (by rw [e.1]; simp) hu
    | cons c x ih =>
      intro y u v hx hu e
      cases u with
      | nil => simp at e; exact absurd (by rw [← e.1]; simp) hx
      | cons d u =>
        simp only [List.cons_append, List.cons.injEq] at e
        obtain ⟨h1, h2⟩ := ih (fun h => hx (by simp [h])) (fun h => hu (by simp [h])) e.2
        exact ⟨by rw [e.1, h1], h2⟩
  have hq : a.module_ ++ ':' :: a.name = b.module_ ++ ':' :: b.name → a.name = b.name ∧ a.ns = b.ns := by
    intro e
    obtain ⟨h1, h2⟩ := qual ha.2 hb.2 e
    exact ⟨h2, hmod.2 h1⟩
  cases pm with
  | none => exact hq h
  | some p =>
    simp only [rfcName] at h
    split at h <;> split at h
    · rename_i e1 e2; exact ⟨h, e1.symm.trans e2⟩
    · exact absurd (by rw [h]; simp) ha.1
    · exact absurd (by rw [← h]; simp) hb.1
    · exact hq h

example : docAt none (rootCls jsonKids) jsonDoc [] = some (.obj [(py!"m:c", ((docAt none (rootCls jsonKids) jsonDoc [.child 0]).getD .null))]) := rfl

/-! ## C49 -/

/-- C49: `get(filter=False)` shows, for every leaf of the tree, its value if it is set,
and otherwise its default if there is one. -/
theorem C49_defaults (kids : List (Meta × Schema)) (ns : List Inst) (hd : DistinctNames (rootCls kids)) (p : Path) (L : LeafCls)
    (v : PyVal) (ch : Bool) (hS : clsAt kids p = some (.leaf L)) (hn : objAt ns p = some (.leaf v ch)) :
    ∃ w, itemAt (rootCls kids) (getRoot false kids ns) p = some (.leaf w) ∧
      (ch = true → w = v) ∧ (ch = false → ∀ x, L.default = some x → w = x) ∧ (ch = false → L.default = none → w = v) := by
  have h := itemAt_get (f := false) hd hS hn (.inl rfl)
  refine ⟨_, h, ?_, ?_, ?_⟩
  · rintro rfl; simp
  · rintro rfl x hx; simp [hx]
  · rintro rfl hx; simp [hx]

/-- A module with a leaf `d` that has a default, and a leaf `s` that has none. -/
def dfltKids : List (Meta × Schema) :=
  [(inM py!"d", .leaf { tStr.cls noRx with default := some (.str py!"dflt") }), (inM py!"s", .leaf (tStr.cls noRx))]

theorem dflt_distinct : DistinctNames (rootCls dfltKids) := by
  refine nodup_names (by decide) ?_ false
  intro k hk
  simp only [dfltKids, List.mem_cons, List.not_mem_nil, or_false] at hk
  rcases hk with rfl | rfl
  · exact distinct_leaf _
  · exact distinct_leaf _

example : DistinctNames (rootCls dfltKids) ∧ objAt (freshKids dfltKids) [.field 0] = some (.leaf (.str []) false) ∧
    itemAt (rootCls dfltKids) (getRoot false dfltKids (freshKids dfltKids)) [.field 0] = some (.leaf (.str py!"dflt")) ∧
    itemAt (rootCls dfltKids) (getRoot false dfltKids (history dfltKids (freshKids dfltKids) [([.field 0], .set (.str py!"x") false)]))
      [.field 0] = some (.leaf (.str py!"x")) := ⟨dflt_distinct, rfl, rfl, rfl⟩

end Pyb
