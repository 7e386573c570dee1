import Verif.Lemmas.Get
import Verif.Lemmas.Copy

/-! # Properties of instance trees

The object of the module's class is given by its children; `history kids ns ops` are
its children after the operations `ops`. -/

namespace Pyb
open Py Spec

/-! ## A module for the examples

```
container c {
  choice ch { case one { leaf a; } case two { leaf b; } }
  leaf x;
  container p { presence; leaf y; }
  list l { key k; leaf k; leaf z; }
  leaf-list v;
}
leaf-list w;  (top level)
``` -/

/-- A string leaf: takes strings, refuses anything else. -/
def strLeaf : LeafCls where
  zero := .str []
  set := fun
    | .str s => .ok (.str s)
    | _ => .refused .valueError

/-- A string leaf with a default. -/
def dfltLeaf : LeafCls := { strLeaf with default := some (.str py!"d") }

/-- A leaf whose type refuses the empty string only after `_set` was called. -/
def lateLeaf : LeafCls where
  zero := .str []
  set := fun
    | .str [] => .marked .valueError
    | .str s => .ok (.str s)
    | _ => .refused .valueError

def strLL : LLCls where
  conv := fun
    | .str s => some (.str s)
    | _ => none
  «show» := fun _ => []

def cA : Choice := ⟨py!"ch", py!"one"⟩
def cB : Choice := ⟨py!"ch", py!"two"⟩

def demoL : List (Meta × Schema) := [({ name := py!"k" }, .leaf strLeaf), ({ name := py!"z" }, .leaf strLeaf)]

def demoC : List (Meta × Schema) :=
  [({ name := py!"a", choice := some cA }, .leaf strLeaf),
   ({ name := py!"b", choice := some cB }, .leaf strLeaf),
   ({ name := py!"x" }, .leaf dfltLeaf),
   ({ name := py!"p" }, .cont true [({ name := py!"y" }, .leaf strLeaf)]),
   ({ name := py!"l" }, .list { keys := [0] } demoL),
   ({ name := py!"v" }, .leafList strLL)]

def demoM : List (Meta × Schema) :=
  [({ name := py!"c" }, .cont false demoC), ({ name := py!"w" }, .leafList strLL)]

theorem demoM_flat : FlatRoot demoM := by
  intro k hk
  simp only [demoM, List.mem_cons, List.not_mem_nil, or_false] at hk
  rcases hk with rfl | rfl
  · simp [Choices, ChoicesKids, demoC, demoL, choiceNames, cA, cB]
  · simp [Choices]

/-- `container t { choice ch { case one { container c { choice in { case a { container x { leaf l; } }
case b { leaf m; } } } } case two { leaf y; } } }`: a choice in a container in a case. -/
def innerM : List (Meta × Schema) :=
  [({ name := py!"t" }, .cont false
    [({ name := py!"c", choice := some cA }, .cont false
      [({ name := py!"x", choice := some ⟨py!"in", py!"a"⟩ }, .cont false [({ name := py!"l", choice := some ⟨py!"in", py!"a"⟩ }, .leaf strLeaf)]),
       ({ name := py!"m", choice := some ⟨py!"in", py!"b"⟩ }, .leaf strLeaf)]),
     ({ name := py!"y", choice := some cB }, .leaf strLeaf)])]

theorem innerM_apart : ApartRoot innerM := by
  intro k hk
  simp [innerM] at hk
  subst hk
  simp [Choices, ChoicesKids, choiceNames, cA, cB]

theorem nodup_names {kids : List (Meta × Schema)} (h : (kids.map fun k => k.1.name).Nodup)
    (hk : ∀ k ∈ kids, DistinctNames k.2) (pres : Bool) : DistinctNames (.cont pres kids) := by
  intro p pres' kids' hs
  cases p with
  | nil => simp at hs; obtain ⟨_, rfl⟩ := hs; exact h
  | cons s p =>
    cases s with
    | key k => simp [schemaAt] at hs
    | field i =>
      rw [schemaAt_cont] at hs
      cases hi : kids[i]? with
      | none => simp [hi] at hs
      | some k => simp only [hi, Option.bind_some] at hs; exact hk k (List.mem_of_getElem? hi) p pres' kids' hs

theorem distinct_leaf (L : LeafCls) : DistinctNames (.leaf L) := by
  intro p _ _ hs; cases p <;> simp [schemaAt] at hs
theorem distinct_ll (L : LLCls) : DistinctNames (.leafList L) := by
  intro p _ _ hs; cases p <;> simp [schemaAt] at hs
theorem distinct_list {info : ListInfo} {kids : List (Meta × Schema)} (h : DistinctNames (.cont false kids)) :
    DistinctNames (.list info kids) := by
  intro p pres' kids' hs
  cases p with
  | nil => simp at hs
  | cons s p => cases s with
    | field i => simp [schemaAt] at hs
    | key k => exact h p pres' kids' hs

theorem demoM_distinct : DistinctNames (.cont false demoM) := by
  refine nodup_names (by decide) ?_ false
  intro k hk
  simp only [demoM, List.mem_cons, List.not_mem_nil, or_false] at hk
  rcases hk with rfl | rfl
  · refine nodup_names (by decide) ?_ false
    intro k hk
    simp only [demoC, List.mem_cons, List.not_mem_nil, or_false] at hk
    rcases hk with rfl | rfl | rfl | rfl | rfl | rfl
    · exact distinct_leaf _
    · exact distinct_leaf _
    · exact distinct_leaf _
    · refine nodup_names (by decide) ?_ true
      intro k hk
      simp only [List.mem_cons, List.not_mem_nil, or_false] at hk
      subst hk; exact distinct_leaf _
    · refine distinct_list (nodup_names (by decide) ?_ false)
      intro k hk
      simp only [demoL, List.mem_cons, List.not_mem_nil, or_false] at hk
      rcases hk with rfl | rfl <;> exact distinct_leaf _
    · exact distinct_ll _
  · exact distinct_ll _

/-- The binding after `c.b = "1"; c.a = "2"; c.l.add("e"); c.l["e"].z = "3"; c.p.y = "4"`. -/
def demoOps : List (Path × Op) :=
  [([.field 0, .field 1], .set (.str py!"1") false),
   ([.field 0, .field 0], .set (.str py!"2") false),
   ([.field 0, .field 4], .add (.str py!"e")),
   ([.field 0, .field 4, .key (.str py!"e"), .field 1], .set (.str py!"3") false),
   ([.field 0, .field 3, .field 0], .set (.str py!"4") false)]

def demoN : List Inst := history demoM (freshKids demoM) demoOps

/-! ## Key leaves -/

/-- **C27.**  Assigning to a key leaf of an entry of a list raises `AttributeError` and
changes nothing. -/
theorem C27_key_guard (kids : List (Meta × Schema)) (ns : List Inst) (p : Path) (info : ListInfo)
    (ks : List (Meta × Schema)) (k : PyVal) (j : Nat) (e : Inst) (op : Op)
    (hop : (∃ v, op = .set v false) ∨ ∃ v, op = .assign v)
    (hS : clsAt kids p = some (.list info ks)) (hj : j ∈ info.keys)
    (hn : objAt ns (p ++ [.key k]) = some e) (hh : ∀ x, Step.key x ∈ p ++ [.key k] → hashable x = true) :
    runRoot kids ns (p ++ [.key k, .field j]) op = (ns, some .attributeError) := by
  have hg : keyGuard info [.field j] op = true := by
    rcases hop with ⟨v, rfl⟩ | ⟨v, rfl⟩ <;> simpa [keyGuard] using hj
  cases p with
  | nil => simp [clsAt] at hS
  | cons s p =>
    cases s with
    | key k => simp [clsAt, schemaAt] at hS
    | field i =>
      simp only [List.cons_append] at hn hh ⊢
      rw [objAt_field] at hn
      rw [clsAt_field] at hS
      cases hk : kids[i]? with
      | none => simp [hk] at hS
      | some kk =>
        cases hc : ns[i]? with
        | none => simp [hc] at hn
        | some c =>
          simp only [hk, hc, Option.bind_some] at hS hn
          simp only [runRoot, hk, hc, run_guard hS hn (fun x hx => hh x (List.mem_cons_of_mem _ hx)) hg, set_same hc]

example : runRoot demoM demoN [.field 0, .field 4, .key (.str py!"e"), .field 0] (.set (.str py!"f") false)
    = (demoN, some .attributeError) :=
  C27_key_guard demoM demoN [.field 0, .field 4] { keys := [0] } demoL (.str py!"e") 0 _ _ (.inl ⟨_, rfl⟩) rfl
    (by simp) rfl (by simp [hashable])

/-- The guard does not cover `_unset_<key>()`: it empties the key leaf of an entry that
stays under its key. -/
theorem C27_unset_refuted : ∃ kids ns p k j v, objAt ns (p ++ [.key k, .field j]) = some (.leaf k true) ∧
    objAt (runRoot kids ns (p ++ [.key k, .field j]) .unset).1 (p ++ [.key k, .field j]) = some (.leaf v false) ∧
    v ≠ k :=
  ⟨demoM, demoN, [.field 0, .field 4], .str py!"e", 0, .str [], rfl, rfl, by decide⟩

/-! ## `get` -/

/-- **C29.**  In `get(filter=True)` there is an item for a leaf iff the leaf is set, and
it is the leaf's value. -/
theorem C29_leaf (kids : List (Meta × Schema)) (ns : List Inst) (p : Path) (L : LeafCls) (v : PyVal) (ch : Bool)
    (hd : DistinctNames (.cont false kids)) (hS : clsAt kids p = some (.leaf L))
    (hn : objAt ns p = some (.leaf v ch)) :
    itemAt (.cont false kids) (getRoot true kids ns) p = if ch then some (.leaf v) else none := by
  have hroot : getRoot true kids ns = getNode true (.cont false kids) (.cont false false ns) := rfl
  cases ch with
  | true =>
    rw [hroot, itemAt_get hd hS hn (.inr (.inl .leaf))]
    simp [getNode]
  | false =>
    simp only [Bool.false_eq_true, if_false]
    cases h : itemAt (.cont false kids) (getRoot true kids ns) p with
    | none => rfl
    | some d =>
      exfalso
      rw [hroot] at h
      obtain ⟨T, m, h1, h2, _, h4⟩ := itemAt_get_inv hd h
      rw [clsAt] at hS
      rw [objAt] at hn
      rw [hS] at h1; rw [hn] at h2
      simp at h1 h2; subst h1; subst h2
      rcases h4 rfl with h | ⟨k, h⟩ | h
      · subst h; simp at hS
      · obtain ⟨ks, h⟩ := schemaAt_entry hS ⟨k, h⟩
        simp at h
      · cases h

/-- **C29.**  Everything else appears iff it is, or holds, data: a leaf-list with
values, a list with entries, a present presence container, or a container with such a
child.  Every entry of a list that appears is shown. -/
theorem C29_shown (kids : List (Meta × Schema)) (ns : List Inst) (p : Path) (T : Schema) (m : Inst)
    (hd : DistinctNames (.cont false kids)) (hp : p ≠ []) (hS : clsAt kids p = some T) (hn : objAt ns p = some m) :
    (itemAt (.cont false kids) (getRoot true kids ns) p).isSome ↔ Visible T m ∨ EndsInKey p := by
  have hroot : getRoot true kids ns = getNode true (.cont false kids) (.cont false false ns) := rfl
  rw [hroot]
  constructor
  · intro h
    obtain ⟨d, h⟩ := Option.isSome_iff_exists.1 h
    obtain ⟨T', m', h1, h2, _, h4⟩ := itemAt_get_inv hd h
    rw [clsAt] at hS; rw [objAt] at hn
    rw [hS] at h1; rw [hn] at h2
    simp at h1 h2; subst h1; subst h2
    rcases h4 rfl with h | h | h
    · exact absurd h hp
    · exact .inr h
    · exact .inl h
  · intro h
    rw [itemAt_get hd hS hn (by rcases h with h | h <;> simp [h])]
    rfl

/-- **C29.**  Every item of `get(filter=True)` is an object of the tree. -/
theorem C29_only (kids : List (Meta × Schema)) (ns : List Inst) (p : Path) (d : DVal)
    (hd : DistinctNames (.cont false kids)) (h : itemAt (.cont false kids) (getRoot true kids ns) p = some d) :
    ∃ T m, clsAt kids p = some T ∧ objAt ns p = some m := by
  obtain ⟨T, m, h1, h2, _⟩ := itemAt_get_inv (n := .cont false false ns) hd h
  exact ⟨T, m, h1, h2⟩

example : itemAt (.cont false demoM) (getRoot true demoM demoN) [.field 0, .field 4, .key (.str py!"e"), .field 1]
    = some (.leaf (.str py!"3")) :=
  C29_leaf demoM demoN _ strLeaf (.str py!"3") true demoM_distinct rfl rfl
example : itemAt (.cont false demoM) (getRoot true demoM demoN) [.field 0, .field 2] = none :=
  C29_leaf demoM demoN _ dfltLeaf (.str []) false demoM_distinct rfl rfl
example : (itemAt (.cont false demoM) (getRoot true demoM demoN) [.field 1]).isSome = false := by
  have := C29_shown demoM demoN [.field 1] (.leafList strLL) (.leafList [] false) demoM_distinct (by simp) rfl rfl
  cases h : (itemAt (.cont false demoM) (getRoot true demoM demoN) [.field 1]).isSome with
  | false => rfl
  | true =>
    rw [h] at this
    rcases this.1 rfl with h | ⟨k, h⟩
    · cases h; contradiction
    · simp at h

/-- **C30.**  `get(filter=False)` has an item for every object of the tree; that of a
leaf is its value if it is set, else its default if it has one. -/
theorem C30_unfiltered (kids : List (Meta × Schema)) (ns : List Inst) (p : Path) (T : Schema) (m : Inst)
    (hd : DistinctNames (.cont false kids)) (hS : clsAt kids p = some T) (hn : objAt ns p = some m) :
    (itemAt (.cont false kids) (getRoot false kids ns) p).isSome ∧
    ∀ L v ch, T = .leaf L → m = .leaf v ch →
      itemAt (.cont false kids) (getRoot false kids ns) p
        = some (.leaf (if ch = true then v else match L.default with | some d => d | none => v)) := by
  have hroot : getRoot false kids ns = getNode false (.cont false kids) (.cont false false ns) := rfl
  rw [hroot, itemAt_get hd hS hn (.inl rfl)]
  refine ⟨rfl, ?_⟩
  rintro L v ch rfl rfl
  cases ch <;> cases h : L.default <;> simp [getNode, h]

example : itemAt (.cont false demoM) (getRoot false demoM demoN) [.field 0, .field 2] = some (.leaf (.str py!"d")) :=
  (C30_unfiltered demoM demoN [.field 0, .field 2] (.leaf dfltLeaf) (.leaf (.str []) false) demoM_distinct rfl rfl).2 _ _ _ rfl rfl

/-! ## Setting and unsetting a leaf -/

/-- **C34.**  After a leaf is set, reading it gives the converted value, and it is
changed.  Missing: schemas where a choice has the name of a choice above it. -/
theorem C34_set_get_partial (kids : List (Meta × Schema)) (hf : ApartRoot kids) (ns ns' : List Inst) (p : Path)
    (v : PyVal) (load : Bool) (h : runRoot kids ns p (.set v load) = (ns', none)) :
    ∃ L w, clsAt kids p = some (.leaf L) ∧ L.set v = .ok w ∧ objAt ns' p = some (.leaf w true) := by
  rcases runRoot_cases kids ns p (.set v load) with ⟨e, he⟩ | ⟨i, p', k, c, rfl, hk, hc, he⟩
  · rw [he] at h; simp at h
  · rw [he] at h
    simp only [Prod.mk.injEq] at h
    obtain ⟨rfl, h⟩ := h
    obtain ⟨T, m, own', h1, h2, h3, h4⟩ := run_at (hf k (List.mem_of_getElem? hk)) h (.inl rfl)
    have key : ∃ L w, T = .leaf L ∧ L.set v = .ok w ∧ (nodeOp T own' m (.set v load)).inst = .leaf w true := by
      cases T with
      | leaf L =>
        simp only [nodeOp, leafSet] at h4 ⊢
        cases hs : L.set v with
        | refused e => simp [hs] at h4
        | marked e => simp [hs] at h4
        | ok w => exact ⟨L, w, rfl, hs, rfl⟩
      | _ => cases m <;> simp [nodeOp, fail] at h4
    obtain ⟨L, w, rfl, hs, hi⟩ := key
    refine ⟨L, w, by rw [clsAt_field, hk]; exact h1, hs, ?_⟩
    rw [objAt_field, List.getElem?_set_self (List.getElem?_eq_some_iff.1 hc).1]
    simp only [Option.bind_some, h3, hi]

example : ∃ L w, clsAt demoM [.field 0, .field 0] = some (.leaf L) ∧ L.set (.str py!"2") = .ok w ∧
    objAt (runRoot demoM demoN [.field 0, .field 0] (.set (.str py!"2") false)).1 [.field 0, .field 0]
      = some (.leaf w true) :=
  C34_set_get_partial demoM demoM_flat.apart demoN _ [.field 0, .field 0] _ _ rfl

example : ∃ L w, clsAt innerM [.field 0, .field 0, .field 0, .field 0] = some (.leaf L) ∧ L.set (.str py!"1") = .ok w ∧
    objAt (runRoot innerM (freshKids innerM) [.field 0, .field 0, .field 0, .field 0] (.set (.str py!"1") false)).1
      [.field 0, .field 0, .field 0, .field 0] = some (.leaf w true) :=
  C34_set_get_partial innerM innerM_apart (freshKids innerM) _ [.field 0, .field 0, .field 0, .field 0] (.str py!"1") false rfl

/-- **C34.**  After `_unset_<child>()` the child is as in a new binding, for every
schema; a leaf then has its initial value and is not changed. -/
theorem C34_unset (kids : List (Meta × Schema)) (ns ns' : List Inst) (p : Path)
    (h : runRoot kids ns p .unset = (ns', none)) :
    ∃ T, clsAt kids p = some T ∧ objAt ns' p = some (fresh T) ∧ ∀ L, T = .leaf L → objAt ns' p = some (.leaf L.zero false) := by
  rcases runRoot_cases kids ns p .unset with ⟨e, he⟩ | ⟨i, p', k, c, rfl, hk, hc, he⟩
  · rw [he] at h; simp at h
  · rw [he] at h
    simp only [Prod.mk.injEq] at h
    obtain ⟨rfl, h⟩ := h
    obtain ⟨T, h1, h2⟩ := run_unset.2 h
    have : objAt (ns.set i (run k.2 k.1.choice c p' .unset).inst) (.field i :: p') = some (fresh T) := by
      rw [objAt_field, List.getElem?_set_self (List.getElem?_eq_some_iff.1 hc).1]
      exact h2
    refine ⟨T, by rw [clsAt_field, hk]; exact h1, this, ?_⟩
    rintro L rfl
    exact this

example : objAt demoN [.field 0, .field 0] = some (.leaf (.str py!"2") true) ∧
    objAt (runRoot demoM demoN [.field 0, .field 0] .unset).1 [.field 0, .field 0] = some (.leaf (.str []) false) := by
  obtain ⟨T, h1, _, h3⟩ := C34_unset demoM demoN _ [.field 0, .field 0] rfl
  exact ⟨rfl, h3 strLeaf (by simpa [clsAt, schemaAt, demoM, demoC] using h1.symm)⟩

/-- A module where a container in a case of a choice `ch` holds another choice `ch`:

```
container o {
  choice ch { case one { container q { choice ch { case two { leaf x; } } } leaf z; } }
}
``` -/
def nestC : List (Meta × Schema) :=
  [({ name := py!"q", choice := some cA }, .cont false [({ name := py!"x", choice := some cB }, .leaf strLeaf)]),
   ({ name := py!"z", choice := some cA }, .leaf strLeaf)]
def nestM : List (Meta × Schema) := [({ name := py!"o" }, .cont false nestC)]

/-- With a choice of the same name above it, setting a leaf succeeds and has no effect:
the container it is in is replaced by a new one. -/
theorem C34_same_name_refuted : ∃ kids ns ns' p v, runRoot kids ns p (.set v false) = (ns', none) ∧
    objAt ns' p = some (.leaf (.str []) false) ∧ v ≠ .str [] :=
  ⟨nestM, freshKids nestM, _, [.field 0, .field 0, .field 0], .str py!"1", rfl, rfl, by decide⟩

/-! ## Failed assignments -/

/-- **C35.**  If assigning to a leaf raises, nothing has changed.  Missing: types that
refuse some value only in `__init__`, after `_set` was called (`marked`). -/
theorem C35_failed_set_partial (kids : List (Meta × Schema)) (ns ns' : List Inst) (p : Path) (v : PyVal) (load : Bool)
    (e : Err) (h : runRoot kids ns p (.set v load) = (ns', some e))
    (hm : ∀ L, clsAt kids p = some (.leaf L) → ∀ e, L.set v ≠ .marked e) : ns' = ns := by
  rcases runRoot_cases kids ns p (.set v load) with ⟨e', he⟩ | ⟨i, p', k, c, rfl, hk, hc, he⟩
  · rw [he] at h; simp at h; exact h.1.symm
  · rw [he] at h
    simp only [Prod.mk.injEq] at h
    obtain ⟨rfl, h⟩ := h
    have := run_failed h ?_
    · rw [this]; exact set_same hc
    · intro T own' m hT _ herr
      cases T with
      | leaf L =>
        have := hm L (by rw [clsAt_field, hk]; exact hT)
        simp only [nodeOp, leafSet] at herr ⊢
        cases hs : L.set v with
        | refused e' => simp [hs] at herr ⊢; exact herr
        | marked e' => exact absurd hs (this e')
        | ok w => simp [hs] at herr
      | _ => cases m <;> simp [nodeOp, fail] at herr ⊢ <;> exact herr

example : (runRoot demoM demoN [.field 0, .field 0] (.set (.int 5) false)).1 = demoN :=
  C35_failed_set_partial demoM demoN _ [.field 0, .field 0] (.int 5) false .valueError rfl (by
    intro L hL e
    have : L = strLeaf := by
      have : clsAt demoM [.field 0, .field 0] = some (.leaf strLeaf) := rfl
      rw [this] at hL; simp at hL; exact hL.symm
    subst this
    simp [strLeaf])

/-- A module with such a type: `container o { leaf m; leaf b; }`, with `m` and `b` in
different cases. -/
def lateM : List (Meta × Schema) :=
  [({ name := py!"o" }, .cont false
    [({ name := py!"m", choice := some cA }, .leaf lateLeaf), ({ name := py!"b", choice := some cB }, .leaf strLeaf)])]

/-- A value refused in `__init__` still marks the containers changed, and deletes the
data of the other case. -/
theorem C35_failed_set_refuted : ∃ kids ns ns' p q v e w, runRoot kids ns p (.set v false) = (ns', some e) ∧
    objAt ns q = some (.leaf w true) ∧ objAt ns' q = some (.leaf (.str []) false) :=
  ⟨lateM, history lateM (freshKids lateM) [([.field 0, .field 1], .set (.str py!"1") false)], _,
    [.field 0, .field 0], [.field 0, .field 1], .str [], .valueError, .str py!"1", rfl, rfl, rfl⟩

/-! ## Ancestors and presence -/

/-- **C31.**  After a leaf is set, every container between it and the object of the
module is changed (and so is the leaf, by C34).  Missing: as in C34. -/
theorem C31_ancestors_partial (kids : List (Meta × Schema)) (hf : ApartRoot kids) (ns ns' : List Inst) (p1 p2 : Path)
    (v : PyVal) (load : Bool) (h : runRoot kids ns (p1 ++ p2) (.set v load) = (ns', none)) (h1 : p1 ≠ []) (h2 : p2 ≠ [])
    (pres : Bool) (ks : List (Meta × Schema)) (ch pr : Bool) (ms : List Inst)
    (hS : clsAt kids p1 = some (.cont pres ks)) (hn : objAt ns' p1 = some (.cont ch pr ms)) :
    ch = true := by
  rcases runRoot_cases kids ns (p1 ++ p2) (.set v load) with ⟨e, he⟩ | ⟨i, p', k, c, hp, hk, hc, he⟩
  · rw [he] at h; simp at h
  · rw [he] at h
    simp only [Prod.mk.injEq] at h
    obtain ⟨rfl, h⟩ := h
    cases p1 with
    | nil => exact absurd rfl h1
    | cons s p1 =>
      simp only [List.cons_append, List.cons.injEq] at hp
      obtain ⟨rfl, rfl⟩ := hp
      simp only [objAt_field, List.getElem?_set_self (List.getElem?_eq_some_iff.1 hc).1, Option.bind_some] at hn
      rw [clsAt_field, hk] at hS
      exact (run_above (hf k (List.mem_of_getElem? hk)) (run_set_loud h) (.inl rfl) h2 hS hn).1

/-- **C36.**  After a leaf is set, every presence container above it is present.
Missing: as in C34. -/
theorem C36_set_below_partial (kids : List (Meta × Schema)) (hf : ApartRoot kids) (ns ns' : List Inst) (p1 p2 : Path)
    (v : PyVal) (load : Bool) (h : runRoot kids ns (p1 ++ p2) (.set v load) = (ns', none)) (h1 : p1 ≠ []) (h2 : p2 ≠ [])
    (ks : List (Meta × Schema)) (ch pr : Bool) (ms : List Inst)
    (hS : clsAt kids p1 = some (.cont true ks)) (hn : objAt ns' p1 = some (.cont ch pr ms)) :
    pr = true := by
  rcases runRoot_cases kids ns (p1 ++ p2) (.set v load) with ⟨e, he⟩ | ⟨i, p', k, c, hp, hk, hc, he⟩
  · rw [he] at h; simp at h
  · rw [he] at h
    simp only [Prod.mk.injEq] at h
    obtain ⟨rfl, h⟩ := h
    cases p1 with
    | nil => exact absurd rfl h1
    | cons s p1 =>
      simp only [List.cons_append, List.cons.injEq] at hp
      obtain ⟨rfl, rfl⟩ := hp
      simp only [objAt_field, List.getElem?_set_self (List.getElem?_eq_some_iff.1 hc).1, Option.bind_some] at hn
      rw [clsAt_field, hk] at hS
      exact (run_above (hf k (List.mem_of_getElem? hk)) (run_set_loud h) (.inl rfl) h2 hS hn).2 rfl

example : ∃ ms, objAt (runRoot demoM (freshKids demoM) [.field 0, .field 3, .field 0] (.set (.str py!"4") false)).1
    [.field 0, .field 3] = some (.cont true true ms) := ⟨_, rfl⟩

/-- Any tree reached without marking containers absent. -/
theorem mark_at {kids : List (Meta × Schema)} {ops : List (Path × Op)} (hops : ∀ x ∈ ops, x.2 ≠ .present false)
    {p : Path} (hp : p ≠ []) {pres : Bool} {ks : List (Meta × Schema)} {ch pr : Bool} {ms : List Inst}
    (hS : clsAt kids p = some (.cont pres ks)) (hn : objAt (history kids (freshKids kids) ops) p = some (.cont ch pr ms))
    (hset : HasSet (.cont ch pr ms)) : ch = true ∧ (pres = true → pr = true) := by
  have hinv := history_inv (st := true) stable_mark (by simp) hops (rootInv_fresh (st := true) stable_mark kids)
  cases p with
  | nil => exact absurd rfl hp
  | cons s p =>
    cases s with
    | key k => simp [objAt, nodeAt_cont_key] at hn
    | field i =>
      rw [objAt_field] at hn
      rw [clsAt_field] at hS
      cases hc : (history kids (freshKids kids) ops)[i]? with
      | none => simp [hc] at hn
      | some c =>
        cases hk : kids[i]? with
        | none => simp [hk] at hS
        | some k =>
          simp only [hc, hk, Option.bind_some] at hn hS
          obtain ⟨_, _, _, he, hI, _⟩ := (treeInv_at (hinv.2 i k c hk hc) hS hn).cont_inv
          simp only [Inst.cont.injEq] at he
          obtain ⟨rfl, rfl, rfl⟩ := he
          rw [hasSet_iff, has_cont] at hset
          exact hI (by simpa using hset)

/-- **C31.**  After any history without `_set_present(False)`, in any schema: a
container with a set leaf below it is changed. -/
theorem C31_history (kids : List (Meta × Schema)) (ops : List (Path × Op)) (hops : ∀ x ∈ ops, x.2 ≠ .present false)
    (p : Path) (hp : p ≠ []) (pres : Bool) (ks : List (Meta × Schema)) (ch pr : Bool) (ms : List Inst)
    (hS : clsAt kids p = some (.cont pres ks)) (hn : objAt (history kids (freshKids kids) ops) p = some (.cont ch pr ms))
    (hset : HasSet (.cont ch pr ms)) : ch = true := (mark_at hops hp hS hn hset).1

/-- **C36.**  After any history without `_set_present(False)`, in any schema: a presence
container with a set leaf below it is present. -/
theorem C36_history (kids : List (Meta × Schema)) (ops : List (Path × Op)) (hops : ∀ x ∈ ops, x.2 ≠ .present false)
    (p : Path) (hp : p ≠ []) (ks : List (Meta × Schema)) (ch pr : Bool) (ms : List Inst)
    (hS : clsAt kids p = some (.cont true ks)) (hn : objAt (history kids (freshKids kids) ops) p = some (.cont ch pr ms))
    (hset : HasSet (.cont ch pr ms)) : pr = true := (mark_at hops hp hS hn hset).2 rfl

example : ∃ ch pr ms, objAt (history demoM (freshKids demoM) demoOps) [.field 0, .field 3] = some (.cont ch pr ms) ∧
    HasSet (.cont ch pr ms) ∧ ch = true ∧ pr = true := by
  refine ⟨_, _, _, rfl, ⟨.str py!"4", .field (List.mem_cons_self ..) .here⟩, ?_, ?_⟩
  · exact C31_history demoM demoOps (by simp [demoOps]) [.field 0, .field 3] (by simp) true _ _ _ _ rfl rfl
      ⟨.str py!"4", .field (List.mem_cons_self ..) .here⟩
  · exact C36_history demoM demoOps (by simp [demoOps]) [.field 0, .field 3] (by simp) _ _ _ _ rfl rfl
      ⟨.str py!"4", .field (List.mem_cons_self ..) .here⟩

/-- `_set_present(False)` makes a container with data below it report no change. -/
theorem C31_absent_refuted : ∃ kids ops p q ms v, objAt (history kids (freshKids kids) ops) p = some (.cont false false ms) ∧
    objAt (history kids (freshKids kids) ops) (p ++ q) = some (.leaf v true) :=
  ⟨demoM, demoOps ++ [([.field 0], .present false)], [.field 0], [.field 0], _, .str py!"2", rfl, rfl⟩

/-- **C36.**  `_set_present(b)` makes a presence container present or absent.  Missing:
as in C34. -/
theorem C36_mark_partial (kids : List (Meta × Schema)) (hf : ApartRoot kids) (ns ns' : List Inst) (p : Path) (b : Bool)
    (h : runRoot kids ns p (.present b) = (ns', none)) :
    ∃ ms, objAt ns' p = some (.cont b b ms) := by
  rcases runRoot_cases kids ns p (.present b) with ⟨e, he⟩ | ⟨i, p', k, c, rfl, hk, hc, he⟩
  · rw [he] at h; simp at h
  · rw [he] at h
    simp only [Prod.mk.injEq] at h
    obtain ⟨rfl, h⟩ := h
    obtain ⟨T, m, own', h1, h2, h3, h4⟩ := run_at (hf k (List.mem_of_getElem? hk)) h (.inl rfl)
    rw [objAt_field, List.getElem?_set_self (List.getElem?_eq_some_iff.1 hc).1]
    simp only [Option.bind_some, h3]
    cases T <;> cases m <;> cases b <;> simp [nodeOp, fail] at h4 ⊢

example : ∃ ms, objAt (runRoot demoM demoN [.field 0, .field 3] (.present false)).1 [.field 0, .field 3]
    = some (.cont false false ms) :=
  C36_mark_partial demoM demoM_flat.apart demoN _ [.field 0, .field 3] false rfl

/-- **C36.**  Nothing else changes whether a container is present: an operation that is
neither at or above it, nor below it, nor in a competing case.  A new container is not
present.  Missing: as in C34. -/
theorem C36_frame_partial (kids : List (Meta × Schema)) (hf : ApartRoot kids) (ns : List Inst) (p q : Path) (op : Op)
    (h1 : ¬ Covers p q) (h2 : ¬ CompetesBelow kids p q) (h3 : ¬ Covers q p) :
    objAt (runRoot kids ns p op).1 q = objAt ns q := by
  rcases runRoot_cases kids ns p op with ⟨e, he⟩ | ⟨i, p', k, c, rfl, hk, hc, he⟩
  · rw [he]
  · rw [he]
    cases q with
    | nil => simp [Covers] at h3
    | cons t q =>
      cases t with
      | key k => rfl
      | field j =>
        rw [objAt_field, objAt_field]
        by_cases e : i = j
        · subst e
          simp only [List.getElem?_set_self (List.getElem?_eq_some_iff.1 hc).1, hc, Option.bind_some]
          exact run_frame (hf k (List.mem_of_getElem? hk)) (.inl rfl) (fun h => h1 ⟨rfl, h⟩)
            (fun h => h2 ⟨rfl, k, hk, h⟩) (fun h => h3 ⟨rfl, h⟩)
        · rw [List.getElem?_set_ne e]

example : objAt (runRoot demoM demoN [.field 0, .field 2] (.set (.str py!"9") false)).1 [.field 0, .field 3]
    = objAt demoN [.field 0, .field 3] := by
  refine C36_frame_partial demoM demoM_flat.apart demoN _ _ _ (by simp [Covers]) ?_ (by simp [Covers])
  rintro ⟨_, k, hk, h⟩
  simp [demoM] at hk
  subst hk
  rcases h with ⟨a, b, ha, hb, c, d, hc, hd, _⟩ | ⟨h, _⟩
  · simp [demoC] at ha; subst ha; simp at hc
  · simp at h

/-! ## Choices -/

/-- **C32.**  After any history of operations, at most one case of every choice in a
container holds data.  Missing (each is refuted below, or in C33): choices at the top
level of a module, choices within cases of choices, choices of the same name one above the other, and `add()` on lists without key. -/
theorem C32_exclusive_partial (kids : List (Meta × Schema)) (hf : FlatRoot kids) (ops : List (Path × Op))
    (hops : ∀ x ∈ ops, ∀ u, x.2 ≠ .addAnon u) (i : Nat) (k : Meta × Schema) (c : Inst) (hk : kids[i]? = some k)
    (hc : (history kids (freshKids kids) ops)[i]? = some c) : Exclusive k.2 c :=
  exclusive_of_inv ((history_inv stable_excl (fun _ => hf) hops (rootInv_fresh stable_excl kids)).2 i k c hk hc)

example : ∃ c, demoN[0]? = some c ∧ HasData c ∧ Exclusive (.cont false demoC) c := by
  refine ⟨_, rfl, ⟨.leaf (.str py!"2") true, .field (List.mem_cons_self ..) .here, rfl⟩, ?_⟩
  exact C32_exclusive_partial demoM demoM_flat demoOps (by simp [demoOps]) 0 ({ name := py!"c" }, .cont false demoC) _ rfl rfl

/-- **C32.**  The case that holds data is the one most recently set: after setting a
leaf at or below child `i` of a container, the children in other cases of the same
choice are as in a new binding, and hold no data.  Missing: as above. -/
theorem C32_recent_partial (kids : List (Meta × Schema)) (hf : FlatRoot kids) (ns ns' : List Inst) (p1 p2 : Path)
    (i j : Nat) (v : PyVal) (load : Bool) (h : runRoot kids ns (p1 ++ .field i :: p2) (.set v load) = (ns', none))
    (h1 : p1 ≠ []) (pres : Bool) (ks : List (Meta × Schema)) (hS : clsAt kids p1 = some (.cont pres ks))
    (a b : Meta × Schema) (ha : ks[i]? = some a) (hb : ks[j]? = some b) (hr : Rivals a.1 b.1) (m : Inst)
    (hm : objAt ns' (p1 ++ [.field j]) = some m) : m = fresh b.2 ∧ ¬ HasData m := by
  have key : m = fresh b.2 := by
    rcases runRoot_cases kids ns (p1 ++ .field i :: p2) (.set v load) with ⟨e, he⟩ | ⟨i', p', k, c, hp, hk, hc, he⟩
    · rw [he] at h; simp at h
    · rw [he] at h
      simp only [Prod.mk.injEq] at h
      obtain ⟨rfl, h⟩ := h
      cases p1 with
      | nil => exact absurd rfl h1
      | cons s p1 =>
        simp only [List.cons_append, List.cons.injEq] at hp hm
        obtain ⟨rfl, rfl⟩ := hp
        simp only [objAt_field, List.getElem?_set_self (List.getElem?_eq_some_iff.1 hc).1, Option.bind_some] at hm
        rw [clsAt_field, hk] at hS
        rw [nodeAt_append] at hm
        cases hn : nodeAt (run k.2 k.1.choice c (p1 ++ .field i :: p2) (.set v load)).inst p1 with
        | none => simp [hn] at hm
        | some x =>
          simp only [hn, Option.bind_some] at hm
          cases x with
          | cont ch pr xs =>
            rw [nodeAt_cont] at hm
            cases hy : xs[j]? with
            | none => simp [hy] at hm
            | some y =>
              simp [hy] at hm
              subst hm
              exact run_rivals (hf k (List.mem_of_getElem? hk)) (run_set_loud h) (.inl rfl) hS hn ha hb hr hy
          | list => simp [nodeAt_list_field] at hm
          | leaf => simp [nodeAt_leaf] at hm
          | leafList => simp [nodeAt_leafList] at hm
  refine ⟨key, ?_⟩
  rw [key, hasData_iff]
  exact has_fresh true _

example : ∃ m, objAt (runRoot demoM demoN [.field 0, .field 1] (.set (.str py!"7") false)).1 [.field 0, .field 0] = some m ∧
    ¬ HasData m := by
  refine ⟨.leaf (.str []) false, rfl, ?_⟩
  exact (C32_recent_partial demoM demoM_flat demoN (runRoot demoM demoN [.field 0, .field 1] (.set (.str py!"7") false)).1
    [.field 0] [] 1 0 (.str py!"7") false rfl (by simp) false demoC rfl
    ({ name := py!"b", choice := some cB }, .leaf strLeaf) ({ name := py!"a", choice := some cA }, .leaf strLeaf) rfl rfl
    ⟨cB, cA, rfl, rfl, rfl, by decide⟩ _ rfl).2

/-- Choices at the top level of a module are not enforced: the object of the module's
class has no `_set`. -/
theorem C32_root_refuted : ∃ kids ops i j a b v w, FlatRoot kids ∧ kids[i]? = some a ∧ kids[j]? = some b ∧
    Rivals a.1 b.1 ∧ objAt (history kids (freshKids kids) ops) [.field i] = some (.leaf v true) ∧
    objAt (history kids (freshKids kids) ops) [.field j] = some (.leaf w true) := by
  refine ⟨[({ name := py!"a", choice := some cA }, .leaf strLeaf), ({ name := py!"b", choice := some cB }, .leaf strLeaf)],
    [([.field 0], .set (.str py!"1") false), ([.field 1], .set (.str py!"2") false)], 0, 1, _, _, _, _, ?_, rfl, rfl,
    ⟨cA, cB, rfl, rfl, rfl, by decide⟩, rfl, rfl⟩
  intro k hk
  simp at hk
  rcases hk with rfl | rfl <;> simp [Choices]

/-- `container o { choice ch { case one { list l; } case two { leaf b; } } }`, with a
list without key. -/
def anonM : List (Meta × Schema) :=
  [({ name := py!"o" }, .cont false
    [({ name := py!"l", choice := some cA }, .list { keys := [] } [({ name := py!"x", choice := some cA }, .leaf strLeaf)]),
     ({ name := py!"b", choice := some cB }, .leaf strLeaf)])]

/-- `add()` on a list without key does not clear the other cases. -/
theorem C32_keyless_refuted : ∃ kids ops c k, FlatRoot kids ∧ kids[0]? = some k ∧
    (history kids (freshKids kids) ops)[0]? = some c ∧ ¬ Exclusive k.2 c := by
  refine ⟨anonM, [([.field 0, .field 1], .set (.str py!"2") false), ([.field 0, .field 0], .addAnon py!"u")], _, _, ?_, rfl, rfl, ?_⟩
  · intro k hk
    simp [anonM] at hk
    subst hk
    simp [Choices, ChoicesKids, choiceNames, cA, cB]
  · intro h
    exact h [] false _ _ _ _ rfl rfl 0 1 _ _ _ _ rfl rfl rfl rfl ⟨cA, cB, rfl, rfl, rfl, by decide⟩
      ⟨⟨.list false [(.str py!"u", .cont false false [.leaf (.str []) false])], .here, by simp [IsDatum]⟩,
       ⟨.leaf (.str py!"2") true, .here, by simp [IsDatum]⟩⟩

/-- A choice in a container in a case: setting a leaf in a container of the inner choice
does not clear the other cases of the outer one, because what the containers above are
told is the inner choice only. -/
theorem C32_nested_refuted : ∃ kids ops c k, ApartRoot kids ∧ (∀ x ∈ ops, ∃ v, x.2 = .set v false) ∧ kids[0]? = some k ∧
    (history kids (freshKids kids) ops)[0]? = some c ∧ ¬ Exclusive k.2 c := by
  refine ⟨innerM, [([.field 0, .field 1], .set (.str py!"2") false), ([.field 0, .field 0, .field 0, .field 0], .set (.str py!"1") false)],
    _, _, innerM_apart, by simp, rfl, rfl, ?_⟩
  intro h
  exact h [] false _ _ _ _ rfl rfl 0 1 _ _ _ _ rfl rfl rfl rfl ⟨cA, cB, rfl, rfl, rfl, by decide⟩
    ⟨⟨.leaf (.str py!"1") true, .field (List.mem_cons_self ..) (.field (List.mem_cons_self ..) .here), by simp [IsDatum]⟩,
     ⟨.leaf (.str py!"2") true, .here, by simp [IsDatum]⟩⟩

/-! ## Frame -/

/-- **C33.**  An operation changes the value of no leaf or leaf-list other than those at
or below its target, and those in competing cases.  Missing: as in C34. -/
theorem C33_frame_partial (kids : List (Meta × Schema)) (hf : ApartRoot kids) (ns : List Inst) (p q : Path) (op : Op)
    (h1 : ¬ Covers p q) (h2 : ¬ CompetesBelow kids p q) :
    dataAt (runRoot kids ns p op).1 q = dataAt ns q := by
  rcases runRoot_cases kids ns p op with ⟨e, he⟩ | ⟨i, p', k, c, rfl, hk, hc, he⟩
  · rw [he]
  · rw [he]
    simp only [dataAt]
    cases q with
    | nil => rfl
    | cons t q =>
      cases t with
      | key k => rfl
      | field j =>
        rw [objAt_field, objAt_field]
        by_cases e : i = j
        · subst e
          simp only [List.getElem?_set_self (List.getElem?_eq_some_iff.1 hc).1, hc, Option.bind_some]
          exact run_data (hf k (List.mem_of_getElem? hk)) (.inl rfl) (fun h => h1 ⟨rfl, h⟩)
            (fun h => h2 ⟨rfl, k, hk, h⟩)
        · rw [List.getElem?_set_ne e]

example : dataAt (runRoot demoM demoN [.field 0, .field 2] (.set (.str py!"9") false)).1
    [.field 0, .field 4, .key (.str py!"e"), .field 1] = some (.inl (.str py!"3"), true) := by
  rw [C33_frame_partial demoM demoM_flat.apart]
  · rfl
  · simp [Covers]
  · rintro ⟨_, k, hk, h⟩
    simp [demoM] at hk
    subst hk
    rcases h with ⟨a, b, ha, hb, c, d, hc, hd, _⟩ | ⟨h, _⟩
    · simp [demoC] at ha; subst ha; simp at hc
    · simp at h

/-- With a choice of the same name above it, setting a leaf deletes data in the same
case of the outer choice. -/
theorem C33_same_name_refuted : ∃ kids ns p q v w, ¬ Covers p q ∧ ¬ CompetesBelow kids p q ∧
    dataAt ns q = some (.inl w, true) ∧ dataAt (runRoot kids ns p (.set v false)).1 q = some (.inl (.str []), false) := by
  refine ⟨nestM, history nestM (freshKids nestM) [([.field 0, .field 1], .set (.str py!"1") false)],
    [.field 0, .field 0, .field 0], [.field 0, .field 1], .str py!"2", .str py!"1", by simp [Covers], ?_, rfl, rfl⟩
  rintro ⟨_, k, hk, h⟩
  simp [nestM] at hk
  subst hk
  rcases h with ⟨a, b, ha, hb, c, d, hc, hd, h1, h2⟩ | ⟨h, _⟩
  · simp [nestC] at ha hb
    subst ha; subst hb
    simp at hc hd
    exact h2 (by rw [← hc, ← hd])
  · simp at h

/-- **C29, C34.**  A leaf that was set keeps its value, and is shown by `get(filter=True)`,
as long as no operation covers it or is in a competing case.  Missing: as in C34. -/
theorem C29_history_partial (kids : List (Meta × Schema)) (hf : ApartRoot kids) (hd : DistinctNames (.cont false kids))
    (ns ns' : List Inst) (p : Path) (v : PyVal) (load : Bool) (h : runRoot kids ns p (.set v load) = (ns', none))
    (ops : List (Path × Op)) (hops : ∀ x ∈ ops, ¬ Covers x.1 p ∧ ¬ CompetesBelow kids x.1 p) :
    ∃ L w, clsAt kids p = some (.leaf L) ∧ L.set v = .ok w ∧
      itemAt (.cont false kids) (getRoot true kids (history kids ns' ops)) p = some (.leaf w) := by
  obtain ⟨L, w, h1, h2, h3⟩ := C34_set_get_partial kids hf ns ns' p v load h
  refine ⟨L, w, h1, h2, ?_⟩
  have key : ∀ (ops : List (Path × Op)) (ns : List Inst), (∀ x ∈ ops, ¬ Covers x.1 p ∧ ¬ CompetesBelow kids x.1 p) →
      dataAt (history kids ns ops) p = dataAt ns p := by
    intro ops
    induction ops with
    | nil => intros; rfl
    | cons x ops ih =>
      intro ns hx
      obtain ⟨q, op⟩ := x
      have := hx (q, op) (List.mem_cons_self ..)
      simp only [history]
      rw [ih _ (fun y hy => hx y (List.mem_cons_of_mem _ hy)), C33_frame_partial kids hf ns q p op this.1 this.2]
  have h4 := key ops ns' hops
  simp only [dataAt, h3, Option.bind_some, leafData] at h4
  cases h5 : objAt (history kids ns' ops) p with
  | none => simp [h5] at h4
  | some m =>
    simp only [h5, Option.bind_some] at h4
    cases m with
    | leaf v' ch =>
      simp [leafData] at h4
      obtain ⟨rfl, rfl⟩ := h4
      rw [C29_leaf kids _ p L v' true hd h1 h5]
      rfl
    | leafList vs ch => simp [leafData] at h4
    | cont => simp [leafData] at h4
    | list => simp [leafData] at h4

/-! ## Copying containers -/

/-- **C37.**  Assigning a container of another binding copies exactly the data set in
it.  `kids'` and `ops'` are the other binding's class and history.  Missing: containers
with lists and leaf-lists in them (refuted below), histories with `_set_present(False)`
and `add()` on lists without key, and schemas as in C34. -/
theorem C37_copy_partial (kids kids' : List (Meta × Schema)) (hf : ApartRoot kids) (hf' : FlatRoot kids')
    (ops' : List (Path × Op)) (hops : ∀ x ∈ ops', x.2 ≠ .present false ∧ ∀ u, x.2 ≠ .addAnon u)
    (p' : Path) (hp' : p' ≠ []) (pres : Bool) (ks : List (Meta × Schema)) (hlo : LeavesOnly (.cont pres ks)) (v : Inst)
    (hS' : clsAt kids' p' = some (.cont pres ks)) (hn' : objAt (history kids' (freshKids kids') ops') p' = some v)
    (ns ns' : List Inst) (p : Path) (hS : clsAt kids p = some (.cont pres ks))
    (h : runRoot kids ns p (.assign v) = (ns', none)) :
    ∃ m, objAt ns' p = some m ∧ Copied (.cont pres ks) v m := by
  have hm := rootInv_at (history_inv (st := true) stable_markD (by simp) hops (rootInv_fresh (st := true) stable_markD kids')) hp' hS' hn'
  have hx := rootInv_at (history_inv stable_chg (fun _ => hf') (fun x hx => (hops x hx).1) (rootInv_fresh stable_chg kids')) hp' hS' hn'
  have hq := rootInv_at (history_inv (st := true) stable_pres (ops := ops') (by simp) (by simp) (rootInv_fresh (st := true) stable_pres kids')) hp' hS' hn'
  rcases runRoot_cases kids ns p (.assign v) with ⟨e, he⟩ | ⟨i, p2, k, c, rfl, hk, hc, he⟩
  · rw [he] at h; simp at h
  · rw [he] at h
    simp only [Prod.mk.injEq] at h
    obtain ⟨rfl, h⟩ := h
    have hkf := hf k (List.mem_of_getElem? hk)
    obtain ⟨T, m, own', h1, h2, h3, h4⟩ := run_at hkf h (.inl rfl)
    rw [clsAt_field, hk, Option.bind_some, h1] at hS
    simp only [Option.some.injEq] at hS
    subst hS
    obtain ⟨above, own, hfl⟩ := flat_at hkf h1
    have e : nodeOp (.cont pres ks) own' m (.assign v) = copyNode (.cont pres ks) own' m v := rfl
    rw [e] at h3 h4
    refine ⟨_, ?_, copyNode_copied _ above own own' m v hlo hfl hm hx hq (by simp) h4⟩
    rw [objAt_field, List.getElem?_set_self (List.getElem?_eq_some_iff.1 hc).1]
    exact h3

/-- `container c { choice ch { case one { leaf a; } case two { leaf b; } } leaf x; container p { presence; leaf y; } }` -/
def plainC : List (Meta × Schema) := demoC.take 4
def plainM : List (Meta × Schema) := [({ name := py!"c" }, .cont false plainC)]
def plainOps : List (Path × Op) :=
  [([.field 0, .field 1], .set (.str py!"1") false), ([.field 0, .field 0], .set (.str py!"2") false),
   ([.field 0, .field 3], .present true)]

example : ∃ v m, objAt (history plainM (freshKids plainM) plainOps) [.field 0] = some v ∧
    nodeAt v [.field 0] = some (.leaf (.str py!"2") true) ∧
    objAt (runRoot plainM (freshKids plainM) [.field 0] (.assign v)).1 [.field 0] = some m ∧ Copied (.cont false plainC) v m := by
  have hf : FlatRoot plainM := by
    intro k hk
    simp only [plainM, List.mem_cons, List.not_mem_nil, or_false] at hk
    subst hk
    simp [Choices, ChoicesKids, plainC, demoC, choiceNames, cA, cB]
  obtain ⟨m, h1, h2⟩ := C37_copy_partial plainM plainM hf.apart hf plainOps (by simp [plainOps]) [.field 0] (by simp) false plainC
    (by simp [LeavesOnly, LeavesOnlyKids, plainC, demoC]) _ rfl rfl (freshKids plainM) _ [.field 0] rfl rfl
  exact ⟨_, m, rfl, rfl, h1, h2⟩

/-- The entries of a list are not copied. -/
theorem C37_list_refuted : ∃ kids ops v k e, objAt (history kids (freshKids kids) ops) [.field 0] = some v ∧
    nodeAt v [.field 4, .key k] = some e ∧
    (runRoot kids (freshKids kids) [.field 0] (.assign v)).2 = none ∧
    objAt (runRoot kids (freshKids kids) [.field 0] (.assign v)).1 [.field 0, .field 4, .key k] = none :=
  ⟨demoM, demoOps, _, .str py!"e", _, rfl, rfl, rfl, rfl⟩

/-- A container with values in a leaf-list cannot be assigned. -/
theorem C37_leaf_list_refuted : ∃ kids ops v, objAt (history kids (freshKids kids) ops) [.field 0] = some v ∧
    (runRoot kids (freshKids kids) [.field 0] (.assign v)).2 = some .valueError :=
  ⟨demoM, [([.field 0, .field 5], .ll (.append (.str py!"1")))], _, rfl, rfl⟩

end Pyb
