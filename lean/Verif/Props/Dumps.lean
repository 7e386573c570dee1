import Verif.Lemmas.Dumps
import Verif.Props.Overwrite
import Verif.Props.Tree

/-! # `dumps` with `skip_subtrees` (C47) and `select` (C48) -/

namespace Pyb
open Py Spec

/-! ## C47: `skip_subtrees` -/

/-- C47 for native JSON, any object of any history and any paths that lead below the
object and not below a leaf: `dumps` gives the tree of the object without what is at the
listed paths.  `opath` is the object's own path.

Not covered: paths not longer than that of the object (`C47_own_refuted`), paths that lead
below a leaf (`C47_below_leaf_refuted`), paths through lists given without keys
(`C47_list_refuted`), and keys that are not strings (`C47_int_key_refuted`). -/
theorem C47_skip_partial (P : PyOps) (f : Bool) (kids : List (Meta × Schema)) (hd : DistinctNames (.cont false kids)) (ops : List (Path × Op))
    (at_ : Path) (S : Schema) (n : Inst) (hS : clsAt kids at_ = some S) (hn : objAt (history kids (freshKids kids) ops) at_ = some n)
    (opath : List Str) (ps : List (List Str)) (hp : ∀ p ∈ ps, opath.length < p.length ∧ ∀ s ∈ p, '/' ∉ s)
    (hr : ∀ p ∈ ps, ∀ r, relTo (opath.map bareName) p = some r → Reachable (treeOf (getNode f S n)) r) :
    dumpTree P false opath (treeOf (getNode f S n)) (ps.map pathText) [] =
      .ok (without (ps.filterMap (relTo (opath.map bareName))) (treeOf (getNode f S n))) := by
  have ha := get_apart (f := f) S n (distinct_at hd hS) (history_at hS hn)
  obtain ⟨t', ht⟩ := skipAll_ok ps hp ha fun p hp' r e => hr p hp' r (by rw [e, relTo, if_pos (List.prefix_append _ _)]; simp)
  rw [← skipAll_without ps hp ha ht]
  simp only [dumpTree, ht, Except.bind, if_true]

/-- What `without` leaves: at and below the listed paths there is nothing, elsewhere there
is what there was. -/
theorem C47_places_partial (f : Bool) (kids : List (Meta × Schema)) (hd : DistinctNames (.cont false kids)) (ops : List (Path × Op))
    (at_ : Path) (S : Schema) (n : Inst) (hS : clsAt kids at_ = some S) (hn : objAt (history kids (freshKids kids) ops) at_ = some n)
    (P : PyOps) (opath : List Str) (ps : List (List Str)) (hp : ∀ p ∈ ps, opath.length < p.length ∧ ∀ s ∈ p, '/' ∉ s) (t : PTree)
    (h : dumpTree P false opath (treeOf (getNode f S n)) (ps.map pathText) [] = .ok t) (q : List Str) :
    ((∃ p ∈ ps, p <+: opath.map bareName ++ q) → partAt t q = none) ∧
      ((¬ ∃ p ∈ ps, p <+: opath.map bareName ++ q) → partAt t q = partAt (treeOf (getNode f S n)) q) := by
  have ha := get_apart (f := f) S n (distinct_at hd hS) (history_at hS hn)
  unfold dumpTree at h
  cases hs : skipAll opath (treeOf (getNode f S n)) (ps.map pathText) with
  | error e => simp [hs, Except.bind] at h
  | ok u =>
    simp only [hs, Except.bind, if_true, Except.ok.injEq] at h
    subst h
    exact skipAll_at ps hp ha hs q

/-- C47 for IETF JSON of a module's object; names are those of the members (with the
module in front at the top). -/
theorem C47_ietf_partial (P : PyOps) (o : DumpOpt) (kids : List (Meta × Schema)) (hd : DistinctNames (.cont false kids)) (hc : PlainNames (.cont false kids))
    (ns : List Inst) (ps : List (List Str)) (hp : ∀ p ∈ ps, p ≠ [] ∧ ∀ s ∈ p, '/' ∉ s)
    (hr : ∀ p ∈ ps, Reachable (.dict (ietfItems o none kids ns)) p) :
    dumpTree P true [] (.dict (ietfItems o none kids ns)) (ps.map pathText) [] = .ok (without ps (.dict (ietfItems o none kids ns))) := by
  have ha := ietfItems_apart (o := o) (pns := none) hd hc ns
  have hp' : ∀ p ∈ ps, ([] : List Str).length < p.length ∧ ∀ s ∈ p, '/' ∉ s :=
    fun p h => ⟨by have := (hp p h).1; cases p <;> simp_all, (hp p h).2⟩
  obtain ⟨t', ht⟩ := skipAll_ok (o := []) ps hp' ha fun p h r e => by
    simp at e; subst e; exact hr p h
  have he : ps.filterMap (relTo (([] : List Str).map bareName)) = ps := by
    have : relTo (([] : List Str).map bareName) = some := by funext p; simp [relTo]
    rw [this, List.filterMap_some]
  have := skipAll_without ps hp' ha ht
  rw [he] at this
  rw [← this]
  simp only [dumpTree, ht, Except.bind, if_true]

/-- The object itself, or one above it, cannot be skipped: the path is ignored. -/
theorem C47_own_refuted (P : PyOps) (mode : Bool) (opath p : List Str) (hlen : p.length ≤ opath.length) (hp : ∀ s ∈ p, '/' ∉ s) (t : PTree) :
    dumpTree P mode opath t [pathText p] [] = .ok t := by
  have : ∀ (o p : List Str), p.length ≤ o.length → trimPath o p = some [] ∨ trimPath o p = none := by
    intro o
    induction o with
    | nil => intro p h; cases p with
      | nil => exact .inl rfl
      | cons => simp at h
    | cons i o ih =>
      intro p h
      cases p with
      | nil => exact .inl rfl
      | cons j p =>
        simp only [trimPath]
        split
        · exact ih p (by simpa using h)
        · exact .inr rfl
  simp only [dumpTree, skipAll, skipOne, splitOn_paths p hp]
  rcases this opath p hlen with h | h <;> simp [h, Except.bind]

/-- In IETF mode a path that begins with a name without module skips nothing. -/
theorem C47_unqualified_refuted (P : PyOps) (o : DumpOpt) (kids : List (Meta × Schema)) (ns : List Inst)
    (a : Str) (p : List Str) (hc : ':' ∉ a) (hp : ∀ s ∈ a :: p, '/' ∉ s) :
    dumpTree P true [] (.dict (ietfItems o none kids ns)) [pathText (a :: p)] [] = .ok (.dict (ietfItems o none kids ns)) := by
  have hne : ∀ x ∈ ietfItems o none kids ns, pyEq x.1 (.str a) = false := by
    intro x hx
    obtain ⟨_, k, _, _, _, h, _⟩ := mem_ietfItems hx
    rw [h, str_eq]
    simp only [decide_eq_false_iff_not]
    rintro rfl
    simp [ietfName] at hc
  have hs : trimPath [] (a :: p) = some (a :: p) := rfl
  simp only [dumpTree, skipAll, skipOne, splitOn_paths _ hp, hs]
  cases p with
  | nil => simp [removePath, erase_absent (mem_false.2 hne), Except.bind]
  | cons b p =>
    have : (ietfItems o none kids ns).find? (fun x => pyEq x.1 (.str a)) = none := by
      rw [List.find?_eq_none]; intro x hx; simp [hne x hx]
    simp [removePath, this, Except.bind]

/-- A path that goes below a leaf, a leaf-list or (IETF mode) a list makes `dumps` raise
`TypeError`. -/
theorem C47_below_leaf_refuted (P : PyOps) (mode : Bool) (t : PTree) (a : Str) (p : List Str) (b : Str) (hp : ∀ s ∈ (a :: p) ++ [b], '/' ∉ s)
    (x : Part) (hx : partAt t (a :: p) = some x) (hleaf : x ≠ .dict) :
    dumpTree P mode [] t [pathText ((a :: p) ++ [b])] [] = .error .typeError := by
  have : ∀ (p : List Str) (t : PTree), partAt t p = some x → removePath t (p ++ [b]) = .error .typeError := by
    intro p
    induction p with
    | nil =>
      intro t h
      rw [partAt_nil] at h
      cases t with
      | dict items => simp [part] at h; exact absurd h.symm hleaf
      | _ => rfl
    | cons a p ih =>
      intro t h
      cases t with
      | dict items =>
        rw [partAt_dict] at h
        cases hf : items.find? fun x => pyEq x.1 (.str a) with
        | none => simp [hf] at h
        | some y =>
          simp only [hf, Option.map_some, Option.bind_some] at h
          obtain ⟨c, cs, hc⟩ : ∃ c cs, p ++ [b] = c :: cs := by cases p <;> simp
          have := ih y.2 h
          rw [List.cons_append, hc]
          rw [hc] at this
          simp [removePath, hf, this, Except.map]
      | _ => simp [partAt] at h
  have hs : trimPath [] (a :: (p ++ [b])) = some (a :: (p ++ [b])) := rfl
  have h2 := this (a :: p) t hx
  rw [List.cons_append] at h2 hp ⊢
  simp only [dumpTree, skipAll, skipOne, splitOn_paths _ hp, hs, h2, Except.bind]

/-! A module with a container `c` (`a`, `b`), a list `l` (`k`, `z`, `w`) with two entries, a
leaf-list, and its tree after a few operations; see Props/Overwrite. -/

theorem ow_distinct : DistinctNames (.cont false owKids) := by
  refine nodup_names (by decide) ?_ false
  intro k hk
  simp only [owKids, List.mem_cons, List.not_mem_nil, or_false] at hk
  rcases hk with rfl | rfl | rfl
  · refine distinct_list (nodup_names (by decide) ?_ false)
    intro k hk
    simp only [owL, List.mem_cons, List.not_mem_nil, or_false] at hk
    rcases hk with rfl | rfl | rfl <;> exact distinct_leaf _
  · refine nodup_names (by decide) ?_ false
    intro k hk
    simp only [owC, List.mem_cons, List.not_mem_nil, or_false] at hk
    rcases hk with rfl | rfl <;> exact distinct_leaf _
  · exact distinct_ll _

def pyOps : PyOps := ⟨fun _ => [], fun _ _ => true⟩

def owDump : PTree := treeOf (getNode true (.cont false owKids) (.cont false false owTree))

theorem owDump_eq : owDump =
    .dict [(.str py!"l", .dict [(.str py!"x", .dict [(.str py!"k", .leaf (.str py!"x")), (.str py!"z", .leaf (.int 1))]),
        (.str py!"y", .dict [(.str py!"k", .leaf (.str py!"y"))])]),
      (.str py!"c", .dict [(.str py!"a", .leaf (.int 2))]), (.str py!"v", .vals [.int 5, .int 6])] := by
  simp [owDump, owTree, owKids, getNode, getKids, Inst.kids, keepItem, treeOf, treeItems, treeEntries, owL, owC, owEntry, inM]

theorem ow_reach1 : Reachable owDump [py!"c", py!"a"] := by
  intro r h1 h2
  rw [owDump_eq]
  have : r = [] ∨ r = [py!"c"] := by
    rcases r with _ | ⟨a, _ | ⟨b, r⟩⟩
    · exact .inl rfl
    · exact .inr (by rw [(List.cons_prefix_cons.1 h1).1])
    · obtain ⟨ea, h1⟩ := List.cons_prefix_cons.1 h1
      obtain ⟨eb, h1⟩ := List.cons_prefix_cons.1 h1
      simp at h1
      subst h1; subst ea; subst eb
      exact absurd rfl h2
  rcases this with rfl | rfl <;> exact .inr rfl

theorem ow_reach2 : Reachable owDump [py!"l", py!"x"] := by
  intro r h1 h2
  rw [owDump_eq]
  have : r = [] ∨ r = [py!"l"] := by
    rcases r with _ | ⟨a, _ | ⟨b, r⟩⟩
    · exact .inl rfl
    · exact .inr (by rw [(List.cons_prefix_cons.1 h1).1])
    · obtain ⟨ea, h1⟩ := List.cons_prefix_cons.1 h1
      obtain ⟨eb, h1⟩ := List.cons_prefix_cons.1 h1
      simp at h1
      subst h1; subst ea; subst eb
      exact absurd rfl h2
  rcases this with rfl | rfl <;> exact .inr rfl

/-- `dumps(m, skip_subtrees=["/c/a", "/l/x"])`. -/
example : dumpTree pyOps false [] owDump [py!"/c/a", py!"/l/x"] [] =
    .ok (.dict [(.str py!"l", .dict [(.str py!"y", .dict [(.str py!"k", .leaf (.str py!"y"))])]),
      (.str py!"c", .dict []), (.str py!"v", .vals [.int 5, .int 6])]) := by
  have h := C47_skip_partial pyOps true owKids ow_distinct owOps [] (.cont false owKids) (.cont false false owTree) rfl
    (by rw [owTree_reached]; rfl) [] [[py!"c", py!"a"], [py!"l", py!"x"]] (by decide) (by
      intro p hp r hr
      simp at hp
      rcases hp with rfl | rfl
      · simp [relTo] at hr; subst hr; exact ow_reach1
      · simp [relTo] at hr; subst hr; exact ow_reach2)
  have e : [[py!"c", py!"a"], [py!"l", py!"x"]].map pathText = [py!"/c/a", py!"/l/x"] := by decide
  rw [e] at h
  show dumpTree pyOps false [] (treeOf (getNode true (.cont false owKids) (.cont false false owTree))) _ _ = _
  rw [h]
  show Except.ok (without _ owDump) = _
  rw [owDump_eq]
  rfl

/-- `z` of all entries is written `/l/z`, the path without keys; it is not skipped. -/
theorem C47_list_refuted : dumpTree pyOps false [] owDump [py!"/l/z"] [] = .ok owDump := by rw [owDump_eq]; rfl

/-- The keys of this list are numbers: `/n/1` skips nothing. -/
def intKids : List (Meta × Schema) := [(inM py!"n", .list { keys := [0] } [(inM py!"k", .leaf (tU8.cls noRx))])]

theorem C47_int_key_refuted :
    getRoot true intKids (history intKids (freshKids intKids) [([.field 0], .add (.int 1))]) =
      .dict [(py!"n", .odict [(.int 1, .dict [(py!"k", .leaf (.int 1))])])] ∧
    dumpTree pyOps false [] (treeOf (.dict [(py!"n", .odict [(.int 1, .dict [(py!"k", .leaf (.int 1))])])])) [py!"/n/1"] [] =
      .ok (treeOf (.dict [(py!"n", .odict [(.int 1, .dict [(py!"k", .leaf (.int 1))])])])) := ⟨by rfl, by rfl⟩

/-- `dumps(m.c, skip_subtrees=["/c"])` skips nothing. -/
example (t : PTree) : dumpTree pyOps false [py!"c"] t [py!"/c"] [] = .ok t :=
  C47_own_refuted pyOps false [py!"c"] [py!"c"] (by decide) (by decide) t

example : dumpTree pyOps false [] owDump [py!"/v/x"] [] = .error .typeError :=
  C47_below_leaf_refuted pyOps false owDump py!"v" [] py!"x" (by decide) (.vals [.int 5, .int 6]) (by rw [owDump_eq]; rfl) (by simp)

/-- In IETF mode this raises nothing and leaves `c` in the document. -/
example : dumpTree pyOps true [] (.dict (ietfItems {} none owKids owTree)) [py!"/c"] [] = .ok (.dict (ietfItems {} none owKids owTree)) :=
  C47_unqualified_refuted pyOps {} owKids owTree py!"c" [] (by decide) (by decide)

theorem plain_all {kids : List (Meta × Schema)} (h : ∀ k ∈ kids, ':' ∉ k.1.name) (hk : ∀ k ∈ kids, PlainNames k.2) (pres : Bool) :
    PlainNames (.cont pres kids) := by
  intro p pres' kids' hs
  cases p with
  | nil => simp at hs; obtain ⟨_, rfl⟩ := hs; exact h
  | cons s p =>
    cases s with
    | key k => simp [schemaAt] at hs
    | field i =>
      rw [schemaAt_cont] at hs
      cases hi : kids[i]? with
      | none => simp [hi] at hs
      | some k => simp only [hi, Option.bind_some] at hs; exact hk k (List.mem_of_getElem? hi) p pres' kids' hs
theorem plain_leaf (L : LeafCls) : PlainNames (.leaf L) := by
  intro p _ _ hs; cases p <;> simp [schemaAt] at hs
theorem plain_ll (L : LLCls) : PlainNames (.leafList L) := by
  intro p _ _ hs; cases p <;> simp [schemaAt] at hs
theorem plain_list {info : ListInfo} {kids : List (Meta × Schema)} (h : PlainNames (.cont false kids)) :
    PlainNames (.list info kids) := by
  intro p pres' kids' hs
  cases p with
  | nil => simp at hs
  | cons s p => cases s with
    | field i => simp [schemaAt] at hs
    | key k => exact h p pres' kids' hs

theorem ow_plain : PlainNames (.cont false owKids) := by
  refine plain_all (by decide) ?_ false
  intro k hk
  simp only [owKids, List.mem_cons, List.not_mem_nil, or_false] at hk
  rcases hk with rfl | rfl | rfl
  · refine plain_list (plain_all (by decide) ?_ false)
    intro k hk
    simp only [owL, List.mem_cons, List.not_mem_nil, or_false] at hk
    rcases hk with rfl | rfl | rfl <;> exact plain_leaf _
  · refine plain_all (by decide) ?_ false
    intro k hk
    simp only [owC, List.mem_cons, List.not_mem_nil, or_false] at hk
    rcases hk with rfl | rfl <;> exact plain_leaf _
  · exact plain_ll _

/-- With the module name it is skipped. -/
example : dumpTree pyOps true [] (.dict (ietfItems {} none owKids owTree)) [py!"/m:c"] [] =
    .ok (without [[py!"m:c"]] (.dict (ietfItems {} none owKids owTree))) :=
  C47_ietf_partial pyOps {} owKids ow_distinct ow_plain owTree [[py!"m:c"]] (by decide) (by
    intro p hp r h1 h2
    simp at hp
    subst hp
    have : r = [] := by
      rcases r with _ | ⟨a, r⟩
      · rfl
      · obtain ⟨ea, h1⟩ := List.cons_prefix_cons.1 h1
        simp at h1
        subst h1; subst ea
        exact absurd rfl h2
    subst this
    exact .inr rfl)

/-! ## C48: `select` -/

theorem wanted_all {sel : List (Path × Str)} {n : Inst} {g : Path → PyVal} (h : ∀ s ∈ sel, nodeAt n s.1 = some (.leaf (g s.1) true)) :
    (sel.all fun s => (g s.1).toStr == s.2) = decide (Wanted sel n) := by
  rw [Bool.eq_iff_iff]
  rw [List.all_eq_true, decide_eq_true_iff]
  constructor
  · intro h1 s hs
    have := h1 s hs
    simp only [beq_iff_eq] at this
    simp only [leafText, h s hs, this]
  · intro h1 s hs
    rw [beq_iff_eq]
    have := h1 s hs
    simpa only [leafText, h s hs, Option.some.injEq] using this

/-- C48 for native JSON: for any list of any history and any selection of leaves that are
set in all entries (leaves of the entry, or of containers in it, with names without
dots), `dumps` gives exactly the entries all of whose selected leaves have the wanted
texts, in order.

Not covered: entries in which a selected leaf is not set (`C48_missing_refuted`), names with
dots (`C48_dotted_name_refuted`), and selected nodes that are not leaves. -/
theorem C48_native_partial (P : PyOps) (f : Bool) (kids : List (Meta × Schema)) (hd : DistinctNames (.cont false kids)) (hc : PlainNames (.cont false kids))
    (ops : List (Path × Op)) (at_ : Path) (info : ListInfo) (lk : List (Meta × Schema)) (ch : Bool) (es : List (PyVal × Inst))
    (hS : clsAt kids at_ = some (.list info lk)) (hn : objAt (history kids (freshKids kids) ops) at_ = some (.list ch es))
    (opath : List Str) (sel : List (Path × Str)) (hsel : ∀ s ∈ sel, Selectable lk s.1)
    (hset : ∀ q ∈ es, ∀ s ∈ sel, ∃ v, nodeAt q.2 s.1 = some (.leaf v true)) :
    dumpTree P false opath (treeOf (getNode f (.list info lk) (.list ch es))) [] (sel.map fun s => (dotted (.cont false lk) s.1, s.2)) =
      .ok (treeOf (getNode f (.list info lk) (.list ch (es.filter fun q => Wanted sel q.2)))) := by
  have ho := history_at hS hn
  have hd' := distinct_entry (distinct_at hd hS)
  have hc' := plain_entry (plain_at hc hS)
  cases ho with
  | list _ _ _ _ h1 h2 =>
    simp only [dumpTree, skipAll, Except.bind]
    by_cases hnil : sel = []
    · subst hnil
      have : (es.filter fun q => decide (Wanted [] q.2)) = es := by
        rw [List.filter_eq_self]; intro q _; simp [Wanted]
      simp [this]
    · rw [if_neg (by simpa using hnil)]
      have hkeep : ∀ q ∈ es, keepEntry P.repr (sel.map fun s => (dotted (.cont false lk) s.1, s.2)) (.dict (treeItems (getKids f lk q.2.kids))) =
          .ok (decide (Wanted sel q.2)) := by
        intro q hq
        obtain ⟨g, hg⟩ : ∃ g : Path → PyVal, ∀ s ∈ sel, nodeAt q.2 s.1 = some (.leaf (g s.1) true) := by
          refine ⟨fun p => match nodeAt q.2 p with | some (.leaf v _) => v | _ => .none, fun s hs => ?_⟩
          obtain ⟨v, hv⟩ := hset q hq s hs
          simp [hv]
        rw [← wanted_all hg]
        refine keepEntry_ok fun s hs => ?_
        obtain ⟨names, L, e1, e2, e3⟩ := hsel s hs
        rw [dotted_split e1 (names_ne_nil e1 e2) e3]
        have hq2 := h1 q hq
        have hgs := hg s hs
        cases hi : q.2 with
        | cont c p ns => rw [hi] at hq2 hgs; exact lookup_leaf hd' hc' hq2 e1 e2 hgs
        | _ => rw [hi] at hq2; cases hq2
      have hitems : treeOf (getNode f (.list info lk) (.list ch es)) =
          .dict (es.map fun q => (q.1, .dict (treeItems (getKids f lk q.2.kids)))) := by
        simp [getNode, treeOf, treeEntries_map, Function.comp_def]
      have hitems' : treeOf (getNode f (.list info lk) (.list ch (es.filter fun q => Wanted sel q.2))) =
          .dict ((es.filter fun q => Wanted sel q.2).map fun q => (q.1, .dict (treeItems (getKids f lk q.2.kids)))) := by
        simp [getNode, treeOf, treeEntries_map, Function.comp_def]
      rw [hitems, hitems']
      have hkeep2 : ∀ x ∈ es.map (fun q => (q.1, PTree.dict (treeItems (getKids f lk q.2.kids)))),
          keepEntry P.repr (sel.map fun s => (dotted (.cont false lk) s.1, s.2)) x.2 =
            .ok ((fun x : PyVal × PTree => match keepEntry P.repr (sel.map fun s => (dotted (.cont false lk) s.1, s.2)) x.2 with | .ok b => b | _ => true) x) := by
        intro x hx
        obtain ⟨q, hq, rfl⟩ := List.mem_map.1 hx
        simp [hkeep q hq]
      have hPD : PD ((([] : List (PyVal × PTree)) ++ es.map (fun q => (q.1, PTree.dict (treeItems (getKids f lk q.2.kids))))).map Prod.fst) := by
        rw [List.nil_append, List.map_map]; exact h2
      have he := eraseAll_ok (l := []) hPD
        (keep := fun x => match keepEntry P.repr (sel.map fun s => (dotted (.cont false lk) s.1, s.2)) x.2 with | .ok b => b | _ => true)
      simp only [List.nil_append] at he
      simp only [selectTree, dropKeys_ok hkeep2, Except.bind, Bool.false_eq_true, if_false, he, Except.map, Except.ok.injEq, PTree.dict.injEq]
      rw [List.filter_map]
      congr 1
      refine List.filter_congr fun q hq => ?_
      simp [hkeep q hq]

/-- C48 for IETF JSON, selecting leaves of the entries themselves.  `P.eq` is `==` on the
entries' trees; equal entries have the same selected texts. -/
theorem C48_ietf_partial (P : PyOps) (o : DumpOpt) (lk : List (Meta × Schema)) (es : List (PyVal × Inst)) (opath : List Str)
    (hd : (lk.map fun k => k.1.name).Nodup) (hc : ∀ k ∈ lk, ':' ∉ k.1.name ∧ ':' ∉ k.1.module_)
    (sel : List (Path × Str)) (hsel : ∀ s ∈ sel, ∃ i m L, s.1 = [.field i] ∧ lk[i]? = some (m, .leaf L) ∧ '.' ∉ m.name)
    (hset : ∀ q ∈ es, ∀ s ∈ sel, ∃ v, nodeAt q.2 s.1 = some (.leaf v true))
    (hrefl : ∀ t, P.eq t t = true)
    (heq : ∀ q ∈ es, ∀ r ∈ es, P.eq (.dict (ietfItems o none lk q.2.kids)) (.dict (ietfItems o none lk r.2.kids)) = true →
      ∀ s ∈ sel, leafText q.2 s.1 = leafText r.2 s.1) :
    dumpTree P true opath (ietfListTree o lk es) [] (sel.map fun s => (dotted (.cont false lk) s.1, s.2)) =
      .ok (ietfListTree o lk (es.filter fun q => Wanted sel q.2)) := by
  simp only [dumpTree, skipAll, Except.bind]
  by_cases hnil : sel = []
  · subst hnil
    have : (es.filter fun q => decide (Wanted [] q.2)) = es := by
      rw [List.filter_eq_self]; intro q _; simp [Wanted]
    simp [this]
  · rw [if_neg (by simpa using hnil)]
    have hkeep : ∀ q ∈ es, keepEntry P.repr (sel.map fun s => (dotted (.cont false lk) s.1, s.2)) (.dict (ietfItems o none lk q.2.kids)) =
        .ok (decide (Wanted sel q.2)) := by
      intro q hq
      obtain ⟨g, hg⟩ : ∃ g : Path → PyVal, ∀ s ∈ sel, nodeAt q.2 s.1 = some (.leaf (g s.1) true) := by
        refine ⟨fun p => match nodeAt q.2 p with | some (.leaf v _) => v | _ => .none, fun s hs => ?_⟩
        obtain ⟨v, hv⟩ := hset q hq s hs
        simp [hv]
      rw [← wanted_all hg]
      refine keepEntry_ok fun s hs => ?_
      obtain ⟨i, m, L, e1, e2, e3⟩ := hsel s hs
      have hgs := hg s hs
      rw [e1] at hgs ⊢
      have hdot : dotted (.cont false lk) [.field i] = m.name := by simp [dotted, namesTo, e2, join]
      rw [hdot, splitOn_of_not_mem e3]
      obtain ⟨l, b1, b2, b3⟩ := ietf_bare (o := o) (ns := q.2.kids) hc
      have hmem : (m.name, PTree.leaf (g [.field i])) ∈ l := by
        refine b3 i (m, .leaf L) (.leaf (g [.field i]) true) _ e2 ?_ ?_
        · cases hi : q.2 with
          | cont c p ns =>
            rw [hi, nodeAt_cont] at hgs
            simp only [Inst.kids]
            cases hc : ns[i]? with
            | none => simp [hc] at hgs
            | some c => simp [hc] at hgs; rw [hgs]
          | leaf => rw [hi] at hgs; simp [nodeAt_leaf] at hgs
          | leafList => rw [hi] at hgs; simp [nodeAt_leafList] at hgs
          | list => rw [hi] at hgs; simp [nodeAt_list_field] at hgs
        · have : leafIncluded o L (g [.field i]) true = true := by simp [leafIncluded]
          simp [ietfTree, this]
      simp only [lookupSub, b1, Except.bind]
      have hf := bareFind_mem (b2.nodup hd) hmem
      simp only at hf
      rw [hf]
    have hkeep2 : ∀ x ∈ es.map (fun q => PTree.dict (ietfItems o none lk q.2.kids)),
        keepEntry P.repr (sel.map fun s => (dotted (.cont false lk) s.1, s.2)) x =
          .ok ((fun x : PTree => match keepEntry P.repr (sel.map fun s => (dotted (.cont false lk) s.1, s.2)) x with | .ok b => b | _ => true) x) := by
      intro x hx
      obtain ⟨q, hq, rfl⟩ := List.mem_map.1 hx
      simp [hkeep q hq]
    have hr := removeAll_ok (eq := P.eq) (l := []) (ys := es.map (fun q => PTree.dict (ietfItems o none lk q.2.kids)))
      (keep := fun x => match keepEntry P.repr (sel.map fun s => (dotted (.cont false lk) s.1, s.2)) x with | .ok b => b | _ => true)
      (fun x _ => hrefl x) (by
        intro x hx y hy he
        rw [List.nil_append] at hx
        obtain ⟨q, hq, rfl⟩ := List.mem_map.1 hx
        obtain ⟨r, hr, rfl⟩ := List.mem_map.1 hy
        simp only [hkeep q hq, hkeep r hr]
        rw [decide_eq_decide]
        simp only [Wanted]
        constructor
        · intro h s hs; rw [← heq q hq r hr he s hs]; exact h s hs
        · intro h s hs; rw [heq q hq r hr he s hs]; exact h s hs) (by simp)
    simp only [List.nil_append] at hr
    simp only [ietfListTree, selectTree, dropElems_ok hkeep2, Except.bind, hr, Except.map, Except.ok.injEq, PTree.arr.injEq]
    rw [List.filter_map]
    congr 1
    refine List.filter_congr fun q hq => ?_
    simp [hkeep q hq]

/-- An entry in which the selected leaf is not set makes `dumps` raise `KeyError`; it is not
left out. -/
theorem C48_missing_refuted (P : PyOps) (opath : List Str) (info : ListInfo) (lk : List (Meta × Schema)) (ch : Bool) (q : PyVal × Inst) (es : List (PyVal × Inst))
    (hd : (lk.map fun k => k.1.name).Nodup) (hc : ∀ k ∈ lk, ':' ∉ k.1.name) (i : Nat) (m : Meta) (L : LeafCls) (hk : lk[i]? = some (m, .leaf L))
    (hdot : '.' ∉ m.name) (v : PyVal) (hq : q.2.kids[i]? = some (.leaf v false)) (text : Str) (sel : List (Str × Str)) :
    dumpTree P false opath (treeOf (getNode true (.list info lk) (.list ch (q :: es)))) [] ((m.name, text) :: sel) = .error .keyError := by
  have hb : bareDict (treeItems (getKids true lk q.2.kids)) = .ok ((getKids true lk q.2.kids).map fun x => (x.1, treeOf x.2)) := by
    refine bareDict_plain fun x hx => ?_
    obtain ⟨k', hk', e⟩ := getKids_name hx
    rw [e]; exact hc k' hk'
  have hf : bareFind ((getKids true lk q.2.kids).map fun x => (x.1, treeOf x.2)) m.name = none := by
    refine bareFind_none fun x hx => ?_
    obtain ⟨y, hy, rfl⟩ := List.mem_map.1 hx
    have := getKids_find (f := true) hd hk hq
    simp only [getNode, keepItem, Bool.not_true, Bool.false_or, Bool.false_eq_true, if_false] at this
    have := List.find?_eq_none.1 this y hy
    simpa using this
  simp only [dumpTree, skipAll, Except.bind, reduceCtorEq, if_false, getNode, treeOf, treeEntries, List.map_cons, selectTree, dropKeys, keepEntry,
    splitOn_of_not_mem hdot, lookupSub, hb, hf]

/-- A leaf whose name has a dot cannot be selected: unless some other leaf is found,
`KeyError` is raised. -/
theorem C48_dotted_name_refuted (P : PyOps) (opath : List Str) (f : Bool) (info : ListInfo) (lk : List (Meta × Schema)) (ch : Bool) (q : PyVal × Inst) (es : List (PyVal × Inst))
    (hc : ∀ k ∈ lk, ':' ∉ k.1.name) (a b : Str) (ha : '.' ∉ a) (hno : ∀ k ∈ lk, k.1.name ≠ a) (text : Str) (sel : List (Str × Str)) :
    dumpTree P false opath (treeOf (getNode f (.list info lk) (.list ch (q :: es)))) [] ((a ++ '.' :: b, text) :: sel) = .error .keyError := by
  have hb : bareDict (treeItems (getKids f lk q.2.kids)) = .ok ((getKids f lk q.2.kids).map fun x => (x.1, treeOf x.2)) := by
    refine bareDict_plain fun x hx => ?_
    obtain ⟨k', hk', e⟩ := getKids_name hx
    rw [e]; exact hc k' hk'
  have hf : bareFind ((getKids f lk q.2.kids).map fun x => (x.1, treeOf x.2)) a = none := by
    refine bareFind_none fun x hx => ?_
    obtain ⟨y, hy, rfl⟩ := List.mem_map.1 hx
    obtain ⟨k', hk', e⟩ := getKids_name hy
    simp only [e]
    exact hno k' hk'
  obtain ⟨c, cs, hs⟩ : ∃ c cs, splitOn '.' b = c :: cs := by
    cases h : splitOn '.' b with
    | nil => exact absurd h (splitOn_ne_nil _ _)
    | cons c cs => exact ⟨c, cs, rfl⟩
  simp only [dumpTree, skipAll, Except.bind, reduceCtorEq, if_false, getNode, treeOf, treeEntries, List.map_cons, selectTree, dropKeys, keepEntry,
    splitOn_append_sep '.' a b ha, hs, lookupSub, hb, hf]

/-- In IETF mode no leaf of a container in the entries can be selected: any name with a dot
makes `dumps` of a list with entries raise `KeyError`. -/
theorem C48_ietf_dotted_refuted (P : PyOps) (opath : List Str) (o : DumpOpt) (lk : List (Meta × Schema)) (q : PyVal × Inst) (es : List (PyVal × Inst))
    (hc : ∀ k ∈ lk, ':' ∉ k.1.name ∧ ':' ∉ k.1.module_) (a b : Str) (ha : '.' ∉ a) (text : Str) (sel : List (Str × Str)) :
    dumpTree P true opath (ietfListTree o lk (q :: es)) [] ((a ++ '.' :: b, text) :: sel) = .error .keyError := by
  obtain ⟨l, b1, b2, b3⟩ := ietf_bare (o := o) (ns := q.2.kids) hc
  obtain ⟨c, cs, hs⟩ : ∃ c cs, splitOn '.' b = c :: cs := by
    cases h : splitOn '.' b with
    | nil => exact absurd h (splitOn_ne_nil _ _)
    | cons c cs => exact ⟨c, cs, rfl⟩
  have hl : lookupSub (.dict (ietfItems o none lk q.2.kids)) (a :: c :: cs) = .error .keyError := by
    simp only [lookupSub, b1, Except.bind]
    cases hf : bareFind l a with
    | none => rfl
    | some t =>
      have hac : ':' ∉ a := by
        unfold bareFind at hf
        cases hf' : l.reverse.find? fun x => x.1 == a with
        | none => simp [hf'] at hf
        | some x =>
          have h1 := List.mem_of_find?_eq_some hf'
          have h2 := List.find?_some hf'
          simp at h1 h2
          subst h2
          obtain ⟨k, hk, e⟩ := List.mem_map.1 (b2.subset (List.mem_map.2 ⟨x, h1, rfl⟩))
          rw [← e]
          exact (hc k hk).1
      have : (ietfItems o none lk q.2.kids).find? (fun x => pyEq x.1 (.str a)) = none := by
        rw [List.find?_eq_none]
        intro x hx
        obtain ⟨_, k, _, _, _, h, _⟩ := mem_ietfItems hx
        rw [h, str_eq]
        simp only [decide_eq_true_eq]
        rintro rfl
        simp [ietfName] at hac
      simp only [this]
  simp only [dumpTree, skipAll, Except.bind, reduceCtorEq, if_false, ietfListTree, List.map_cons, selectTree, dropElems, keepEntry,
    splitOn_append_sep '.' a b ha, hs, hl]

/-- A list with a leaf in a container in its entries. -/
def selL : List (Meta × Schema) :=
  [(inM py!"k", .leaf (tStr.cls noRx)), (inM py!"c", .cont false [(inM py!"z", .leaf (tU8.cls noRx))])]
def selKids : List (Meta × Schema) := [(inM py!"l", .list { keys := [0] } selL)]
def selOps : List (Path × Op) :=
  [([.field 0], .add (.str py!"x")), ([.field 0, .key (.str py!"x"), .field 1, .field 0], .set (.int 1) false),
   ([.field 0], .add (.str py!"y")), ([.field 0, .key (.str py!"y"), .field 1, .field 0], .set (.int 2) false)]
def selEntry (k : Str) (z : Nat) : PyVal × Inst := (.str k, .cont true false [.leaf (.str k) true, .cont true false [.leaf (.int z) true]])

theorem sel_distinct : DistinctNames (.cont false selKids) := by
  refine nodup_names (by decide) ?_ false
  intro k hk
  simp only [selKids, List.mem_cons, List.not_mem_nil, or_false] at hk
  subst hk
  refine distinct_list (nodup_names (by decide) ?_ false)
  intro k hk
  simp only [selL, List.mem_cons, List.not_mem_nil, or_false] at hk
  rcases hk with rfl | rfl
  · exact distinct_leaf _
  · refine nodup_names (by decide) ?_ false
    intro k hk
    simp only [List.mem_cons, List.not_mem_nil, or_false] at hk
    subst hk; exact distinct_leaf _

theorem sel_plain : PlainNames (.cont false selKids) := by
  refine plain_all (by decide) ?_ false
  intro k hk
  simp only [selKids, List.mem_cons, List.not_mem_nil, or_false] at hk
  subst hk
  refine plain_list (plain_all (by decide) ?_ false)
  intro k hk
  simp only [selL, List.mem_cons, List.not_mem_nil, or_false] at hk
  rcases hk with rfl | rfl
  · exact plain_leaf _
  · refine plain_all (by decide) ?_ false
    intro k hk
    simp only [List.mem_cons, List.not_mem_nil, or_false] at hk
    subst hk; exact plain_leaf _

theorem sel_reached : objAt (history selKids (freshKids selKids) selOps) [.field 0] = some (.list false [selEntry py!"x" 1, selEntry py!"y" 2]) := rfl

/-- `dumps(m.l, select={"c.z": 2})` gives the entry `y`. -/
example : dumpTree pyOps false [py!"l"] (treeOf (getNode true (.list { keys := [0] } selL) (.list false [selEntry py!"x" 1, selEntry py!"y" 2]))) []
      [(py!"c.z", py!"2")] =
    .ok (treeOf (getNode true (.list { keys := [0] } selL) (.list false [selEntry py!"y" 2]))) :=
  C48_native_partial pyOps true selKids sel_distinct sel_plain selOps [.field 0] { keys := [0] } selL false _ rfl sel_reached [py!"l"]
    [([.field 1, .field 0], py!"2")] (by
      intro s hs
      simp at hs
      subst hs
      exact ⟨[py!"c", py!"z"], tU8.cls noRx, rfl, rfl, by decide⟩) (by
      intro q hq s hs
      simp at hs
      subst hs
      simp at hq
      rcases hq with rfl | rfl
      · exact ⟨.int 1, rfl⟩
      · exact ⟨.int 2, rfl⟩)

/-- `dumps(m.l, select={"k": "x"}, mode="ietf")` gives the entry `x`; here `==` compares the
keys. -/
def keyEq : PTree → PTree → Bool
  | .dict ((_, .leaf a) :: _), .dict ((_, .leaf b) :: _) => pyEq a b
  | _, _ => true

example : dumpTree ⟨fun _ => [], keyEq⟩ true [py!"l"] (ietfListTree {} selL [selEntry py!"x" 1, selEntry py!"y" 2]) [] [(py!"k", py!"x")] =
    .ok (ietfListTree {} selL [selEntry py!"x" 1]) :=
  C48_ietf_partial ⟨fun _ => [], keyEq⟩ {} selL [selEntry py!"x" 1, selEntry py!"y" 2] [py!"l"] (by decide) (by decide) [([.field 0], py!"x")]
    (by
      intro s hs
      simp at hs
      subst hs
      exact ⟨0, inM py!"k", tStr.cls noRx, rfl, rfl, by decide⟩)
    (by
      intro q hq s hs
      simp at hs
      subst hs
      simp at hq
      rcases hq with rfl | rfl
      · exact ⟨.str py!"x", rfl⟩
      · exact ⟨.str py!"y", rfl⟩)
    (by intro t; show keyEq t t = true; unfold keyEq; split <;> simp_all [pyEq_refl])
    (by
      intro q hq r hr he s hs
      simp at hs
      subst hs
      simp at hq hr
      rcases hq with rfl | rfl <;> rcases hr with rfl | rfl
      · rfl
      · exact absurd he (by simp [keyEq, selL, selEntry, Inst.kids, ietfItems, ietfTree, leafIncluded, str_eq])
      · exact absurd he (by simp [keyEq, selL, selEntry, Inst.kids, ietfItems, ietfTree, leafIncluded, str_eq])
      · rfl)

/-- In the list of Props/Overwrite the entry `y` has no `w`, nor has `x`. -/
example : dumpTree pyOps false [py!"l"] (treeOf (getNode true (.list { keys := [0] } owL) (.list false [owEntry py!"x" (.leaf (.int 1) true) (.leaf (.int 0) false)]))) []
    [(py!"w", py!"0")] = .error .keyError :=
  C48_missing_refuted pyOps [py!"l"] { keys := [0] } owL false _ [] (by decide) (by decide) 2 (inM py!"w") (tU8.cls noRx) rfl (by decide) (.int 0) rfl py!"0" []

/-- `c.z` is there, but not in IETF mode. -/
example : dumpTree pyOps true [py!"l"] (ietfListTree {} selL [selEntry py!"x" 1, selEntry py!"y" 2]) [] [(py!"c.z", py!"2")] = .error .keyError :=
  C48_ietf_dotted_refuted pyOps [py!"l"] {} selL (selEntry py!"x" 1) _ (by decide) py!"c" py!"z" (by decide) py!"2" []

/-- A leaf named `a.b`. -/
example : dumpTree pyOps false [py!"l"] (treeOf (getNode true (.list { keys := [0] } [(inM py!"a.b", .leaf (tStr.cls noRx))])
      (.list false [(.str py!"x", .cont true false [.leaf (.str py!"x") true])]))) [] [(py!"a.b", py!"x")] = .error .keyError :=
  C48_dotted_name_refuted pyOps [py!"l"] true { keys := [0] } _ false _ [] (by decide) py!"a" py!"b" (by decide) (by decide) py!"x" []

end Pyb
