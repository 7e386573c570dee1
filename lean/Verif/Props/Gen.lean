import Verif.Lemmas.Gen
import Verif.Props.Session

/-! # Properties of the generated classes (C79) -/

namespace Pyb
open Py Spec

/-- `container t { leaf k; choice ch { case one { leaf a; container s { leaf b; } } case two { leaf c; } }
container e; list l { key "k2 k1"; leaf k1; leaf v; leaf k2; } }` -/
def genT : List YNode :=
  [.cont { name := py!"t" } false
    [.leaf { name := py!"k" } strLeaf,
     .choice py!"ch"
      [.case py!"one" [.leaf { name := py!"a" } strLeaf, .cont { name := py!"s" } false [.leaf { name := py!"b" } strLeaf]],
       .case py!"two" [.leaf { name := py!"c" } strLeaf]],
     .cont { name := py!"e" } false [],
     .list { name := py!"l" } [py!"k2", py!"k1"] false
      [.leaf { name := py!"k1" } strLeaf, .leaf { name := py!"v" } strLeaf, .leaf { name := py!"k2" } strLeaf]]]

/-- C79: every data node of a module that can have data has its attribute: following the
names of its path in the binding leads to a class of its kind. -/
theorem C79_complete (genPres : Bool) (f : List YNode) (p : List Str) (d : YNode) (h : Node f p d) (hu : Useful genPres d) :
    ∃ m S, Attr (genModule genPres f) p m S ∧ Suits genPres d m S :=
  node_attr h hu none

example : ∃ m S, Attr (genModule false genT) [py!"t", py!"s", py!"b"] m S ∧ Suits false (.leaf { name := py!"b" } strLeaf) m S := by
  refine C79_complete false genT _ _ ?_ trivial
  refine .deep (.here (List.mem_cons_self ..) rfl) trivial rfl ?_
  refine .deep (e := .cont { name := py!"s" } false [.leaf { name := py!"b" } strLeaf])
    (.via (n := py!"ch") (c := py!"one") (List.mem_cons_of_mem _ (List.mem_cons_self ..)) (List.mem_cons_self ..)
      (.here (List.mem_cons_of_mem _ (List.mem_cons_self ..)) rfl)) trivial rfl ?_
  exact .here (.here (List.mem_cons_self ..) rfl) rfl

/-- C79: nothing else has one: every class of the binding is that of a data node of the
module. -/
theorem C79_sound (genPres : Bool) (f : List YNode) (p : List Str) (m : Meta) (S : Schema) (h : Attr (genModule genPres f) p m S) :
    ∃ d, Node f p d ∧ Useful genPres d ∧ Suits genPres d m S :=
  attr_node h f none rfl

example : ∃ d, Node genT [py!"t", py!"l"] d ∧ Useful false d ∧ ∃ m info ks, Suits false d m (.list info ks) ∧ info.keys = [2, 0] := by
  obtain ⟨d, h1, h2, h3⟩ := C79_sound false genT [py!"t", py!"l"] { name := py!"l" }
    (.list { keys := [2, 0] } [({ name := py!"k1" }, .leaf strLeaf), ({ name := py!"v" }, .leaf strLeaf), ({ name := py!"k2" }, .leaf strLeaf)])
    (.cont (m := { name := py!"t" }) (pres := false) (List.mem_cons_self ..)
      (.here (List.mem_cons_of_mem _ (List.mem_cons_of_mem _ (List.mem_cons_of_mem _ (List.mem_cons_of_mem _ (List.mem_cons_self ..)))))))
  exact ⟨d, h1, h2, _, _, _, h3, rfl⟩

/-- A presence container without children is a data node, but has an attribute only with
the option `--presence`. -/
theorem C79_presence_refuted : ∃ f p d, Node f p d ∧ (∃ s, d = .cont s true []) ∧ ¬ ∃ m S, Attr (genModule false f) p m S := by
  refine ⟨[.cont { name := py!"e" } true []], [py!"e"], _, .here (.here (List.mem_cons_self ..) rfl) rfl, ⟨_, rfl⟩, ?_⟩
  rintro ⟨m, S, h⟩
  obtain ⟨d, h1, h2, _⟩ := C79_sound _ _ _ _ _ h
  generalize hp : [py!"e"] = p at h1
  cases h1 with
  | here h1 =>
    cases h1 with
    | here h1 => simp at h1; subst h1; simp [Useful] at h2
    | via h1 => simp at h1
  | deep h1 _ _ h3 =>
    simp at hp
    obtain ⟨_, rfl⟩ := hp
    cases h3

/-- If of all choices of the binding only one case holds data, so of those of the module. -/
theorem conflict_apart {genPres : Bool} {f : List YNode} (hO : NamesOnce f) (hN : NoNesting f) {ns : List Inst}
    (hE : ∀ (i : Nat) (k : Meta × Schema) (c : Inst), (genModule genPres f)[i]? = some k → ns[i]? = some c → Exclusive k.2 c)
    (q : Path) (g : List YNode) (ks : List (Meta × Schema)) (hq : q ≠ []) (hA : Along f (genModule genPres f) q g ks)
    (ca cb : List (Str × Str)) (da db : YNode) (ha : DataIn g ca da) (hb : DataIn g cb db) (hc : Conflict ca cb)
    (i j : Nat) (a b : Meta × Schema) (hi : ks[i]? = some a) (hj : ks[j]? = some b)
    (hna : dataName da = some a.1.name) (hnb : dataName db = some b.1.name) (x y : Inst)
    (hx : objAt ns (q ++ [.field i]) = some x) (hy : objAt ns (q ++ [.field j]) = some y) : ¬ (HasData x ∧ HasData y) := by
  obtain ⟨⟨c, hks⟩, hg⟩ := along_gen (o := genPres) hA none hO rfl
  have hNg : NoNesting g := by
    rcases hg with rfl | ⟨d, h1, _, rfl⟩
    · exact hN
    · exact noNesting_below hN h1
  have meta_ : ∀ (i : Nat) (a : Meta × Schema) ch d, ks[i]? = some a → DataIn g ch d → dataName d = some a.1.name →
      a.1.choice = innermost c ch := by
    intro i a ch d h1 h2 h3
    rw [hks] at h1
    obtain ⟨ch', d', e1, e2⟩ := genNodes_mem.1 (List.mem_of_getElem? h1)
    obtain ⟨n, hn⟩ := dataIn_name e1
    obtain ⟨_, e3, e4, _⟩ := genNode_out hn e2
    obtain ⟨rfl, rfl⟩ := hO g hg _ _ _ _ h2 e1 (by rw [h3, hn, e3])
    exact e4
  have hR : Rivals a.1 b.1 := by
    have h1 := meta_ i a ca da hi ha hna
    have h2 := meta_ j b cb db hj hb hnb
    rcases dataIn_one hNg ha with rfl | ⟨n, x, _, _, rfl, _⟩
    · simp [Conflict] at hc
    · rcases dataIn_one hNg hb with rfl | ⟨n', y, _, _, rfl, _⟩
      · simp [Conflict] at hc
      · simp only [Conflict, or_false] at hc
        exact ⟨⟨n, x⟩, ⟨n', y⟩, h1, h2, hc.1, hc.2⟩
  obtain ⟨pres', hcls⟩ := along_cls hA false
  have last : ∀ {c : Inst} {q : Path} {i : Nat} {x : Inst}, nodeAt c (q ++ [.field i]) = some x →
      ∃ ch pr xs, nodeAt c q = some (.cont ch pr xs) ∧ xs[i]? = some x := by
    intro c q i x h
    rw [nodeAt_append] at h
    cases hn : nodeAt c q with
    | none => simp [hn] at h
    | some m =>
      simp only [hn, Option.bind_some] at h
      cases m with
      | cont ch pr xs =>
        rw [nodeAt_cont] at h
        cases hz : xs[i]? with
        | none => simp [hz] at h
        | some z => simp [hz] at h; subst h; exact ⟨ch, pr, xs, rfl, hz⟩
      | list => simp [nodeAt_list_field] at h
      | leaf => simp [nodeAt_leaf] at h
      | leafList => simp [nodeAt_leafList] at h
  cases q with
  | nil => exact absurd rfl hq
  | cons s q =>
    cases s with
    | key k => simp [schemaAt] at hcls
    | field i0 =>
      rw [schemaAt_cont] at hcls
      cases hk : (genModule genPres f)[i0]? with
      | none => simp [hk] at hcls
      | some k =>
        simp only [hk] at hcls
        rw [List.cons_append, objAt_field] at hx hy
        cases hn : ns[i0]? with
        | none => simp [hn] at hx
        | some n0 =>
          simp only [hn, Option.bind_some] at hx hy
          obtain ⟨ch, pr, xs, e1, e2⟩ := last hx
          obtain ⟨ch', pr', xs', e3, e4⟩ := last hy
          rw [e1] at e3
          simp only [Option.some.injEq, Inst.cont.injEq] at e3
          obtain ⟨rfl, rfl, rfl⟩ := e3
          exact hE i0 k n0 hk hn q pres' ks ch pr xs hcls e1 i j a b x y hi hj e2 e4 hR

/-- C79: after any history of operations, data nodes in different cases of a choice of the
module never both hold data, in any container or list entry.  Missing (each is refuted
below or in C32): choices at the top level of the module, choices within cases of choices,
choices with the name of a choice in an enclosing container or list, and `add()` on lists
without key. -/
theorem C79_choices_partial (genPres : Bool) (f : List YNode) (hO : NamesOnce f) (hN : NoNesting f) (hS : NoShadow f)
    (ops : List (Path × Op)) (hops : ∀ x ∈ ops, ∀ u, x.2 ≠ .addAnon u)
    (q : Path) (g : List YNode) (ks : List (Meta × Schema)) (hq : q ≠ []) (hA : Along f (genModule genPres f) q g ks)
    (ca cb : List (Str × Str)) (da db : YNode) (ha : DataIn g ca da) (hb : DataIn g cb db) (hc : Conflict ca cb)
    (i j : Nat) (a b : Meta × Schema) (hi : ks[i]? = some a) (hj : ks[j]? = some b)
    (hna : dataName da = some a.1.name) (hnb : dataName db = some b.1.name) (x y : Inst)
    (hx : objAt (history (genModule genPres f) (freshKids (genModule genPres f)) ops) (q ++ [.field i]) = some x)
    (hy : objAt (history (genModule genPres f) (freshKids (genModule genPres f)) ops) (q ++ [.field j]) = some y) :
    ¬ (HasData x ∧ HasData y) :=
  conflict_apart hO hN (fun i k c => C32_exclusive_partial _ (genModule_flat genPres f hN hS) ops hops i k c) q g ks hq hA ca cb da db ha hb hc
    i j a b hi hj hna hnb x y hx hy

/-- C79: the same after any session of API calls and documents, in modules whose lists have
keys. -/
theorem C79_session_partial (genPres : Bool) (f : List YNode) (hO : NamesOnce f) (hN : NoNesting f) (hS : NoShadow f) (hK : KeyStmts f)
    (acts : List Act) (hops : ∀ p op, Act.api p op ∈ acts → ∀ u, op ≠ .addAnon u)
    (q : Path) (g : List YNode) (ks : List (Meta × Schema)) (hq : q ≠ []) (hA : Along f (genModule genPres f) q g ks)
    (ca cb : List (Str × Str)) (da db : YNode) (ha : DataIn g ca da) (hb : DataIn g cb db) (hc : Conflict ca cb)
    (i j : Nat) (a b : Meta × Schema) (hi : ks[i]? = some a) (hj : ks[j]? = some b)
    (hna : dataName da = some a.1.name) (hnb : dataName db = some b.1.name) (x y : Inst)
    (hx : objAt (session (genModule genPres f) (freshKids (genModule genPres f)) acts) (q ++ [.field i]) = some x)
    (hy : objAt (session (genModule genPres f) (freshKids (genModule genPres f)) acts) (q ++ [.field j]) = some y) :
    ¬ (HasData x ∧ HasData y) :=
  conflict_apart hO hN (fun i k c => C74_exclusive_partial _ (genModule_flat genPres f hN hS) (genModule_keyed hK) acts hops i k c)
    q g ks hq hA ca cb da db ha hb hc i j a b hi hj hna hnb x y hx hy

theorem genT_once : NamesOnce genT := namesOnce_of (by decide)

theorem genT_noNesting : NoNesting genT := noNesting_of (by decide)

theorem genT_noShadow : NoShadow genT := noShadow_of (by decide)

theorem genT_keys : KeyStmts genT := keyStmts_of (by decide)

example (ops : List (Path × Op)) (hops : ∀ x ∈ ops, ∀ u, x.2 ≠ .addAnon u) (x y : Inst)
    (hx : objAt (history (genModule false genT) (freshKids (genModule false genT)) ops) [.field 0, .field 2] = some x)
    (hy : objAt (history (genModule false genT) (freshKids (genModule false genT)) ops) [.field 0, .field 3] = some y) :
    ¬ (HasData x ∧ HasData y) := by
  refine C79_choices_partial false genT genT_once genT_noNesting genT_noShadow ops hops [.field 0] _ _ (by simp)
    (.cont (.here (List.mem_cons_self ..) rfl) rfl rfl .nil) [(py!"ch", py!"one")] [(py!"ch", py!"two")]
    (.cont { name := py!"s" } false [.leaf { name := py!"b" } strLeaf]) (.leaf { name := py!"c" } strLeaf)
    (.via (List.mem_cons_of_mem _ (List.mem_cons_self ..)) (List.mem_cons_self ..) (.here (List.mem_cons_of_mem _ (List.mem_cons_self ..)) rfl))
    (.via (List.mem_cons_of_mem _ (List.mem_cons_self ..)) (List.mem_cons_of_mem _ (List.mem_cons_self ..)) (.here (List.mem_cons_self ..) rfl))
    ⟨rfl, .inl (by decide)⟩ 2 3 _ _ rfl rfl rfl rfl x y hx hy

example (acts : List Act) (hops : ∀ p op, Act.api p op ∈ acts → ∀ u, op ≠ .addAnon u) (x y : Inst)
    (hx : objAt (session (genModule false genT) (freshKids (genModule false genT)) acts) [.field 0, .field 2] = some x)
    (hy : objAt (session (genModule false genT) (freshKids (genModule false genT)) acts) [.field 0, .field 3] = some y) :
    ¬ (HasData x ∧ HasData y) := by
  refine C79_session_partial false genT genT_once genT_noNesting genT_noShadow genT_keys acts hops [.field 0] _ _ (by simp)
    (.cont (.here (List.mem_cons_self ..) rfl) rfl rfl .nil) [(py!"ch", py!"one")] [(py!"ch", py!"two")]
    (.cont { name := py!"s" } false [.leaf { name := py!"b" } strLeaf]) (.leaf { name := py!"c" } strLeaf)
    (.via (List.mem_cons_of_mem _ (List.mem_cons_self ..)) (List.mem_cons_self ..) (.here (List.mem_cons_of_mem _ (List.mem_cons_self ..)) rfl))
    (.via (List.mem_cons_of_mem _ (List.mem_cons_self ..)) (List.mem_cons_of_mem _ (List.mem_cons_self ..)) (.here (List.mem_cons_self ..) rfl))
    ⟨rfl, .inl (by decide)⟩ 2 3 _ _ rfl rfl rfl rfl x y hx hy

/-- The paths in the example lead to data: after setting `s/b` and then `c`, only `c`. -/
example : (objAt (history (genModule false genT) (freshKids (genModule false genT)) [([.field 0, .field 2, .field 0], .set (.str py!"1") false)])
      [.field 0, .field 2] = some (.cont true false [.leaf (.str py!"1") true])) ∧
    (objAt (history (genModule false genT) (freshKids (genModule false genT)) [([.field 0, .field 2, .field 0], .set (.str py!"1") false),
      ([.field 0, .field 3], .set (.str py!"2") false)]) [.field 0, .field 2] = some (.cont false false [.leaf (.str []) false])) := ⟨rfl, rfl⟩

/-- `container t { choice ch { case one { choice in { case a { leaf x; } } } case two { leaf y; } } }` -/
def nestT : List YNode :=
  [.cont { name := py!"t" } false
    [.choice py!"ch"
      [.case py!"one" [.choice py!"in" [.case py!"a" [.leaf { name := py!"x" } strLeaf]]],
       .case py!"two" [.leaf { name := py!"y" } strLeaf]]]]

/-- A choice directly in a case of another: its nodes know only the inner choice, so they
and nodes in other cases of the outer one can both be set. -/
theorem C79_nested_refuted : ∃ f ops g ks ca cb da db, NamesOnce f ∧ NoShadow f ∧ (∀ x ∈ ops, ∃ v, x.2 = .set v false) ∧
    Along f (genModule false f) [.field 0] g ks ∧ DataIn g ca da ∧ DataIn g cb db ∧ Conflict ca cb ∧
    dataName da = (ks[0]?).map (fun m => m.1.name) ∧ dataName db = (ks[1]?).map (fun m => m.1.name) ∧
    ∃ v w, objAt (history (genModule false f) (freshKids (genModule false f)) ops) [.field 0, .field 0] = some (.leaf v true) ∧
      objAt (history (genModule false f) (freshKids (genModule false f)) ops) [.field 0, .field 1] = some (.leaf w true) := by
  refine ⟨nestT, [([.field 0, .field 0], .set (.str py!"1") false), ([.field 0, .field 1], .set (.str py!"2") false)],
    _, _, [(py!"ch", py!"one"), (py!"in", py!"a")], [(py!"ch", py!"two")], .leaf { name := py!"x" } strLeaf, .leaf { name := py!"y" } strLeaf,
    namesOnce_of (by decide), noShadow_of (by decide), by simp, .cont (.here (List.mem_cons_self ..) rfl) rfl rfl .nil,
    .via (List.mem_cons_self ..) (List.mem_cons_self ..) (.via (List.mem_cons_self ..) (List.mem_cons_self ..) (.here (List.mem_cons_self ..) rfl)),
    .via (List.mem_cons_self ..) (List.mem_cons_of_mem _ (List.mem_cons_self ..)) (.here (List.mem_cons_self ..) rfl),
    ⟨rfl, .inl (by decide)⟩, rfl, rfl, _, _, rfl, rfl⟩

end Pyb
