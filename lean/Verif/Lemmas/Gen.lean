import Verif.Spec.Gen
import Verif.Spec.Session
import Verif.Lemmas.TreeFlat

/-! # Lemmas about the classes made for YANG statements -/

namespace Pyb
open Py Spec

/-- The `choice` argument of a child in the given choices and cases. -/
def innermost (c : Option Choice) (ch : List (Str × Str)) : Option Choice :=
  match ch.getLast? with
  | some x => some ⟨x.1, x.2⟩
  | none => c

theorem innermost_cons {c x ch} : innermost c (x :: ch) = innermost (some ⟨x.1, x.2⟩) ch := by
  cases h : ch.getLast? with
  | none => simp [innermost, h, List.getLast?_cons]
  | some y => simp [innermost, h, List.getLast?_cons]

theorem genNodes_eq {o c} : ∀ {f}, genNodes o c f = f.flatMap (genNode o c)
  | [] => rfl
  | d :: ds => by simp [genNodes, genNodes_eq (f := ds)]

theorem genCases_eq {o n} : ∀ {f}, genCases o n f = f.flatMap (genCase o n)
  | [] => rfl
  | d :: ds => by simp [genCases, genCases_eq (f := ds)]

theorem sizeOf_below {d : YNode} : sizeOf (stmts d) < sizeOf d ∨ stmts d = [] := by
  cases d <;> simp [stmts] <;> omega

theorem size_case {n cs c kids} {f : List YNode} (h : YNode.choice n cs ∈ f) (h2 : YNode.case c kids ∈ cs) : sizeOf kids < sizeOf f := by
  have a := List.sizeOf_lt_of_mem h
  have b := List.sizeOf_lt_of_mem h2
  simp at a b
  omega

theorem dataIn_size {f ch d} (h : DataIn f ch d) : sizeOf d < sizeOf f := by
  induction h with
  | here h => exact List.sizeOf_lt_of_mem h
  | via h1 h2 _ ih => exact Nat.lt_trans ih (size_case h1 h2)

/-- The elements of a class are those of the data nodes. -/
theorem genNodes_mem {o : Bool} {k : Meta × Schema} : ∀ {f : List YNode} {c : Option Choice},
    k ∈ genNodes o c f ↔ ∃ ch d, DataIn f ch d ∧ k ∈ genNode o (innermost c ch) d := by
  intro f
  generalize hN : sizeOf f = N
  induction N using Nat.strongRecOn generalizing f with
  | ind N ih =>
  intro c
  rw [genNodes_eq, List.mem_flatMap]
  constructor
  · rintro ⟨d, hd, hk⟩
    cases d with
    | choice n cs =>
      simp only [genNode, genCases_eq, List.mem_flatMap] at hk
      obtain ⟨e, he, hk⟩ := hk
      cases e with
      | case c' kids =>
        simp only [genCase] at hk
        obtain ⟨ch, d, h1, h2⟩ := (ih (sizeOf kids) (by rw [← hN]; exact size_case hd he) rfl).1 hk
        exact ⟨(n, c') :: ch, d, .via hd he h1, by rw [innermost_cons]; exact h2⟩
      | _ => simp [genCase] at hk
    | case => simp [genNode] at hk
    | leaf => exact ⟨[], _, .here hd rfl, hk⟩
    | leafList => exact ⟨[], _, .here hd rfl, hk⟩
    | cont => exact ⟨[], _, .here hd rfl, hk⟩
    | list => exact ⟨[], _, .here hd rfl, hk⟩
  · rintro ⟨ch, d, h, hk⟩
    cases h with
    | here h1 h2 => exact ⟨d, h1, hk⟩
    | @via _ n cs c' kids ch _ h1 h2 h3 =>
      refine ⟨_, h1, ?_⟩
      simp only [genNode, genCases_eq, List.mem_flatMap]
      refine ⟨_, h2, ?_⟩
      simp only [genCase]
      rw [innermost_cons] at hk
      exact (ih (sizeOf kids) (by rw [← hN]; exact size_case h1 h2) rfl).2 ⟨ch, d, h3, hk⟩

/-- The positions of the keys. -/
theorem keyPos_names {keys : List Str} {kids : List (Meta × Schema)} (h : ∀ k ∈ keys, ∃ m ∈ kids, m.1.name = k) :
    (keyPos keys kids).map (fun i => (kids[i]?).map fun m => m.1.name) = keys.map some := by
  induction keys with
  | nil => rfl
  | cons k keys ih =>
    have ih := ih fun k hk => h k (by simp [hk])
    obtain ⟨m, hm, rfl⟩ := h k (by simp)
    cases hf : kids.findIdx? fun x => x.1.name == m.1.name with
    | none =>
      rw [List.findIdx?_eq_none_iff] at hf
      exact absurd (hf m hm) (by simp)
    | some i =>
      have hf' := hf
      rw [List.findIdx?_eq_some_iff_getElem] at hf
      obtain ⟨h1, h2, _⟩ := hf
      unfold keyPos at ih ⊢
      simp at h2
      simp only [List.filterMap_cons, hf', List.map_cons, ih, List.getElem?_eq_getElem h1, Option.map_some, h2]

/-- What is made for a data node. -/
theorem genNode_out {o c d n} {k : Meta × Schema} (hn : dataName d = some n) (h : k ∈ genNode o c d) :
    Useful o d ∧ k.1.name = n ∧ k.1.choice = c ∧ Suits o d k.1 k.2 ∧
      (∀ pres ks, k.2 = .cont pres ks → (∃ s p kids, d = .cont s p kids) ∧ ks = genNodes o c (stmts d)) ∧
      (∀ info ks, k.2 = .list info ks → (∃ s ks o kids, d = .list s ks o kids) ∧ ks = genNodes o c (stmts d)) := by
  cases d with
  | leaf s L =>
    simp only [genNode, List.mem_singleton] at h
    subst h
    simp [dataName] at hn
    simp [Useful, Suits, Src.meta, hn]
  | leafList s L =>
    simp only [genNode, List.mem_singleton] at h
    subst h
    simp [dataName] at hn
    simp [Useful, Suits, Src.meta, hn]
  | cont s pres kids =>
    simp only [genNode] at h
    simp [dataName] at hn
    split at h
    · simp at h
    · rename_i hu
      simp only [List.mem_singleton] at h
      subst h
      refine ⟨?_, hn, rfl, by simp [Suits, Src.meta], ?_, by simp⟩
      · by_cases hk : kids = []
        · simp [hk] at hu; exact .inr (by simpa using hu)
        · exact .inl hk
      · intro pres' ks h
        simp at h
        exact ⟨⟨_, _, _, rfl⟩, h.2.symm⟩
  | list s keys ordered kids =>
    simp only [genNode] at h
    simp [dataName] at hn
    split at h
    · simp at h
    · rename_i hu
      simp only [List.mem_singleton] at h
      subst h
      refine ⟨by simpa [Useful] using hu, hn, rfl, ?_, by simp, ?_⟩
      · refine ⟨rfl, rfl, fun hk => keyPos_names fun k hk' => ?_⟩
        obtain ⟨s, L, h1, h2⟩ := hk k hk'
        exact ⟨(s.meta c, .leaf L), genNodes_mem.2 ⟨[], _, .here h1 rfl, by simp [genNode, innermost]⟩, h2⟩
      · intro info ks h
        simp at h
        exact ⟨⟨_, _, _, _, rfl⟩, h.2.symm⟩
  | choice => simp [dataName] at hn
  | case => simp [dataName] at hn

theorem genNode_some {o c d} (h : Useful o d) : ∃ k, k ∈ genNode o c d := by
  cases d with
  | cont s pres kids =>
    simp only [Useful] at h
    simp only [genNode]
    split
    · rename_i hu
      simp at hu
      rcases h with h | ⟨h1, h2⟩
      · exact absurd hu.1 h
      · simp [h1, h2] at hu
    · exact ⟨_, List.mem_singleton.2 rfl⟩
  | list s keys ordered kids =>
    simp only [Useful] at h
    simp [genNode, h]
  | leaf => simp [genNode]
  | leafList => simp [genNode]
  | choice => simp [Useful] at h
  | case => simp [Useful] at h

theorem dataIn_name {f ch d} (h : DataIn f ch d) : ∃ n, dataName d = some n := by
  induction h with
  | here _ h => exact ⟨_, h⟩
  | via _ _ _ ih => exact ih

theorem dataIn_nonempty {f ch d} (h : DataIn f ch d) : f ≠ [] := by
  cases h with
  | here h => exact List.ne_nil_of_mem h
  | via h => exact List.ne_nil_of_mem h

/-- Data nodes with children that matter are there. -/
theorem node_attr {o : Bool} {f p d} (h : Node f p d) (hu : Useful o d) : ∀ c, ∃ m S, Attr (genNodes o c f) p m S ∧ Suits o d m S := by
  induction h with
  | @here f ch d n h hn =>
    intro c
    obtain ⟨k, hk⟩ := genNode_some (c := innermost c ch) hu
    obtain ⟨_, h2, _, h4, _⟩ := genNode_out hn hk
    subst h2
    exact ⟨k.1, k.2, .here (genNodes_mem.2 ⟨ch, d, h, hk⟩), h4⟩
  | @deep f ch e n p d h hi hn hd ih =>
    intro c
    have hne : stmts e ≠ [] := by
      cases hd with
      | here h => exact dataIn_nonempty h
      | deep h => exact dataIn_nonempty h
    have hue : Useful o e := by
      cases e with
      | cont s pres kids => exact .inl hne
      | list s keys or kids => exact hne
      | _ => simp [Inner] at hi
    obtain ⟨k, hk⟩ := genNode_some (c := innermost c ch) hue
    obtain ⟨_, h2, _, h4, h5, h6⟩ := genNode_out hn hk
    have hm := genNodes_mem.2 ⟨ch, e, h, hk⟩
    obtain ⟨m, S, ha, hs⟩ := ih hu (innermost c ch)
    obtain ⟨km, kS⟩ := k
    subst h2
    cases e with
    | cont s pres kids =>
      cases kS with
      | cont pr ks => exact ⟨m, S, .cont hm ((h5 _ _ rfl).2 ▸ ha), hs⟩
      | _ => simp [Suits] at h4
    | list s keys or kids =>
      cases kS with
      | list pr ks => exact ⟨m, S, .list hm ((h6 _ _ rfl).2 ▸ ha), hs⟩
      | _ => simp [Suits] at h4
    | _ => simp [Inner] at hi

/-- Every class comes from a data node. -/
theorem attr_node {o : Bool} {p m S kids} (h : Attr kids p m S) : ∀ f c, kids = genNodes o c f → ∃ d, Node f p d ∧ Useful o d ∧ Suits o d m S := by
  induction h with
  | @here kids m S h =>
    rintro f c rfl
    obtain ⟨ch, d, h1, h2⟩ := genNodes_mem.1 h
    obtain ⟨n, hn⟩ := dataIn_name h1
    obtain ⟨g1, g2, _, g4, _⟩ := genNode_out hn h2
    exact ⟨d, .here h1 (g2 ▸ hn), g1, g4⟩
  | @cont kids m pres ks p m' S h _ ih =>
    rintro f c rfl
    obtain ⟨ch, d, h1, h2⟩ := genNodes_mem.1 h
    obtain ⟨n, hn⟩ := dataIn_name h1
    obtain ⟨g1, g2, _, g4, g5, _⟩ := genNode_out hn h2
    obtain ⟨⟨s, pr, kids, rfl⟩, g6⟩ := g5 _ _ rfl
    obtain ⟨d, i1, i2⟩ := ih _ _ g6
    exact ⟨d, .deep h1 trivial (g2 ▸ hn) i1, i2⟩
  | @list kids m info ks p m' S h _ ih =>
    rintro f c rfl
    obtain ⟨ch, d, h1, h2⟩ := genNodes_mem.1 h
    obtain ⟨n, hn⟩ := dataIn_name h1
    obtain ⟨g1, g2, _, g4, _, g5⟩ := genNode_out hn h2
    obtain ⟨⟨s, pr, _, kids, rfl⟩, g6⟩ := g5 _ _ rfl
    obtain ⟨d, i1, i2⟩ := ih _ _ g6
    exact ⟨d, .deep h1 trivial (g2 ▸ hn) i1, i2⟩

/-! ## Choices -/

theorem inside_trans {d e : YNode} {f} (h1 : Inside e f) (h2 : Inside d (stmts e)) : Inside d f := by
  induction h1 with
  | here h => exact .deep h h2
  | deep h _ ih => exact .deep h ih

theorem dataIn_inside {f ch d} (h : DataIn f ch d) : Inside d f := by
  induction h with
  | here h => exact .here h
  | via h1 h2 _ ih => exact .deep h1 (.deep h2 ih)

theorem dataIn_choice {f ch d x} (h : DataIn f ch d) (hx : x ∈ ch) : ∃ cs kids, Inside (.choice x.1 cs) f ∧ .case x.2 kids ∈ cs ∧ Inside d kids := by
  induction h with
  | here h => simp at hx
  | @via f n cs c kids ch d h1 h2 h3 ih =>
    rcases List.mem_cons.1 hx with rfl | hx
    · exact ⟨cs, kids, .here h1, h2, dataIn_inside h3⟩
    · obtain ⟨cs', kids', i1, i2, i3⟩ := ih hx
      exact ⟨cs', kids', .deep h1 (.deep h2 i1), i2, i3⟩

/-- Without nested choices a data node is in one choice at most. -/
theorem dataIn_one {f ch d} (hN : NoNesting f) (h : DataIn f ch d) :
    ch = [] ∨ ∃ n c cs kids, ch = [(n, c)] ∧ .choice n cs ∈ f ∧ .case c kids ∈ cs ∧ Inside d kids := by
  cases h with
  | here => exact .inl rfl
  | @via _ n cs c kids ch _ h1 h2 h3 =>
    right
    cases h3 with
    | here h h' => exact ⟨n, c, cs, kids, rfl, h1, h2, .here h⟩
    | via h => exact absurd (Inside.here h) (hN n cs c kids (.here h1) h2 _ _)

theorem noNesting_below {f d} (hN : NoNesting f) (h : Inside d f) : NoNesting (stmts d) :=
  fun n cs c kids hi => hN n cs c kids (inside_trans h hi)

theorem noShadow_below {f d} (hS : NoShadow f) (h : Inside d f) : NoShadow (stmts d) :=
  fun e he => hS e (inside_trans h he)

/-- The classes made for statements without nested choices meet the conditions. -/
theorem gen_flat {o : Bool} (f : List YNode) (hN : NoNesting f) (hS : NoShadow f) : ∀ (d : YNode), Inside d f → ∀ (n : Str) (own : Option Choice) (above : List Str)
    (k : Meta × Schema), dataName d = some n → k ∈ genNode o own d →
    (∀ n cs, Inside (.choice n cs) (stmts d) → own = none ∧ n ∉ above) → Choices true above own k.2 := by
  intro d
  generalize hM : sizeOf d = M
  induction M using Nat.strongRecOn generalizing d with
  | ind M ih =>
  intro hd n own above k hn hk hab
  obtain ⟨g1, g2, g3, g4, g5, g6⟩ := genNode_out hn hk
  have key : Inner d → ChoicesKids true above own (choiceNames (genNodes o own (stmts d)) ++ above) (genNodes o own (stmts d)) := by
    intro hi
    have hNd := noNesting_below hN hd
    suffices h : ∀ l : List (Meta × Schema), (∀ x ∈ l, x ∈ genNodes o own (stmts d)) →
        ChoicesKids true above own (choiceNames (genNodes o own (stmts d)) ++ above) l from h _ fun _ h => h
    intro l
    induction l with
    | nil => intro _; simp [ChoicesKids]
    | cons x l ihl =>
      intro hl
      simp only [ChoicesKids]
      refine ⟨?_, ?_, ihl fun y hy => hl y (by simp [hy])⟩
      all_goals
        obtain ⟨ch, e, h1, h2⟩ := genNodes_mem.1 (hl x (by simp))
        obtain ⟨ne, hne⟩ := dataIn_name h1
        obtain ⟨_, _, j3, _⟩ := genNode_out hne h2
      · rcases dataIn_one hNd h1 with rfl | ⟨n, c, cs, kids, rfl, e1, e2, e3⟩
        · exact .inl (by simpa [innermost] using j3)
        · right
          refine ⟨fun _ => (hab n cs (.here e1)).1, ?_⟩
          intro c' hc'
          rw [j3] at hc'
          simp [innermost] at hc'
          subst hc'
          exact (hab n cs (.here e1)).2
      · rw [j3]
        refine ih (sizeOf e) ?_ e rfl (inside_trans hd (dataIn_inside h1)) ne _ _ x hne h2 ?_
        · rw [← hM]
          rcases sizeOf_below (d := d) with h | h
          · exact Nat.lt_trans (dataIn_size h1) h
          · exact absurd h (dataIn_nonempty h1)
        · intro m cs hm
          have hin : Inside (.choice m cs) (stmts d) := inside_trans (dataIn_inside h1) hm
          obtain ⟨a1, a2⟩ := hab m cs hin
          have hch : ch = [] := by
            rcases dataIn_one hNd h1 with rfl | ⟨n', c', cs', kids', rfl, e1, e2, e3⟩
            · rfl
            · exact absurd (inside_trans e3 hm) (hNd n' cs' c' kids' (.here e1) e2 _ _)
          subst hch
          refine ⟨by simpa [innermost] using a1, ?_⟩
          simp only [List.mem_append, not_or]
          refine ⟨?_, a2⟩
          intro hmem
          simp only [choiceNames, List.mem_filterMap, Option.map_eq_some_iff] at hmem
          obtain ⟨y, hy, c, hc, hcm⟩ := hmem
          obtain ⟨ch', e', y1, y2⟩ := genNodes_mem.1 hy
          obtain ⟨ne', hne'⟩ := dataIn_name y1
          obtain ⟨_, _, y3, _⟩ := genNode_out hne' y2
          rw [y3] at hc
          rcases dataIn_one hNd y1 with rfl | ⟨n', c', cs', kids', rfl, e1, e2, e3⟩
          · simp [innermost, a1] at hc
          · simp [innermost] at hc
            subst hc
            simp only at hcm
            subst hcm
            by_cases hie : Inner e
            · exact hS d hd hi _ _ e1 _ e h1 hie cs hm
            · cases e <;> simp [Inner] at hie <;> simp [dataName] at hne
              all_goals
                simp only [stmts] at hm
                cases hm with
                | here h => simp at h
                | deep h => simp at h
  obtain ⟨km, kS⟩ := k
  cases kS with
  | leaf => simp [Choices]
  | leafList => simp [Choices]
  | cont pres ks =>
    obtain ⟨⟨s, p, kids, rfl⟩, h⟩ := g5 _ _ rfl
    simp only [Choices]
    rw [h]
    exact key trivial
  | list info ks =>
    obtain ⟨⟨s, p, _, kids, rfl⟩, h⟩ := g6 _ _ rfl
    simp only [Choices]
    rw [h]
    exact key trivial

theorem genModule_flat (o : Bool) (f : List YNode) (hN : NoNesting f) (hS : NoShadow f) : FlatRoot (genModule o f) := by
  intro k hk
  obtain ⟨ch, d, h1, h2⟩ := genNodes_mem.1 hk
  obtain ⟨n, hn⟩ := dataIn_name h1
  obtain ⟨_, _, h3, _⟩ := genNode_out hn h2
  rw [h3]
  refine gen_flat f hN hS d (dataIn_inside h1) n _ [] k hn h2 ?_
  intro m cs hm
  rcases dataIn_one hN h1 with rfl | ⟨n', c', cs', kids', rfl, e1, e2, e3⟩
  · exact ⟨rfl, by simp⟩
  · exact absurd (inside_trans e3 hm) (hN n' cs' c' kids' (.here e1) e2 _ _)

/-- The children of the class a path leads to. -/
theorem along_gen {o : Bool} {f kids q g ks} (h : Along f kids q g ks) : ∀ c, NamesOnce f → kids = genNodes o c f →
    (∃ c', ks = genNodes o c' g) ∧ (g = f ∨ ∃ d, Inside d f ∧ Inner d ∧ stmts d = g) := by
  have sub : ∀ {f d}, NamesOnce f → Inside d f → Inner d → NamesOnce (stmts d) := by
    intro f d hO hd hi g hg
    refine hO g (.inr ?_)
    rcases hg with rfl | ⟨e, h1, h2, h3⟩
    · exact ⟨d, hd, hi, rfl⟩
    · exact ⟨e, inside_trans hd h1, h2, h3⟩
  have lift : ∀ {f d g}, Inside d f → Inner d → (g = stmts d ∨ ∃ e, Inside e (stmts d) ∧ Inner e ∧ stmts e = g) →
      ∃ e, Inside e f ∧ Inner e ∧ stmts e = g := by
    rintro f d g hd hi (rfl | ⟨e, h1, h2, h3⟩)
    · exact ⟨d, hd, hi, rfl⟩
    · exact ⟨e, inside_trans hd h1, h2, h3⟩
  induction h with
  | nil => exact fun c _ h => ⟨⟨c, h⟩, .inl rfl⟩
  | @cont f kids ch s pres g0 i m pres' ks0 q g ks h1 h2 h3 h4 ih =>
    rintro c hO rfl
    obtain ⟨ch', d, d1, d2⟩ := genNodes_mem.1 (List.mem_of_getElem? h2)
    obtain ⟨n, hn⟩ := dataIn_name d1
    obtain ⟨_, e2, _, _, e5, _⟩ := genNode_out hn d2
    have hsame := (hO f (.inl rfl) _ _ _ _ h1 d1 (by rw [hn, ← e2]; simp [dataName, h3])).2
    subst hsame
    obtain ⟨_, e6⟩ := e5 _ _ rfl
    obtain ⟨i1, i2⟩ := ih _ (sub hO (dataIn_inside h1) trivial) e6
    exact ⟨i1, .inr (lift (dataIn_inside h1) trivial i2)⟩
  | @entry f kids ch s keys or g0 i m info ks0 k q g ks h1 h2 h3 h4 ih =>
    rintro c hO rfl
    obtain ⟨ch', d, d1, d2⟩ := genNodes_mem.1 (List.mem_of_getElem? h2)
    obtain ⟨n, hn⟩ := dataIn_name d1
    obtain ⟨_, e2, _, _, _, e5⟩ := genNode_out hn d2
    have hsame := (hO f (.inl rfl) _ _ _ _ h1 d1 (by rw [hn, ← e2]; simp [dataName, h3])).2
    subst hsame
    obtain ⟨_, e6⟩ := e5 _ _ rfl
    obtain ⟨i1, i2⟩ := ih _ (sub hO (dataIn_inside h1) trivial) e6
    exact ⟨i1, .inr (lift (dataIn_inside h1) trivial i2)⟩

/-- The class a path leads to. -/
theorem along_cls {f kids q g ks} (h : Along f kids q g ks) (pres : Bool) : ∃ pres', schemaAt (.cont pres kids) q = some (.cont pres' ks) := by
  induction h generalizing pres with
  | nil => exact ⟨pres, rfl⟩
  | @cont f kids ch s pres' g0 i m pres'' ks0 q g ks h1 h2 h3 h4 ih =>
    simp only [schemaAt, h2]
    exact ih _
  | @entry f kids ch s keys or g0 i m info ks0 k q g ks h1 h2 h3 h4 ih =>
    simp only [schemaAt, h2]
    exact ih _

theorem node_inside {f p d} (h : Node f p d) : Inside d f := by
  induction h with
  | here h => exact dataIn_inside h
  | deep h _ _ _ ih => exact inside_trans (dataIn_inside h) ih

/-- A list in a binding can be found by names. -/
theorem schemaAt_attr {info : ListInfo} {lk : List (Meta × Schema)} : ∀ (N : Nat) (p : Path), p.length ≤ N → ∀ (kids : List (Meta × Schema)) (k : Meta × Schema),
    k ∈ kids → schemaAt k.2 p = some (.list info lk) → ∃ p' m, Attr kids p' m (.list info lk) := by
  intro N
  induction N with
  | zero =>
    intro p hp kids k hk h
    simp at hp
    subst hp
    obtain ⟨m, S⟩ := k
    simp [schemaAt] at h
    subst h
    exact ⟨_, m, .here hk⟩
  | succ N ih =>
    intro p hp kids k hk h
    obtain ⟨m, S⟩ := k
    cases p with
    | nil =>
      simp [schemaAt] at h
      subst h
      exact ⟨_, m, .here hk⟩
    | cons s p =>
      simp at hp
      cases S with
      | cont pres ks =>
        cases s with
        | key => simp [schemaAt] at h
        | field i =>
          simp only [schemaAt] at h
          cases hki : ks[i]? with
          | none => simp [hki] at h
          | some k' =>
            simp only [hki] at h
            obtain ⟨p', m', h'⟩ := ih p (by omega) ks k' (List.mem_of_getElem? hki) h
            exact ⟨_, m', .cont hk h'⟩
      | list inf ks =>
        cases s with
        | field => simp [schemaAt] at h
        | key x =>
          simp only [schemaAt] at h
          cases p with
          | nil => simp [schemaAt] at h
          | cons s p =>
            cases s with
            | key => simp [schemaAt] at h
            | field i =>
              simp only [schemaAt] at h
              cases hki : ks[i]? with
              | none => simp [hki] at h
              | some k' =>
                simp only [hki] at h
                obtain ⟨p', m', h'⟩ := ih p (by simp at hp; omega) ks k' (List.mem_of_getElem? hki) h
                exact ⟨_, m', .list hk h'⟩
      | leaf => simp [schemaAt] at h
      | leafList => simp [schemaAt] at h

theorem genModule_keyed {o : Bool} {f : List YNode} (h : KeyStmts f) : ∀ k ∈ genModule o f, Keyed k.2 := by
  intro k hk p info lk hp
  obtain ⟨p', m, ha⟩ := schemaAt_attr _ p (Nat.le_refl _) _ k hk hp
  obtain ⟨d, h1, h2, h3⟩ := attr_node ha f none rfl
  cases d with
  | list s keys or kids =>
    obtain ⟨hk1, hk2⟩ := h s keys or kids (node_inside h1)
    have := h3.2.2 hk2
    intro he
    rw [he] at this
    exact hk1 (by simpa using this.symm)
  | _ => simp [Suits] at h3

/-! ## For concrete modules -/

mutual
def dataL : List YNode → List (List (Str × Str) × YNode)
  | [] => []
  | d :: ds => dataN d ++ dataL ds
def dataN : YNode → List (List (Str × Str) × YNode)
  | .choice n cs => (dataC cs).map fun x => ((n, x.1) :: x.2.1, x.2.2)
  | .case _ _ => []
  | d => [([], d)]
def dataC : List YNode → List (Str × List (Str × Str) × YNode)
  | [] => []
  | d :: ds => dataE d ++ dataC ds
def dataE : YNode → List (Str × List (Str × Str) × YNode)
  | .case c kids => (dataL kids).map fun x => (c, x)
  | _ => []
end

theorem dataL_eq : ∀ {f}, dataL f = f.flatMap dataN
  | [] => rfl
  | d :: ds => by simp [dataL, dataL_eq (f := ds)]

theorem dataC_eq : ∀ {f}, dataC f = f.flatMap dataE
  | [] => rfl
  | d :: ds => by simp [dataC, dataC_eq (f := ds)]

theorem dataL_of {f ch d} (h : DataIn f ch d) : (ch, d) ∈ dataL f := by
  induction h with
  | @here f d n h hn =>
    rw [dataL_eq, List.mem_flatMap]
    refine ⟨d, h, ?_⟩
    cases d <;> simp [dataName] at hn <;> simp [dataN]
  | @via f n cs c kids ch d h1 h2 _ ih =>
    rw [dataL_eq, List.mem_flatMap]
    refine ⟨_, h1, ?_⟩
    simp only [dataN, List.mem_map, dataC_eq, List.mem_flatMap]
    refine ⟨(c, ch, d), ⟨_, h2, ?_⟩, rfl⟩
    simp only [dataE, List.mem_map]
    exact ⟨_, ih, rfl⟩

mutual
def allL : List YNode → List YNode
  | [] => []
  | d :: ds => d :: allB d ++ allL ds
def allB : YNode → List YNode
  | .cont _ _ kids => allL kids
  | .list _ _ _ kids => allL kids
  | .choice _ cs => allL cs
  | .case _ kids => allL kids
  | _ => []
end

theorem allB_eq {d} : allB d = allL (stmts d) := by cases d <;> simp [allB, stmts, allL]

theorem allL_of {d f} (h : Inside d f) : d ∈ allL f := by
  induction h with
  | @here f h =>
    induction f with
    | nil => simp at h
    | cons e f ih =>
      simp only [allL, List.mem_cons, List.cons_append, List.mem_append]
      rcases List.mem_cons.1 h with h | h
      · exact .inl h
      · exact .inr (.inr (ih h))
  | @deep f e h _ ih =>
    induction f with
    | nil => simp at h
    | cons e' f ih' =>
      simp only [allL, List.mem_cons, List.cons_append, List.mem_append]
      rcases List.mem_cons.1 h with h | h
      · subst h; rw [allB_eq]; exact .inr (.inl ih)
      · exact .inr (.inr (ih' h))

def innerB : YNode → Bool
  | .cont .. => true
  | .list .. => true
  | _ => false

theorem innerB_of {d} (h : Inner d) : innerB d = true := by cases d <;> simp [Inner] at h <;> rfl

theorem nodup_map_eq {α β : Type _} {g : α → β} {l : List α} (h : (l.map g).Nodup) {a b : α} (ha : a ∈ l) (hb : b ∈ l) (he : g a = g b) : a = b := by
  induction l with
  | nil => simp at ha
  | cons x l ih =>
    simp only [List.map_cons, List.nodup_cons, List.mem_map, not_exists, not_and] at h
    rcases List.mem_cons.1 ha with rfl | ha' <;> rcases List.mem_cons.1 hb with rfl | hb'
    · rfl
    · exact absurd he.symm (h.1 b hb')
    · exact absurd he (h.1 a ha')
    · exact ih h.2 ha' hb'

theorem namesOnce_of {f} (h : ∀ g ∈ f :: ((allL f).filter innerB).map stmts, ((dataL g).map fun x => dataName x.2).Nodup) : NamesOnce f := by
  intro g hg ch d ch' d' h1 h2 he
  have hg : g ∈ f :: ((allL f).filter innerB).map stmts := by
    rcases hg with rfl | ⟨d, a, b, rfl⟩
    · exact List.mem_cons_self ..
    · exact List.mem_cons_of_mem _ (List.mem_map.2 ⟨d, List.mem_filter.2 ⟨allL_of a, innerB_of b⟩, rfl⟩)
  have := nodup_map_eq (g := fun x : List (Str × Str) × YNode => dataName x.2) (h g hg) (dataL_of h1) (dataL_of h2) he
  simpa using this

def choicesIn (f : List YNode) : List Str := (allL f).filterMap fun d => match d with | .choice n _ => some n | _ => none

theorem choicesIn_of {n cs f} (h : Inside (.choice n cs) f) : n ∈ choicesIn f := List.mem_filterMap.2 ⟨_, allL_of h, rfl⟩

def flatChoice : YNode → Bool
  | .choice _ cs => cs.all fun e => match e with | .case _ kids => (choicesIn kids).isEmpty | _ => true
  | _ => true

theorem noNesting_of {f} (h : (allL f).all flatChoice = true) : NoNesting f := by
  intro n cs c kids hi hc n' cs' h'
  have := List.all_eq_true.1 h _ (allL_of hi)
  have := List.all_eq_true.1 this _ hc
  simp only [List.isEmpty_iff] at this
  have h' := choicesIn_of h'
  rw [this] at h'
  simp at h'

def clearNode (d : YNode) : Bool :=
  !innerB d || ((stmts d).all fun e => match e with
    | .choice n _ => (dataL (stmts d)).all fun x => !innerB x.2 || !(choicesIn (stmts x.2)).contains n
    | _ => true)

theorem noShadow_of {f} (h : (allL f).all clearNode = true) : NoShadow f := by
  intro d hd hi n cs hn ch e he hie cs' h'
  have := List.all_eq_true.1 h _ (allL_of hd)
  simp only [clearNode, innerB_of hi, Bool.not_true, Bool.false_or] at this
  have := List.all_eq_true.1 this _ hn
  have := List.all_eq_true.1 this _ (dataL_of he)
  simp only [innerB_of hie, Bool.not_true, Bool.false_or, Bool.not_eq_true', List.contains_eq_mem, decide_eq_false_iff_not] at this
  exact this (choicesIn_of h')

def keyedNode : YNode → Bool
  | .list _ keys _ kids => !keys.isEmpty && keys.all fun k => kids.any fun d => match d with | .leaf s _ => s.name == k | _ => false
  | _ => true

theorem keyStmts_of {f} (h : (allL f).all keyedNode = true) : KeyStmts f := by
  intro s keys o kids hi
  have := List.all_eq_true.1 h _ (allL_of hi)
  simp only [keyedNode, Bool.and_eq_true, Bool.not_eq_true', List.isEmpty_eq_false_iff] at this
  refine ⟨this.1, fun k hk => ?_⟩
  obtain ⟨d, hd, h'⟩ := List.any_eq_true.1 (List.all_eq_true.1 this.2 k hk)
  cases d with
  | leaf s L => exact ⟨s, L, hd, by simpa using h'⟩
  | _ => simp at h'

end Pyb
