import Verif.Props.ObjPathHist

/-! # C110: objects are found under the paths they report -/

namespace Pyb
open Py Spec

theorem objsKids_mem (up : List Str) : ∀ (kids : List (Meta × Schema)) (ns : List Inst) (x : List Str × XObj), x ∈ objsKids up kids ns →
    ∃ (i : Nat) (k : Meta × Schema) (n : Inst), kids[i]? = some k ∧ ns[i]? = some n ∧ x ∈ objsNode up k.1 k.2 n
  | [], _, x, h => by simp [objsKids] at h
  | _ :: _, [], x, h => by simp [objsKids] at h
  | k :: ks, n :: ns, x, h => by
    rw [objsKids] at h
    rcases List.mem_append.1 h with h | h
    · exact ⟨0, k, n, rfl, rfl, h⟩
    · obtain ⟨i, k', n', h1, h2, h3⟩ := objsKids_mem up ks ns x h
      exact ⟨i + 1, k', n', by simpa using h1, by simpa using h2, h3⟩

/-- Found among entries that differ in a key. -/
theorem find_pairwise {α β : Type} [DecidableEq β] (f : α → β) : ∀ (es : List α), es.Pairwise (fun a b => f a ≠ f b) → ∀ e ∈ es, es.find? (fun x => decide (f x = f e)) = some e
  | a :: es, h, e, he => by
    rw [List.pairwise_cons] at h
    rcases List.mem_cons.1 he with rfl | he
    · simp
    · rw [List.find?_cons_of_neg (by simpa using h.1 e he)]
      exact find_pairwise f es h.2 e he

/-- The paths of a child, as steps, and what the tree has there. -/
theorem objsNode_at {K : PyVal → Prop} {S : Schema} (ha : Addressable S) : ∀ (up : List Str) (m : Meta) {n : Inst}, RegTree K S n →
    ∀ x ∈ objsNode up m S n, ∃ (s : PStep) (r : List PStep), x.1 = up ++ (s :: r).map PStep.text ∧ s.tag = m.name ∧ childPath S s.keys r ∧ nodeReg S n s.keys r = some x.2 := by
  induction S using Schema.ind with
  | hleaf L =>
    intro up m n h x hx
    cases h
    rw [objsNode] at hx
    rw [List.mem_singleton.1 hx]
    exact ⟨⟨m.name, []⟩, [], by simp [name_text], rfl, ⟨rfl, rfl⟩, by simp [nodeReg]⟩
  | hll L =>
    intro up m n h x hx
    cases h
    rw [objsNode] at hx
    rw [List.mem_singleton.1 hx]
    exact ⟨⟨m.name, []⟩, [], by simp [name_text], rfl, ⟨rfl, rfl⟩, by simp [nodeReg]⟩
  | hcont pres kids ih =>
    intro up m n h x hx
    cases ha with
    | cont _ _ hok ha =>
    cases h with
    | cont _ _ ch pr ns hl h =>
    rw [objsNode] at hx
    rcases List.mem_cons.1 hx with rfl | hx
    · exact ⟨⟨m.name, []⟩, [], by simp [name_text], rfl, ⟨rfl, trivial⟩, by simp [nodeReg]⟩
    · obtain ⟨i, k, n, hk, hn, hx⟩ := objsKids_mem _ _ _ _ hx
      have hmem := List.mem_of_getElem? hk
      obtain ⟨s, r, e1, e2, e3, e4⟩ := ih k hmem (ha k hmem) _ k.1 (h i k n hk hn) x hx
      refine ⟨⟨m.name, []⟩, s :: r, by rw [e1]; simp [name_text], rfl, ⟨rfl, (pathOk_cons _ _ _).2 ⟨k, hmem, e2.symm, e3⟩⟩, ?_⟩
      simp only [nodeReg, if_true, reduceCtorEq, if_false]
      rw [regAt_cons, e2, kidNamed_get hok.nodup hk hn]
      exact e4
  | hlist info kids ih =>
    intro up m n h x hx
    cases ha with
    | list _ _ hok ha hne hnd hkeys =>
    cases h with
    | list _ _ ch es h1 h2 h3 =>
    rw [objsNode] at hx
    obtain ⟨e, he, hx⟩ := List.mem_flatMap.1 hx
    have hz : (entryStep m.name info kids e.1).keys.map (·.1) = entryKeyNames info kids := by
      rw [entryStep]
      exact List.map_fst_zip (by rw [(h1 e he).2.1, entryKeyNames, List.length_map]; exact Nat.le_refl _)
    have hv : ∀ y ∈ (entryStep m.name info kids e.1).keys, KeyText y.2 := fun y hy =>
      (h1 e he).2.2 _ (List.of_mem_zip (a := y.1) (b := y.2) hy).2
    have hfind : es.find? (fun y => decide (entryKeys info kids y.1 = (entryStep m.name info kids e.1).keys)) = some e :=
      find_pairwise (fun y : PyVal × Inst => entryKeys info kids y.1) es h2 e he
    have hq := h3 e he
    obtain ⟨key, c⟩ := e
    cases hq with
    | cont _ _ ch pr ns hl h =>
    rcases List.mem_cons.1 hx with rfl | hx
    · refine ⟨entryStep m.name info kids key, [], by simp, rfl, ⟨hz, hv, trivial⟩, ?_⟩
      simp only [nodeReg]
      rw [hfind]
      simp
    · obtain ⟨i, k, n, hk, hn, hx⟩ := objsKids_mem _ _ _ _ hx
      have hmem := List.mem_of_getElem? hk
      obtain ⟨s, r, e1, e2, e3, e4⟩ := ih k hmem (ha k hmem) _ k.1 (h i k n hk hn) x hx
      refine ⟨entryStep m.name info kids key, s :: r, by rw [e1]; simp, rfl, ⟨hz, hv, (pathOk_cons _ _ _).2 ⟨k, hmem, e2.symm, e3⟩⟩, ?_⟩
      simp only [nodeReg]
      rw [hfind]
      simp only [reduceCtorEq, if_false]
      rw [regAt_cons, e2, kidNamed_get (ns := ns) hok.nodup hk hn]
      exact e4

theorem flatMap_sublist {α β : Type} {f g : α → List β} : ∀ (es : List α), (∀ e ∈ es, (f e).Sublist (g e)) → (es.flatMap f).Sublist (es.flatMap g)
  | [], _ => by simp
  | e :: es, h => by
    rw [List.flatMap_cons, List.flatMap_cons]
    exact (h e (by simp)).append (flatMap_sublist es fun x hx => h x (by simp [hx]))

mutual
theorem objsNode_sub (up : List Str) (m : Meta) : (S : Schema) → (n : Inst) → ((objsNode up m S n).map Prod.fst).Sublist (pathsNode up m S n)
  | .leaf _, n => by cases n <;> simp [objsNode, pathsNode]
  | .leafList _, n => by cases n <;> simp [objsNode, pathsNode]
  | .cont _ kids, .cont _ _ ns => by
    rw [objsNode, pathsNode, List.map_cons]
    exact (objsKids_sub _ kids ns).cons_cons _
  | .list info kids, .list _ es => by
    rw [objsNode, pathsNode, List.map_flatMap]
    refine List.Sublist.cons _ (flatMap_sublist es fun e _ => ?_)
    rw [List.map_cons]
    exact (objsKids_sub _ kids e.2.kids).cons_cons _
  | .cont _ _, .leaf .. => by simp [objsNode]
  | .cont _ _, .leafList .. => by simp [objsNode]
  | .cont _ _, .list .. => by simp [objsNode]
  | .list _ _, .leaf .. => by simp [objsNode]
  | .list _ _, .leafList .. => by simp [objsNode]
  | .list _ _, .cont .. => by simp [objsNode]
theorem objsKids_sub (up : List Str) : (kids : List (Meta × Schema)) → (ns : List Inst) → ((objsKids up kids ns).map Prod.fst).Sublist (pathsKids up kids ns)
  | [], _ => by simp [objsKids]
  | _ :: _, [] => by simp [objsKids]
  | k :: ks, n :: ns => by
    rw [objsKids, pathsKids, List.map_append]
    exact (objsNode_sub up k.1 k.2 n).append (objsKids_sub up ks ns)
end

/-- C110: in a binding with a path helper, after any history with the conditions of C83, looking up what
`_path()` or `_yang_path()` of an object gives finds this object and no other: a leaf with its value, a
leaf-list, a container or a list entry.  (If it was put in the place of one it is `==` to, the other is
found, see C52.) -/
theorem C110_found_partial {K : PyVal → Prop} {eqv : XObj → XObj → Bool} (hK : ToldApart K) {kids : List (Meta × Schema)} (hok : Named kids)
    (ha : ∀ k ∈ kids, Addressable k.2) (hf : ApartRoot kids) {ops : List (Path × Op)} (hh : HistOk K kids (freshKids kids) ops)
    (x : List Str) (o : XObj) (hx : (x, o) ∈ objsKids [] kids (history kids (freshKids kids) ops)) (caller) :
    x ∈ pathsKids [] kids (history kids (freshKids kids) ops) ∧
    ∃ o', (helperAfter eqv kids ops).get x caller = .ok [o'] ∧ (helperAfter eqv kids ops).getStr (yangPath x) caller = .ok [o'] ∧ (o' = o ∨ eqv o' o = true) := by
  refine ⟨(objsKids_sub [] kids _).subset (List.mem_map_of_mem (f := Prod.fst) hx), ?_⟩
  obtain ⟨_, _, h⟩ := binding_follows hK hok ha hf hh
  obtain ⟨i, k, n, hk, hn, hx⟩ := objsKids_mem _ _ _ _ hx
  have hmem := List.mem_of_getElem? hk
  obtain ⟨s, r, e1, e2, e3, e4⟩ := objsNode_at (ha k hmem) [] k.1 (h.tree i k n hk hn) _ hx
  have hp : PathOk (s :: r) kids := (pathOk_cons _ _ _).2 ⟨k, hmem, e2.symm, e3⟩
  have hr : regAt (s :: r) kids (history kids (freshKids kids) ops) = some o := by
    rw [regAt_cons, e2, kidNamed_get hok.nodup hk hn]
    exact e4
  obtain ⟨o', g1, g2⟩ := (C83_lookup_partial (eqv := eqv) hK hok ha hf hh hp (by simp) caller).2 o hr
  have ex : x = (s :: r).map PStep.text := e1
  refine ⟨o', by rw [ex]; exact g1, ?_, g2⟩
  rw [ex, yangPath, join_slash, C51_string_partial (path_valid hok ha hp (by simp))]
  exact g1

set_option maxRecDepth 8000 in
/-- C110 is false for lists: under the path a list reports there are its entries. -/
theorem C110_list_refuted :
    [py!"c", py!"l"] ∈ pathsKids [] demoM (history demoM (freshKids demoM) [([.field 0, .field 4], .add (.str py!"e1"))]) ∧
    (helperAfter exEqv demoM [([.field 0, .field 4], .add (.str py!"e1"))]).get [py!"c", py!"l"] none = .ok [contObj] ∧
    (helperAfter exEqv demoM []).get [py!"c", py!"l"] none = .ok [] := by
  refine ⟨?_, ?_, ?_⟩ <;> decide

set_option maxRecDepth 8000 in
example : ToldApart demoKeys ∧ Named demoM ∧ (∀ k ∈ demoM, Addressable k.2) ∧ ApartRoot demoM ∧ HistOk demoKeys demoM (freshKids demoM) regOps ∧
    ([py!"c", py!"l[k='e2']", py!"z"], leafObj (.str py!"hello")) ∈ objsKids [] demoM (history demoM (freshKids demoM) regOps) :=
  ⟨demoKeys_apart, demoM_ok, demoM_addressable, demoM_flat.apart, regOps_ok, by decide⟩

end Pyb
