import Verif.Props.ObjPath
import Verif.Lemmas.Ietf

/-! # C108 after histories -/

namespace Pyb
open Py Spec

theorem ident_bracket {s : Str} (h : Identifier s) : '[' ∉ s := by
  intro hm
  rcases h.1 _ hm with h | h
  · rcases h with h | h | h
    · exact absurd h (by decide)
    · exact absurd h (by decide)
    · exact absurd h (by decide)
  · exact absurd h (by decide)

theorem named_pathNames {kids : List (Meta × Schema)} (h : Named kids) : PathNames kids := ⟨fun k hk => ident_bracket (h.ident k hk), h.nodup⟩

/-- What C83 keeps of a tree is enough. -/
theorem regTree_ready {K : PyVal → Prop} {S : Schema} (ha : Addressable S) : ∀ (m : Meta) {n : Inst}, RegTree K S n → Every PathReady m S n := by
  induction S using Schema.ind with
  | hleaf L => intro m n h; cases h; simp [Every, PathReady]
  | hll L => intro m n h; cases h; simp [Every, PathReady]
  | hcont pres kids ih =>
    intro m n h
    cases ha with
    | cont _ _ hok ha =>
    cases h with
    | cont _ _ ch pr ns hl h =>
    rw [Every]
    refine ⟨named_pathNames hok, everyKids_iff.2 ⟨hl, fun i k n hk hn => ?_⟩⟩
    have hm := List.mem_of_getElem? hk
    exact ih k hm (ha k hm) k.1 (h i k n hk hn)
  | hlist info kids ih =>
    intro m n h
    cases ha with
    | list _ _ hok ha hne hnd hkeys =>
    cases h with
    | list _ _ ch es h1 h2 h3 =>
    rw [Every]
    refine ⟨⟨named_pathNames hok, hne, fun e he => (h1 e he).2.1, ?_⟩, fun q hq => ?_⟩
    · refine List.pairwise_map.2 (h2.imp ?_)
      intro a b hab e
      exact hab (by rw [entryKeys, entryKeys, e])
    · have hq := h3 q hq
      obtain ⟨k, c⟩ := q
      cases hq with
      | cont _ _ ch pr ns hl h =>
      refine everyKids_iff.2 ⟨hl, fun i k n hk hn => ?_⟩
      have hm := List.mem_of_getElem? hk
      exact ih k hm (ha k hm) k.1 (h i k n hk hn)

/-- A path with one more name. -/
theorem good_name {name : Str} (h : Identifier name) : (⟨name, []⟩ : PStep).Good := ⟨h, by simp, by simp, by simp⟩

theorem name_text (name : Str) : (⟨name, []⟩ : PStep).text = name := if_pos rfl

/-- The step of an entry is one that the helper takes. -/
theorem entryStep_good {name : Str} (hn : Identifier name) {info : ListInfo} {kids : List (Meta × Schema)} (ha : Addressable (.list info kids)) {k : PyVal}
    (hk : ∀ v ∈ entryTexts info.keys.length k, KeyText v) (hl : (entryTexts info.keys.length k).length = info.keys.length) :
    (entryStep name info kids k).Good := by
  obtain ⟨n1, n2⟩ := entryKeyNames_good ha
  have hz : (entryStep name info kids k).keys.map (·.1) = entryKeyNames info kids := by
    rw [entryStep]
    exact List.map_fst_zip (by rw [hl, entryKeyNames, List.length_map]; exact Nat.le_refl _)
  refine ⟨hn, fun y hy => ?_, by rw [hz]; exact n1, fun y hy => ?_⟩
  · apply n2
    rw [← hz]
    exact List.mem_map_of_mem hy
  · exact (hk _ (List.of_mem_zip (a := y.1) (b := y.2) hy).2).1

theorem pathsKids_mem (up : List Str) : ∀ (kids : List (Meta × Schema)) (ns : List Inst) (x : List Str), x ∈ pathsKids up kids ns →
    ∃ (i : Nat) (k : Meta × Schema) (n : Inst), kids[i]? = some k ∧ ns[i]? = some n ∧ x ∈ pathsNode up k.1 k.2 n
  | [], _, x, h => by simp [pathsKids] at h
  | _ :: _, [], x, h => by simp [pathsKids] at h
  | k :: ks, n :: ns, x, h => by
    rw [pathsKids] at h
    rcases List.mem_append.1 h with h | h
    · exact ⟨0, k, n, rfl, rfl, h⟩
    · obtain ⟨i, k', n', h1, h2, h3⟩ := pathsKids_mem up ks ns x h
      exact ⟨i + 1, k', n', by simpa using h1, by simpa using h2, h3⟩

theorem regTree_steps {K : PyVal → Prop} {S : Schema} (ha : Addressable S) : ∀ (up : List PStep) (_ : ∀ s ∈ up, s.Good) (m : Meta) (_ : Identifier m.name) {n : Inst},
    RegTree K S n → ∀ x ∈ pathsNode (up.map PStep.text) m S n, ∃ p : List PStep, (∀ s ∈ p, s.Good) ∧ x = p.map PStep.text := by
  have own : ∀ (up : List PStep) (_ : ∀ s ∈ up, s.Good) (s : PStep), s.Good → ∀ t ∈ up ++ [s], t.Good := by
    intro up hup s hs t ht
    rcases List.mem_append.1 ht with h | h
    · exact hup t h
    · rw [List.mem_singleton.1 h]; exact hs
  have txt : ∀ (up : List PStep) (name : Str), up.map PStep.text ++ [name] = (up ++ [(⟨name, []⟩ : PStep)]).map PStep.text := by
    intro up name; simp [name_text]
  induction S using Schema.ind with
  | hleaf L =>
    intro up hup m hm n h x hx
    cases h
    rw [pathsNode] at hx
    · rw [List.mem_singleton.1 hx, txt]
      exact ⟨_, own up hup _ (good_name hm), rfl⟩
    all_goals simp
  | hll L =>
    intro up hup m hm n h x hx
    cases h
    rw [pathsNode] at hx
    · rw [List.mem_singleton.1 hx, txt]
      exact ⟨_, own up hup _ (good_name hm), rfl⟩
    all_goals simp
  | hcont pres kids ih =>
    intro up hup m hm n h x hx
    cases ha with
    | cont _ _ hok ha =>
    cases h with
    | cont _ _ ch pr ns hl h =>
    rw [pathsNode, txt] at hx
    rcases List.mem_cons.1 hx with rfl | hx
    · exact ⟨_, own up hup _ (good_name hm), rfl⟩
    · obtain ⟨i, k, n, hk, hn, hx⟩ := pathsKids_mem _ _ _ _ hx
      have hmem := List.mem_of_getElem? hk
      exact ih k hmem (ha k hmem) _ (own up hup _ (good_name hm)) k.1 (hok.ident k hmem) (h i k n hk hn) x hx
  | hlist info kids ih =>
    intro up hup m hm n h x hx
    have hall := ha
    cases ha with
    | list _ _ hok ha hne hnd hkeys =>
    cases h with
    | list _ _ ch es h1 h2 h3 =>
    rw [pathsNode] at hx
    rcases List.mem_cons.1 hx with rfl | hx
    · rw [txt]
      exact ⟨_, own up hup _ (good_name hm), rfl⟩
    · obtain ⟨e, he, hx⟩ := List.mem_flatMap.1 hx
      have hg := own up hup _ (entryStep_good hm hall (h1 e he).2.2 (h1 e he).2.1)
      have ht : up.map PStep.text ++ [(entryStep m.name info kids e.1).text] = (up ++ [entryStep m.name info kids e.1]).map PStep.text := by simp
      rw [ht] at hx
      rcases List.mem_cons.1 hx with rfl | hx
      · exact ⟨_, hg, rfl⟩
      · have hq := h3 e he
        obtain ⟨key, c⟩ := e
        cases hq with
        | cont _ _ ch pr ns hl h =>
        obtain ⟨i, k, n, hk, hn, hx⟩ := pathsKids_mem _ _ _ _ hx
        have hmem := List.mem_of_getElem? hk
        exact ih k hmem (ha k hmem) _ hg k.1 (hok.ident k hmem) (h i k n hk hn) x hx

/-- C108, for bindings in use: after any history of setting and unsetting leaves and leaf-lists, adding
and deleting entries and changing what is in them, with the conditions of C83 on modules, keys and
histories, no two objects report the same `_path()`, nor the same `_yang_path()`. -/
theorem C108_history_partial {K : PyVal → Prop} (hK : ToldApart K) {kids : List (Meta × Schema)} (hok : Named kids) (ha : ∀ k ∈ kids, Addressable k.2)
    (hf : ApartRoot kids) {ops : List (Path × Op)} (hh : HistOk K kids (freshKids kids) ops) :
    (pathsKids [] kids (history kids (freshKids kids) ops)).Nodup ∧
    ((pathsKids [] kids (history kids (freshKids kids) ops)).map yangPath).Nodup := by
  obtain ⟨_, _, h⟩ := binding_follows hK hok ha hf hh
  have hr : EveryKids PathReady kids (history kids (freshKids kids) ops) := by
    refine everyKids_iff.2 ⟨h.len, fun i k n hk hn => ?_⟩
    exact regTree_ready (ha k (List.mem_of_getElem? hk)) k.1 (h.tree i k n hk hn)
  refine ⟨C108_distinct_partial kids (named_pathNames hok) _ hr, C108_yang_path_partial kids (named_pathNames hok) _ hr fun x hx => ?_⟩
  obtain ⟨i, k, n, hk, hn, hx⟩ := pathsKids_mem _ _ _ _ hx
  have hmem := List.mem_of_getElem? hk
  exact regTree_steps (ha k hmem) [] (by simp) k.1 (hok.ident k hmem) (h.tree i k n hk hn) x hx

set_option maxRecDepth 8000 in
/-- The module and history of C83. -/
example : ToldApart demoKeys ∧ Named demoM ∧ ApartRoot demoM ∧ HistOk demoKeys demoM (freshKids demoM) regOps ∧
    [py!"c", py!"l[k='e2']", py!"z"] ∈ pathsKids [] demoM (history demoM (freshKids demoM) regOps) :=
  ⟨demoKeys_apart, demoM_ok, demoM_flat.apart, regOps_ok, by decide⟩

end Pyb
