import Verif.Lemmas.Root
import Verif.Props.Shared

/-! # C101: the object at `/` has the top-level data -/

namespace Pyb
open Py Spec

section
variable {K : PyVal → Prop}

/-- C101: bindings are made with a path helper and used in turns: the object at `/` has for each
top-level leaf, leaf-list and container the object that is in its binding.  Missing: top-level
lists, of which more below. -/
theorem C101_attributes_partial (hK : ToldApart K) {mods : List (List (Meta × Schema))} (hok : Named mods.flatten)
    (ha : ∀ k ∈ mods.flatten, Addressable k.2) (hf : ∀ kids ∈ mods, ApartRoot kids) {evs : List SharedOp}
    (hh : ∀ (i : Nat) kids, mods[i]? = some kids → HistOk K kids (freshKids kids) (opsOf i evs))
    {i : Nat} {kids : List (Meta × Schema)} (hi : mods[i]? = some kids) {k : Meta × Schema} (hk : k ∈ kids) (hl : ∀ info ks, k.2 ≠ .list info ks) :
    ((rootAttrs mods evs).get? k.1.name).map (·.2) = regAt [⟨k.1.name, []⟩] kids (history kids (freshKids kids) (opsOf i evs)) := by
  obtain ⟨hap, hok'⟩ := namesApart_of hok
  have ha' : ∀ kids ∈ mods, ∀ k ∈ kids, Addressable k.2 := fun x hx k hk => ha k (List.mem_flatten.2 ⟨x, hx, hk⟩)
  obtain ⟨m1, m2⟩ := makes (K := K) mods (fun _ => none) hap hok' ha' fun x _ => by
    funext q
    cases q with
    | nil => rfl
    | cons s r => simp [only]
  obtain ⟨s1, s2, s3⟩ := shared_follows hK hap hok' ha' hf evs (mods.map freshKids) (after (fun _ => none) (makeAll mods)) (by simp) (by
    intro j kids' ns' hj hj'
    rw [List.getElem?_map, hj] at hj'
    cases hj'
    exact ⟨m2 _ (List.mem_of_getElem? hj), hh j kids' hj⟩)
  have hund := callsUnder_append (makeAll_under mods) s2
  have hkm : k ∈ mods.flatten := List.mem_flatten.2 ⟨kids, List.mem_of_getElem? hi, hk⟩
  have hgood : PStep.Good ⟨k.1.name, []⟩ := ⟨hok.ident k hkm, by simp, by simp, by simp⟩
  have hun : RegOp.unregister [⟨k.1.name, []⟩] ∉ makeAll mods ++ sharedCalls mods (mods.map freshKids) evs := by
    intro h
    rcases List.mem_append.1 h with h | h
    · exact makeAll_registers _ _ h
    · obtain ⟨k', hk', s, r, e, ht, hr⟩ := sharedCalls_unregisters _ _ h
      simp only [List.cons.injEq] at e
      obtain ⟨rfl, rfl⟩ := e
      have hkk : k = k' := by
        obtain ⟨a, ha1, ha2⟩ := List.getElem_of_mem hkm
        obtain ⟨b, hb1, hb2⟩ := List.getElem_of_mem hk'
        have : a = b := (List.getElem_inj (h₀ := by rw [List.length_map]; exact ha1) (h₁ := by rw [List.length_map]; exact hb1) hok.nodup).1 (by
          rw [List.getElem_map, List.getElem_map, ha2, hb2]
          exact ht)
        subst this
        rw [← ha2, ← hb2]
      subst hkk
      exact hr hl rfl
  have hfold := root_fold hgood (makeAll mods ++ sharedCalls mods (mods.map freshKids) evs) [] (fun _ => none) (fun c hc => by
    obtain ⟨s, r, e, hp⟩ := hund c hc
    exact ⟨s, r, e, (path_good _ _ hok ha hp s (by simp)).1⟩) hun rfl
  rw [text_plain] at hfold
  rw [rootAttrs, hfold, after_append, ← (s3 i kids _ hi (by rw [List.getElem?_map, hi]; rfl)).agree ⟨k.1.name, []⟩ []]
  simp only [List.nil_append, only]
  rw [if_pos (List.mem_map.2 ⟨k, hk, rfl⟩)]

/-- C101: without top-level lists the elements of the object at `/` are the top-level nodes of the
modules, in the order in which the bindings were made. -/
theorem C101_elements_partial (hK : ToldApart K) {mods : List (List (Meta × Schema))} (hok : Named mods.flatten)
    (ha : ∀ k ∈ mods.flatten, Addressable k.2) (hf : ∀ kids ∈ mods, ApartRoot kids) {evs : List SharedOp}
    (hh : ∀ (i : Nat) kids, mods[i]? = some kids → HistOk K kids (freshKids kids) (opsOf i evs)) (hl : ∀ k ∈ mods.flatten, ∀ info ks, k.2 ≠ .list info ks) :
    (rootAttrs mods evs).map (·.1) = mods.flatten.map (·.1.name) := by
  obtain ⟨hap, hok'⟩ := namesApart_of hok
  have ha' : ∀ kids ∈ mods, ∀ k ∈ kids, Addressable k.2 := fun x hx k hk => ha k (List.mem_flatten.2 ⟨x, hx, hk⟩)
  obtain ⟨m1, m2⟩ := makes (K := K) mods (fun _ => none) hap hok' ha' fun x _ => by
    funext q
    cases q with
    | nil => rfl
    | cons s r => simp [only]
  obtain ⟨s1, s2, s3⟩ := shared_follows hK hap hok' ha' hf evs (mods.map freshKids) (after (fun _ => none) (makeAll mods)) (by simp) (by
    intro j kids' ns' hj hj'
    rw [List.getElem?_map, hj] at hj'
    cases hj'
    exact ⟨m2 _ (List.mem_of_getElem? hj), hh j kids' hj⟩)
  rw [rootAttrs, List.foldl_append]
  refine root_keys hl _ _ s2 ?_
  rw [makeAll_eq, root_make _ _ hl (by simpa using hok.nodup)]
  simp

/-- C101: and its `get()` has the same objects, under the names of the nodes. -/
theorem C101_get_partial (hK : ToldApart K) {mods : List (List (Meta × Schema))} (hok : Named mods.flatten)
    (ha : ∀ k ∈ mods.flatten, Addressable k.2) (hf : ∀ kids ∈ mods, ApartRoot kids) {evs : List SharedOp}
    (hh : ∀ (i : Nat) kids, mods[i]? = some kids → HistOk K kids (freshKids kids) (opsOf i evs)) (hl : ∀ k ∈ mods.flatten, ∀ info ks, k.2 ≠ .list info ks) :
    (rootGet (rootAttrs mods evs)).map (·.1) = mods.flatten.map (·.1.name) ∧
    ∀ (i : Nat) kids, mods[i]? = some kids → ∀ k ∈ kids,
      (rootGet (rootAttrs mods evs)).get? k.1.name = regAt [⟨k.1.name, []⟩] kids (history kids (freshKids kids) (opsOf i evs)) := by
  have hkeys := C101_elements_partial hK hok ha hf hh hl
  obtain ⟨hap, hok'⟩ := namesApart_of hok
  have ha' : ∀ kids ∈ mods, ∀ k ∈ kids, Addressable k.2 := fun x hx k hk => ha k (List.mem_flatten.2 ⟨x, hx, hk⟩)
  obtain ⟨m1, m2⟩ := makes (K := K) mods (fun _ => none) hap hok' ha' fun x _ => by
    funext q
    cases q with
    | nil => rfl
    | cons s r => simp [only]
  obtain ⟨s1, s2, s3⟩ := shared_follows hK hap hok' ha' hf evs (mods.map freshKids) (after (fun _ => none) (makeAll mods)) (by simp) (by
    intro j kids' ns' hj hj'
    rw [List.getElem?_map, hj] at hj'
    cases hj'
    exact ⟨m2 _ (List.mem_of_getElem? hj), hh j kids' hj⟩)
  have hnames : ∀ x ∈ rootAttrs mods evs, x.2.1 = x.1 :=
    root_names hl _ _ (callsUnder_append (makeAll_under mods) s2) fun x hx => by cases hx
  have hget : rootGet (rootAttrs mods evs) = (rootAttrs mods evs).map fun x => (x.1, x.2.2) :=
    rootGet_eq hnames (by rw [hkeys]; exact hok.nodup)
  rw [hget]
  refine ⟨by rw [← hkeys, List.map_map]; rfl, fun i kids hi k hk => ?_⟩
  rw [get?_mapped, C101_attributes_partial hK hok ha hf hh hi hk (hl k (List.mem_flatten.2 ⟨kids, List.mem_of_getElem? hi, hk⟩))]

end

set_option maxRecDepth 8000 in
/-- Both modules of `turns` have no top-level lists. -/
example : (∀ k ∈ [demoM, otherM].flatten, ∀ info ks, k.2 ≠ .list info ks) ∧
    (rootAttrs [demoM, otherM] turns).map (·.1) = [py!"c", py!"w", py!"d"] := by
  constructor
  · intro k hk info ks
    rcases List.mem_append.1 (show k ∈ demoM ++ otherM by simpa using hk) with h | h
    · simp only [demoM, List.mem_cons, List.not_mem_nil, or_false] at h
      rcases h with rfl | rfl <;> simp
    · simp only [otherM, List.mem_cons, List.not_mem_nil, or_false] at h
      subst h
      simp
  · decide

def topLeafM : List (Meta × Schema) := [({ name := py!"s" }, .leaf strLeaf)]

/-- A top-level leaf: it has the value that was set last. -/
example : ((rootAttrs [topLeafM] [(0, [.field 0], .set (.str py!"1") false), (0, [.field 0], .set (.str py!"2") false)]).get? py!"s").map (·.2) =
    some (leafObj (.str py!"2")) := by decide

set_option maxRecDepth 8000 in
/-- C101 is refuted for top-level lists: an entry that was deleted still is an element of the
object at `/`. -/
theorem C101_deleted_refuted :
    regAt [entryE py!"e1"] anyM (history anyM (freshKids anyM) [([.field 0], .add (.str py!"e1")), ([.field 0], .delete (.str py!"e1"))]) = none ∧
    (sharedHelper exEqv [anyM] [(0, [.field 0], .add (.str py!"e1")), (0, [.field 0], .delete (.str py!"e1"))]).get ([entryE py!"e1"].map PStep.text) none =
      .ok [] ∧
    rootGet (rootAttrs [anyM] [(0, [.field 0], .add (.str py!"e1")), (0, [.field 0], .delete (.str py!"e1"))]) = [(py!"l", contObj)] := by
  refine ⟨?_, ?_, ?_⟩ <;> decide

set_option maxRecDepth 8000 in
/-- C101 is refuted for top-level lists: of two entries `get()` of the object at `/` has one, under
the name of the list. -/
theorem C101_entries_refuted :
    (rootAttrs [anyM] [(0, [.field 0], .add (.str py!"e1")), (0, [.field 0], .add (.str py!"e2"))]).length = 2 ∧
    rootGet (rootAttrs [anyM] [(0, [.field 0], .add (.str py!"e1")), (0, [.field 0], .add (.str py!"e2"))]) = [(py!"l", contObj)] ∧
    rootGet (rootAttrs [anyM] []) = [] := by
  refine ⟨?_, ?_, ?_⟩ <;> decide

end Pyb
