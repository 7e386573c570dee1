import Verif.Lemmas.Shared

/-! # C100: one path helper for several bindings and documents -/

namespace Pyb
open Py Spec

section
variable {K : PyVal → Prop} {eqv : XObj → XObj → Bool}

/-- C100: bindings of modules with different names share a path helper, and are used in turns, in
any order: a data path of a module finds what is in its binding, as if there were no other. -/
theorem C100_modules_partial (hK : ToldApart K) {mods : List (List (Meta × Schema))} (hok : Named mods.flatten)
    (ha : ∀ k ∈ mods.flatten, Addressable k.2) (hf : ∀ kids ∈ mods, ApartRoot kids) {evs : List SharedOp}
    (hh : ∀ (i : Nat) kids, mods[i]? = some kids → HistOk K kids (freshKids kids) (opsOf i evs))
    {i : Nat} {kids : List (Meta × Schema)} (hi : mods[i]? = some kids) {q : List PStep} (hq : PathOk q kids) (hne : q ≠ []) (caller) :
    (regAt q kids (history kids (freshKids kids) (opsOf i evs)) = none → (sharedHelper eqv mods evs).get (q.map PStep.text) caller = .ok []) ∧
    (∀ o, regAt q kids (history kids (freshKids kids) (opsOf i evs)) = some o →
      ∃ o', (sharedHelper eqv mods evs).get (q.map PStep.text) caller = .ok [o'] ∧ (o' = o ∨ eqv o' o = true)) := by
  obtain ⟨hap, hok'⟩ := namesApart_of hok
  have ha' : ∀ kids ∈ mods, ∀ k ∈ kids, Addressable k.2 := fun x hx k hk => ha k (List.mem_flatten.2 ⟨x, hx, hk⟩)
  obtain ⟨m1, m2⟩ := makes (K := K) mods (fun _ => none) hap hok' ha' fun x _ => by
    funext q
    cases q with
    | nil => rfl
    | cons s r => simp [only]
  obtain ⟨s1, s2, s3⟩ := shared_follows hK hap hok' ha' hf evs (mods.map freshKids) (after (fun _ => none) (makeAll mods)) (by simp) (by
    intro j kids' ns' hj hj'
    rw [List.getElem?_map, hj] at hj'
    cases hj'
    exact ⟨m2 _ (List.mem_of_getElem? hj), hh j kids' hj⟩)
  have hall : AllOk (fun _ => none) (makeAll mods ++ sharedCalls mods (mods.map freshKids) evs) := allOk_append.2 ⟨m1, s1⟩
  have hund := callsUnder_append (makeAll_under mods) s2
  have hreg : registryAfter (makeAll mods ++ sharedCalls mods (mods.map freshKids) evs) q = regAt q kids (history kids (freshKids kids) (opsOf i evs)) := by
    rw [registryAfter, after_registry hall, after_append]
    obtain ⟨s, r, rfl⟩ := List.exists_cons_of_ne_nil hne
    rw [← (s3 i kids _ hi (by rw [List.getElem?_map, hi]; rfl)).agree s r]
    obtain ⟨k, hk, hn, _⟩ := hq
    simp only [List.nil_append, only]
    rw [if_pos (List.mem_map.2 ⟨k, hk, hn⟩)]
  have hhelp : sharedHelper eqv mods evs = runOps eqv (makeAll mods ++ sharedCalls mods (mods.map freshKids) evs) := calls_doOp hok ha _ _ hund
  rw [hhelp, ← hreg]
  exact C51_lookup_partial (calls_valid hok ha hund)
    (path_valid hok ha (pathOk_mono (fun k hk => List.mem_flatten.2 ⟨kids, List.mem_of_getElem? hi, hk⟩) hq) hne) caller

/-- C100: several bindings of one module are made with the helper, each when the one before is done
with: what is in the last one is found. -/
theorem C100_last_partial (hK : ToldApart K) {kids : List (Meta × Schema)} (hok : Named kids) (ha : ∀ k ∈ kids, Addressable k.2) (hf : ApartRoot kids)
    {before : List (List (Path × Op))} {ops : List (Path × Op)} (hb : ∀ x ∈ before, HistOk K kids (freshKids kids) x)
    (hh : HistOk K kids (freshKids kids) ops) {q : List PStep} (hq : PathOk q kids) (hne : q ≠ []) (caller) {o : XObj}
    (ho : regAt q kids (history kids (freshKids kids) ops) = some o) :
    ∃ o', (seriesHelper eqv kids (before ++ [ops])).get (q.map PStep.text) caller = .ok [o'] ∧ (o' = o ∨ eqv o' o = true) := by
  obtain ⟨h1, h2⟩ := series_follows (K := K) hK hok ha hf (before ++ [ops]) (fun _ => none) (fun x hx => by
    rcases List.mem_append.1 hx with hx | hx
    · exact hb x hx
    · rw [List.mem_singleton.1 hx]; exact hh)
  obtain ⟨b1, b2, b3⟩ := binding_follows hK hok ha hf hh
  obtain ⟨_, g2⟩ := more_after _ (fun _ => none) (after (fun _ => none) (seriesCalls kids before)) (fun q o ho => by cases ho) b1
  have hreg : registryAfter (seriesCalls kids (before ++ [ops])) q = some o := by
    rw [registryAfter, after_registry h1, series_append, after_append]
    obtain ⟨s, r, rfl⟩ := List.exists_cons_of_ne_nil hne
    have e : seriesCalls kids [ops] = regKids [] kids ++ historyCalls kids (freshKids kids) ops := by simp [seriesCalls]
    rw [e]
    apply g2
    rw [← ho]
    exact b3.agree s r
  have hhelp : seriesHelper eqv kids (before ++ [ops]) = runOps eqv (seriesCalls kids (before ++ [ops])) := calls_doOp hok ha _ _ h2
  rw [hhelp]
  exact (C51_lookup_partial (calls_valid hok ha h2) (path_valid hok ha hq hne) caller).2 o hreg

end

/-- Another module, with a list of the same name inside of its container. -/
def otherL : List (Meta × Schema) := [({ name := py!"k" }, .leaf strLeaf)]
def otherM : List (Meta × Schema) := [({ name := py!"d" }, .cont false [({ name := py!"l" }, .list { keys := [0] } otherL)])]

def turns : List SharedOp :=
  [(0, [.field 0, .field 4], .add (.str py!"e1")), (1, [.field 0, .field 0], .add (.str py!"e1")), (0, [.field 0, .field 4], .add (.str py!"e2")),
   (0, [.field 0, .field 4], .delete (.str py!"e1"))]

theorem otherM_addressable : ∀ k ∈ otherM, Addressable k.2 := by
  intro k hk
  simp only [otherM, List.mem_cons, List.not_mem_nil, or_false] at hk
  subst hk
  refine .cont _ _ ⟨by decide, ?_, ?_⟩ ?_
  · intro k hk
    simp only [List.mem_cons, List.not_mem_nil, or_false] at hk
    subst hk
    exact ident_of (by decide) (by decide)
  · intro k hk h
    simp only [List.mem_cons, List.not_mem_nil, or_false] at hk
    subst hk
    exact absurd rfl h
  · intro k hk
    simp only [List.mem_cons, List.not_mem_nil, or_false] at hk
    subst hk
    refine .list _ _ ⟨by decide, ?_, ?_⟩ ?_ (by simp) (by simp) ?_
    · intro k hk
      simp only [otherL, List.mem_cons, List.not_mem_nil, or_false] at hk
      subst hk
      exact ident_of (by decide) (by decide)
    · intro k hk h
      simp only [otherL, List.mem_cons, List.not_mem_nil, or_false] at hk
      subst hk
      exact absurd rfl h
    · intro k hk
      simp only [otherL, List.mem_cons, List.not_mem_nil, or_false] at hk
      subst hk
      exact .leaf _
    · intro j hj
      simp at hj
      subst hj
      exact ⟨_, _, rfl, by decide, by decide⟩

theorem twoM_named : Named [demoM, otherM].flatten := by
  refine ⟨by decide, fun k hk => ?_, fun k hk h => ?_⟩
  · simp only [demoM, otherM, List.flatten_cons, List.flatten_nil, List.append_nil, List.cons_append, List.nil_append, List.mem_cons, List.not_mem_nil,
      or_false] at hk
    rcases hk with rfl | rfl | rfl <;> exact ident_of (by decide) (by decide)
  · simp only [demoM, otherM, List.flatten_cons, List.flatten_nil, List.append_nil, List.cons_append, List.nil_append, List.mem_cons, List.not_mem_nil,
      or_false] at hk
    rcases hk with rfl | rfl | rfl <;> exact absurd rfl h

theorem turns_ok : ∀ (i : Nat) kids, [demoM, otherM][i]? = some kids → HistOk demoKeys kids (freshKids kids) (opsOf i turns) := by
  have h1 := fun v hv => demoKeys_text v (List.mem_append_left _ hv)
  have h2 := fun v hv => demoKeys_text v (List.mem_append_right _ hv)
  intro i kids hi
  match i, hi with
  | 0, hi =>
    cases hi
    exact ⟨opOk_of (S0 := .list { keys := [0] } demoL) rfl ⟨.inl rfl, h1⟩, .inl rfl, opOk_of (S0 := .list { keys := [0] } demoL) rfl ⟨.inr rfl, h2⟩, .inl rfl,
      opOk_of (S0 := .list { keys := [0] } demoL) rfl (.inl rfl), .inl rfl, trivial⟩
  | 1, hi =>
    cases hi
    exact ⟨opOk_of (S0 := .list { keys := [0] } otherL) rfl ⟨.inl rfl, h1⟩, .inl rfl, trivial⟩
  | i + 2, hi => cases hi

set_option maxRecDepth 8000 in
/-- Two modules in turns: an entry is deleted in one and is still found in the other. -/
example : ToldApart demoKeys ∧ Named [demoM, otherM].flatten ∧ (∀ k ∈ [demoM, otherM].flatten, Addressable k.2) ∧
    (∀ kids ∈ [demoM, otherM], ApartRoot kids) ∧
    (∀ (i : Nat) kids, [demoM, otherM][i]? = some kids → HistOk demoKeys kids (freshKids kids) (opsOf i turns)) ∧
    regAt (inC (entryE py!"e1") []) demoM (history demoM (freshKids demoM) (opsOf 0 turns)) = none ∧
    regAt (inC (entryE py!"e2") []) demoM (history demoM (freshKids demoM) (opsOf 0 turns)) = some contObj ∧
    regAt [⟨py!"d", []⟩, entryE py!"e1"] otherM (history otherM (freshKids otherM) (opsOf 1 turns)) = some contObj := by
  refine ⟨demoKeys_apart, twoM_named, ?_, ?_, turns_ok, by decide, by decide, by decide⟩
  · intro k hk
    rcases List.mem_append.1 (show k ∈ demoM ++ otherM by simpa using hk) with h | h
    · exact demoM_addressable k h
    · exact otherM_addressable k h
  · intro kids hk
    simp only [List.mem_cons, List.not_mem_nil, or_false] at hk
    rcases hk with rfl | rfl
    · exact demoM_flat.apart
    · intro k hk
      simp only [otherM, List.mem_cons, List.not_mem_nil, or_false] at hk
      subst hk
      simp [Choices, ChoicesKids, otherL]

/-! ## Documents -/

example : ToldApart demoKeys ∧ Named demoM ∧ (∀ k ∈ demoM, Addressable k.2) ∧ ApartRoot demoM ∧
    (∀ x ∈ [regOps, regOps], HistOk demoKeys demoM (freshKids demoM) x) :=
  ⟨demoKeys_apart, demoM_ok, demoM_addressable, demoM_flat.apart, fun x hx => by
    have : x = regOps := by simpa using hx
    rw [this]
    exact regOps_ok⟩

/-- C100 is refuted for documents that are loaded with a helper, and no object: whatever the helper
has, they go into a new binding.  (It is asked for the path `[]`, and answers nothing.) -/
theorem C100_update_refuted (h : Helper) : loadTarget h = .ok .new := rfl

def firstDoc : List (Path × Op) := [([.field 0, .field 0], .set (.str py!"1") false), ([.field 0, .field 4], .add (.str py!"e1"))]
def secondDoc : List (Path × Op) := [([.field 0, .field 2], .set (.str py!"2") false)]

set_option maxRecDepth 8000 in
/-- C100 is refuted: after a second document was loaded with the helper, the leaf that the first one
set is found with no value, and the entry that it added is found, although the new binding has none. -/
theorem C100_documents_refuted :
    (seriesHelper exEqv demoM [firstDoc]).get ((inC ⟨py!"a", []⟩ []).map PStep.text) none = .ok [leafObj (.str py!"1")] ∧
    loadTarget (seriesHelper exEqv demoM [firstDoc]) = .ok .new ∧
    (seriesHelper exEqv demoM [firstDoc, secondDoc]).get ((inC ⟨py!"a", []⟩ []).map PStep.text) none = .ok [leafObj (.str [])] ∧
    regAt (inC (entryE py!"e1") []) demoM (history demoM (freshKids demoM) secondDoc) = none ∧
    (seriesHelper exEqv demoM [firstDoc, secondDoc]).get ((inC (entryE py!"e1") []).map PStep.text) none = .ok [contObj] := by
  refine ⟨?_, rfl, ?_, ?_, ?_⟩ <;> decide

end Pyb
