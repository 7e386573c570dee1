import Verif.Lemmas.RegRoot
import Verif.Props.Tree

/-! # C83: a path helper finds what is in the tree -/

namespace Pyb
open Py Spec

/-! ## C83 -/

section
variable {K : PyVal → Prop} {eqv : XObj → XObj → Bool} {kids : List (Meta × Schema)} {ops : List (Path × Op)}

theorem calls_doOp (hok : Named kids) (ha : ∀ k ∈ kids, Addressable k.2) : ∀ (cs : List RegOp) (h : Helper), CallsUnder [] kids cs →
    cs.foldl (fun h c => (doCall eqv h c).1) h = cs.foldl (fun h c => (doOp eqv h c).1) h := by
  intro cs
  induction cs with
  | nil => intros; rfl
  | cons c cs ih =>
    intro h hc
    obtain ⟨s, r, e, hp⟩ := hc c (by simp)
    have e' : c.path = s :: r := e
    rw [List.foldl_cons, List.foldl_cons, doCall_eq eqv h (by rw [e']; simp) (by rw [e']; exact path_good _ kids hok ha hp),
      ih _ fun c hc' => hc c (by simp [hc'])]

theorem calls_valid (hok : Named kids) (ha : ∀ k ∈ kids, Addressable k.2) {cs : List RegOp} (hc : CallsUnder [] kids cs) :
    ∀ c ∈ cs, ValidPath (fun q => keysOf q kids) c.path := by
  intro c h
  obtain ⟨s, r, e, hp⟩ := hc c h
  have e' : c.path = s :: r := e
  rw [e']
  exact path_valid hok ha hp (by simp)

/-- C83: a binding made with a new path helper, after any history of setting and unsetting leaves
and leaf-lists, adding and deleting entries and changing what is in them: looking up a data
path gives what the tree has there, and nothing if it has nothing there.  (An object that was put in
the place of one it is `==` to is not found, but the other one, see C52.) -/
theorem C83_lookup_partial (hK : ToldApart K) (hok : Named kids) (ha : ∀ k ∈ kids, Addressable k.2) (hf : ApartRoot kids)
    (hh : HistOk K kids (freshKids kids) ops) {q : List PStep} (hq : PathOk q kids) (hne : q ≠ []) (caller) :
    (regAt q kids (history kids (freshKids kids) ops) = none → (helperAfter eqv kids ops).get (q.map PStep.text) caller = .ok []) ∧
    (∀ o, regAt q kids (history kids (freshKids kids) ops) = some o →
      ∃ o', (helperAfter eqv kids ops).get (q.map PStep.text) caller = .ok [o'] ∧ (o' = o ∨ eqv o' o = true)) := by
  obtain ⟨h1, h2, h3⟩ := binding_follows hK hok ha hf hh
  have hreg : registryAfter (regKids [] kids ++ historyCalls kids (freshKids kids) ops) q = regAt q kids (history kids (freshKids kids) ops) := by
    rw [registryAfter, after_registry h1]
    obtain ⟨s, r, rfl⟩ := List.exists_cons_of_ne_nil hne
    exact h3.agree s r
  have hhelp : helperAfter eqv kids ops = runOps eqv (regKids [] kids ++ historyCalls kids (freshKids kids) ops) := calls_doOp hok ha _ _ h2
  rw [hhelp, ← hreg]
  exact C51_lookup_partial (calls_valid hok ha h2) (path_valid hok ha hq hne) caller

/-- C83: and none of the calls of the helper raises. -/
theorem C83_calls_partial (hK : ToldApart K) (hok : Named kids) (ha : ∀ k ∈ kids, Addressable k.2) (hf : ApartRoot kids)
    (hh : HistOk K kids (freshKids kids) ops) {before after : List RegOp} {c : RegOp}
    (he : regKids [] kids ++ historyCalls kids (freshKids kids) ops = before ++ c :: after) :
    (doCall eqv (before.foldl (fun h c => (doCall eqv h c).1) Helper.new) c).2 = .ok () := by
  obtain ⟨h1, h2, _⟩ := binding_follows hK hok ha hf hh
  rw [he] at h1 h2
  have hb : CallsUnder [] kids before := fun c h => h2 c (by simp [h])
  obtain ⟨s, r, e, hp⟩ := h2 c (by simp)
  have e' : c.path = s :: r := e
  rw [calls_doOp hok ha _ _ hb, doCall_eq eqv _ (by rw [e']; simp) (by rw [e']; exact path_good _ kids hok ha hp)]
  have := C51_succeeds_partial (eqv := eqv) (calls_valid hok ha hb) (calls_valid hok ha h2 c (by simp))
  have hal : OpAllowed (registryAfter before) c := by
    rw [allOk_append] at h1
    rw [registryAfter, after_registry h1.1]
    exact h1.2.1
  simpa [runOps, hal] using this

end

/-! ## A history that is followed -/

theorem opOk_of {K : PyVal → Prop} {kids : List (Meta × Schema)} {p : Path} {op : Op} {S0 : Schema} (h0 : clsAt kids p = some S0) (h : OpOk K S0 op) :
    ∀ S, clsAt kids p = some S → OpOk K S op := by
  intro S hS
  rw [h0] at hS
  cases hS
  exact h

def demoKeys (k : PyVal) : Prop := k = .str py!"e1" ∨ k = .str py!"e2"

theorem demoKeys_apart : ToldApart demoKeys := by
  rintro a b (rfl | rfl) (rfl | rfl) h
  · rfl
  · exact absurd h (by decide)
  · exact absurd h (by decide)
  · rfl

theorem demoKeys_text : ∀ v ∈ entryTexts 1 (.str py!"e1") ++ entryTexts 1 (.str py!"e2"), KeyText v := by
  intro v hv
  have : v = py!"e1" ∨ v = py!"e2" := by simpa [entryTexts, PyVal.toStr] using hv
  rcases this with rfl | rfl
  · exact ⟨goodValue_of (by decide) (by decide), by decide⟩
  · exact ⟨goodValue_of (by decide) (by decide), by decide⟩

theorem demoL_ok : Named demoL := by
  refine ⟨by decide, fun k hk => ?_, fun k hk h => ?_⟩
  · simp only [demoL, List.mem_cons, List.not_mem_nil, or_false] at hk
    rcases hk with rfl | rfl <;> exact ident_of (by decide) (by decide)
  · simp only [demoL, List.mem_cons, List.not_mem_nil, or_false] at hk
    rcases hk with rfl | rfl <;> exact absurd rfl h

theorem demoC_ok : Named demoC := by
  refine ⟨by decide, fun k hk => ?_, fun k hk h => ?_⟩
  · simp only [demoC, List.mem_cons, List.not_mem_nil, or_false] at hk
    rcases hk with rfl | rfl | rfl | rfl | rfl | rfl <;> exact ident_of (by decide) (by decide)
  · simp only [demoC, List.mem_cons, List.not_mem_nil, or_false] at hk
    rcases hk with rfl | rfl | rfl | rfl | rfl | rfl
    · exact .leaf _
    · exact .leaf _
    all_goals exact absurd rfl h

theorem demoM_ok : Named demoM := by
  refine ⟨by decide, fun k hk => ?_, fun k hk h => ?_⟩
  · simp only [demoM, List.mem_cons, List.not_mem_nil, or_false] at hk
    rcases hk with rfl | rfl <;> exact ident_of (by decide) (by decide)
  · simp only [demoM, List.mem_cons, List.not_mem_nil, or_false] at hk
    rcases hk with rfl | rfl <;> exact absurd rfl h

theorem demoL_addressable : Addressable (.list { keys := [0] } demoL) := by
  refine .list _ _ demoL_ok (fun k hk => ?_) (by simp) (by simp) fun j hj => ?_
  · simp only [demoL, List.mem_cons, List.not_mem_nil, or_false] at hk
    rcases hk with rfl | rfl <;> exact .leaf _
  · simp at hj
    subst hj
    exact ⟨_, _, rfl, by decide, by decide⟩

theorem demoM_addressable : ∀ k ∈ demoM, Addressable k.2 := by
  intro k hk
  simp only [demoM, List.mem_cons, List.not_mem_nil, or_false] at hk
  rcases hk with rfl | rfl
  · refine .cont _ _ demoC_ok fun k hk => ?_
    simp only [demoC, List.mem_cons, List.not_mem_nil, or_false] at hk
    rcases hk with rfl | rfl | rfl | rfl | rfl | rfl
    · exact .leaf _
    · exact .leaf _
    · exact .leaf _
    · refine .cont _ _ ⟨by decide, ?_, ?_⟩ ?_
      · intro k hk
        simp at hk
        subst hk
        exact ident_of (by decide) (by decide)
      · intro k hk h
        simp at hk
        subst hk
        exact absurd rfl h
      · intro k hk
        simp at hk
        subst hk
        exact .leaf _
    · exact demoL_addressable
    · exact .leafList _
  · exact .leafList _

/-- Leaves in both cases of the choice, two entries, a leaf in the second, the first deleted, and
a leaf-list. -/
def regOps : List (Path × Op) :=
  [([.field 0, .field 0], .set (.str py!"1") false), ([.field 0, .field 4], .add (.str py!"e1")),
   ([.field 0, .field 4], .addNamed [some (.str py!"e2")]), ([.field 0, .field 4, .key (.str py!"e2"), .field 1], .set (.str py!"hello") false),
   ([.field 0, .field 4], .delete (.str py!"e1")), ([.field 0, .field 1], .set (.str py!"2") false),
   ([.field 0, .field 5], .ll (.append (.str py!"x"))), ([.field 0, .field 3], .unset)]

theorem regOps_ok : HistOk demoKeys demoM (freshKids demoM) regOps := by
  refine ⟨opOk_of rfl trivial, .inl rfl, opOk_of (S0 := .list { keys := [0] } demoL) rfl ⟨.inl rfl, fun v hv => demoKeys_text v (List.mem_append_left _ hv)⟩, .inl rfl,
    opOk_of (S0 := .list { keys := [0] } demoL) rfl ?_, .inl rfl, opOk_of (S0 := .leaf strLeaf) rfl trivial, .inl rfl,
    opOk_of (S0 := .list { keys := [0] } demoL) rfl (.inl rfl), .inl rfl, opOk_of (S0 := .leaf strLeaf) rfl trivial, .inl rfl,
    opOk_of (S0 := .leafList strLL) rfl trivial, .inl rfl, opOk_of rfl (.cont _ _ fun k hk => ?_), .inl rfl, trivial⟩
  · intro rs hrs
    cases hrs
    refine ⟨.inr rfl, fun r hr => ?_⟩
    simp at hr
    subst hr
    exact demoKeys_text _ (by simp [entryTexts, PyVal.toStr])
  · simp at hk
    subst hk
    exact .leaf _

def inC (s : PStep) (r : List PStep) : List PStep := ⟨py!"c", []⟩ :: s :: r
def entryE (n : Str) : PStep := ⟨py!"l", [(py!"k", n)]⟩

set_option maxRecDepth 4000 in
example : ToldApart demoKeys ∧ Named demoM ∧ (∀ k ∈ demoM, Addressable k.2) ∧ ApartRoot demoM ∧ HistOk demoKeys demoM (freshKids demoM) regOps ∧
    regAt (inC (entryE py!"e2") [⟨py!"z", []⟩]) demoM (history demoM (freshKids demoM) regOps) = some (leafObj (.str py!"hello")) ∧
    regAt (inC (entryE py!"e1") []) demoM (history demoM (freshKids demoM) regOps) = none ∧
    regAt (inC ⟨py!"a", []⟩ []) demoM (history demoM (freshKids demoM) regOps) = some (leafObj (.str [])) ∧
    regAt (inC ⟨py!"b", []⟩ []) demoM (history demoM (freshKids demoM) regOps) = some (leafObj (.str py!"2")) ∧
    PathOk (inC (entryE py!"e2") [⟨py!"z", []⟩]) demoM := by
  refine ⟨demoKeys_apart, demoM_ok, demoM_addressable, demoM_flat.apart, regOps_ok, by decide, by decide, by decide, by decide, ?_⟩
  refine ⟨_, List.mem_cons_self, rfl, rfl, ({ name := py!"l" }, .list { keys := [0] } demoL), by simp [demoC], rfl, rfl, ?_,
    ({ name := py!"z" }, .leaf strLeaf), by simp [demoL], rfl, rfl, rfl⟩
  intro x hx
  simp [entryE] at hx
  subst hx
  exact demoKeys_text _ (by simp [entryTexts, PyVal.toStr])

set_option maxRecDepth 4000 in
/-- A history with an operation that raises, early enough: the key is there already. -/
example : HistOk demoKeys demoM (freshKids demoM) [([.field 0, .field 4], .add (.str py!"e1")), ([.field 0, .field 4], .add (.str py!"e1"))] ∧
    (runRoot demoM (history demoM (freshKids demoM) [([.field 0, .field 4], .add (.str py!"e1"))]) [.field 0, .field 4] (.add (.str py!"e1"))).2 =
      some .keyError := by
  have hop := fun v hv => demoKeys_text v (List.mem_append_left _ hv)
  refine ⟨⟨opOk_of (S0 := .list { keys := [0] } demoL) rfl ⟨.inl rfl, hop⟩, .inl rfl,
    opOk_of (S0 := .list { keys := [0] } demoL) rfl ⟨.inl rfl, hop⟩, .inr fun S n h1 h2 h => ?_, trivial⟩, by decide⟩
  cases h1
  cases h2
  exact h.2.2.1 ⟨_, List.mem_cons_self, by decide⟩

/-! ## Histories that are not -/

set_option maxRecDepth 8000 in
/-- C83 is refuted when a container with list entries below it is unset: the entries are gone,
but are still found. -/
theorem C83_unset_refuted :
    regAt (inC (entryE py!"e1") []) demoM (history demoM (freshKids demoM) [([.field 0, .field 4], .add (.str py!"e1")), ([.field 0], .unset)]) = none ∧
    (helperAfter exEqv demoM [([.field 0, .field 4], .add (.str py!"e1")), ([.field 0], .unset)]).get ((inC (entryE py!"e1") []).map PStep.text) none =
      .ok [contObj] := by
  constructor <;> decide

set_option maxRecDepth 8000 in
/-- C83 is refuted when the key of a new entry is refused: there is no such entry, but it is found. -/
theorem C83_refused_key_refuted :
    (runRoot demoM (freshKids demoM) [.field 0, .field 4] (.add (.int 5))).2 = some .keyError ∧
    regAt (inC (entryE py!"5") []) demoM (history demoM (freshKids demoM) [([.field 0, .field 4], .add (.int 5))]) = none ∧
    (helperAfter exEqv demoM [([.field 0, .field 4], .add (.int 5))]).get ((inC (entryE py!"5") []).map PStep.text) none = .ok [contObj] := by
  refine ⟨?_, ?_, ?_⟩ <;> decide

def lateRegM : List (Meta × Schema) := [({ name := py!"s" }, .leaf lateLeaf)]

/-- C83 is refuted when a leaf's type refuses a value only after the new leaf was registered: the
tree keeps the old leaf, but the other one is found. -/
theorem C83_refused_value_refuted :
    regAt [⟨py!"s", []⟩] lateRegM (history lateRegM (freshKids lateRegM) [([.field 0], .set (.str py!"v") false), ([.field 0], .set (.str []) false)]) =
      some (leafObj (.str py!"v")) ∧
    (helperAfter exEqv lateRegM [([.field 0], .set (.str py!"v") false), ([.field 0], .set (.str []) false)]).get [py!"s"] none = .ok [lostObj] := by
  constructor <;> decide

/-- A leaf that takes anything. -/
def anyLeaf : LeafCls where
  zero := .str []
  set := .ok

def anyM : List (Meta × Schema) := [({ name := py!"l" }, .list { keys := [0] } [({ name := py!"k" }, .leaf anyLeaf)])]

set_option maxRecDepth 8000 in
/-- C83 is refuted when two keys have the same text: `add(1)` and `add("1")` make two entries with
one path, and when the first is deleted the other is not found any more. -/
theorem C83_same_text_refuted :
    regAt [entryE py!"1"] anyM (history anyM (freshKids anyM) [([.field 0], .add (.int 1)), ([.field 0], .add (.str py!"1")), ([.field 0], .delete (.int 1))]) =
      some contObj ∧
    (helperAfter exEqv anyM [([.field 0], .add (.int 1)), ([.field 0], .add (.str py!"1")), ([.field 0], .delete (.int 1))]).get
      ([entryE py!"1"].map PStep.text) none = .ok [] := by
  constructor <;> decide

/-- What is found at a path tells containers, leaves, leaf-lists and objects that could not be made
apart, and shows the values of leaves. -/
theorem C83_kinds (v w : PyVal) : contObj ≠ llObj ∧ contObj ≠ leafObj v ∧ llObj ≠ leafObj v ∧ lostObj ∉ [contObj, llObj, leafObj v] ∧
    (leafObj v = leafObj w ↔ v.toStr = w.toStr) := by
  simp [contObj, llObj, leafObj, lostObj]

end Pyb
