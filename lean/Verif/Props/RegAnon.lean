import Verif.Model.RegAnon
import Verif.Props.Rpc

/-! # C111: lists without key, with a path helper -/

namespace Spec
open Py Pyb

/-- The node is a list. -/
def IsList : Schema → Prop
  | .list _ _ => True
  | _ => False

end Spec

namespace Pyb
open Py Spec

theorem registry_below {ops : List RegOp} {loc : List PStep} (h : ∀ op ∈ ops, ¬ loc <+: op.path) : ∀ p, loc <+: p → registryAfter ops p = none := by
  have gen : ∀ (ops : List RegOp) (m : Registry), (∀ op ∈ ops, ¬ loc <+: op.path) → (∀ p, loc <+: p → m p = none) →
      ∀ p, loc <+: p → ops.foldl regStep m p = none := by
    intro ops
    induction ops with
    | nil => intro m _ hm p hp; exact hm p hp
    | cons op ops ih =>
      intro m h hm p hp
      refine ih _ (fun o ho => h o (by simp [ho])) (fun q hq => ?_) p hp
      unfold regStep
      split
      · cases op with
        | register p' o =>
          have : q ≠ p' := fun e => h (.register p' o) (by simp) (by simpa [RegOp.path, ← e] using hq)
          simp [effect, this, hm q hq]
        | unregister p' =>
          simp only [effect]
          split
          · rfl
          · exact hm q hq
      · exact hm q hq
  exact gen ops _ h fun _ _ => rfl

theorem regKids_lists (loc : List PStep) : ∀ kids : List (Meta × Schema), (∀ k ∈ kids, IsList k.2) → regKids loc kids = []
  | [], _ => by simp [regKids]
  | k :: ks, h => by
    obtain ⟨m, S⟩ := k
    cases S with
    | list i kids => simp [regKids, regNew, regKids_lists loc ks fun x hx => h x (by simp [hx])]
    | leaf L => exact absurd (h _ List.mem_cons_self) id
    | leafList L => exact absurd (h _ List.mem_cons_self) id
    | cont p kids => exact absurd (h _ List.mem_cons_self) id

theorem regKids_first (loc : List PStep) : ∀ kids : List (Meta × Schema), (∃ k ∈ kids, ¬ IsList k.2) →
    ∃ k ∈ kids, ∃ o cs, regKids loc kids = .register (loc ++ [⟨k.1.name, []⟩]) o :: cs
  | [], h => by obtain ⟨k, hk, _⟩ := h; simp at hk
  | k :: ks, h => by
    obtain ⟨m, S⟩ := k
    cases S with
    | list i kids =>
      have : ∃ k ∈ ks, ¬ IsList k.2 := by
        obtain ⟨k, hk, hn⟩ := h
        rcases List.mem_cons.1 hk with rfl | hk
        · exact absurd trivial hn
        · exact ⟨k, hk, hn⟩
      obtain ⟨k, hk, o, cs, e⟩ := regKids_first loc ks this
      exact ⟨k, List.mem_cons_of_mem _ hk, o, cs, by simpa [regKids, regNew] using e⟩
    | leaf L => exact ⟨_, List.mem_cons_self, _, _, by rw [regKids, regNew]; rfl⟩
    | leafList L => exact ⟨_, List.mem_cons_self, _, _, by rw [regKids, regNew]; rfl⟩
    | cont p kids => exact ⟨_, List.mem_cons_self, _, _, by rw [regKids, regNew]; rfl⟩

/-- C111 is false: with a path helper, whatever was registered with it before (nothing at the path of the
list or below it), `add()` on a list without key raises `XPathError` and adds nothing, if its entries have
any child that is not a list. -/
theorem C111_add_refuted {K : List Str → List Str} (eqv : XObj → XObj → Bool) (ops : List RegOp) (hv : ∀ op ∈ ops, ValidPath K op.path)
    (up : List PStep) (name : Str) (kids : List (Meta × Schema)) (hfree : ∀ op ∈ ops, ¬ up ++ [⟨name, []⟩] <+: op.path)
    (hp : ∀ k ∈ kids, ValidPath K (up ++ [⟨name, []⟩] ++ [⟨k.1.name, []⟩])) (hk : ∃ k ∈ kids, ¬ IsList k.2) (ms : Members Inst) (u : Str) :
    (addAnonRun eqv up name kids (runOps eqv ops) ms u).2 = (ms, some .xpathError) := by
  obtain ⟨k, hm, o, cs, e⟩ := regKids_first (up ++ [⟨name, []⟩]) kids hk
  have hr : (doCall eqv (runOps eqv ops) (.register (up ++ [⟨name, []⟩] ++ [⟨k.1.name, []⟩]) o)).2 = .error .xpathError := by
    have := C51_succeeds_partial (eqv := eqv) hv (op := RegOp.register (up ++ [(⟨name, []⟩ : PStep)] ++ [(⟨k.1.name, []⟩ : PStep)]) o) (hp k hm)
    rw [if_neg] at this
    · exact this
    · simp only [OpAllowed]
      rw [registry_below hfree _ (List.prefix_append ..), List.dropLast_concat, registry_below hfree _ (List.prefix_refl _)]
      simp
  simp only [addAnonRun, e, callAll, hr]

theorem erase_there : ∀ (ms : Members Inst) (k : PyVal), mem ms k = true → ∃ ms', erase ms k = .ok ms' ∧ ms'.length + 1 = ms.length
  | [], k, h => by simp [mem] at h
  | p :: ms, k, h => by
    cases hp : pyEq p.1 k with
    | true => exact ⟨ms, by simp [erase, hp], rfl⟩
    | false =>
      obtain ⟨ms', e, l⟩ := erase_there ms k (by simpa [mem, hp] using h)
      exact ⟨p :: ms', by simp [erase, hp, e, Except.map], by simp [l]⟩

/-- C111 is false for `delete` also: of an entry that is there it raises `TypeError`, and the entry stays;
without helper it is taken out. -/
theorem C111_delete_refuted (h : Helper) (info : ListInfo) (kids : List (Meta × Schema)) (own : Option Choice) (ch : Bool) (ms : Members Inst) (k : PyVal)
    (hh : hashable k = true) (hm : mem ms k = true) :
    (deleteAnonRun h ms k).2 = (ms, some .typeError) ∧
      ∃ ms', nodeOp (.list info kids) own (.list ch ms) (.delete k) = ⟨.list ch ms', [], none⟩ ∧ ms'.length + 1 = ms.length := by
  constructor
  · simp [deleteAnonRun, hh, hm]
  · obtain ⟨ms', e, l⟩ := erase_there ms k hm
    exact ⟨ms', by simp [nodeOp, ylDelete, hh, e, listOut], l⟩

theorem erase_missing : ∀ (ms : Members Inst) (k : PyVal), mem ms k = false → erase ms k = .error .keyError
  | [], k, _ => rfl
  | p :: ms, k, h => by
    have h' : pyEq p.1 k = false ∧ mem ms k = false := by simpa [mem] using h
    simp [erase, h'.1, erase_missing ms k h'.2, Except.map]

/-- C111, in part: `delete` with a key that is not there, or cannot be one, raises the same exception with a
helper as without, and changes neither the list nor the helper. -/
theorem C111_delete_partial (h : Helper) (info : ListInfo) (kids : List (Meta × Schema)) (own : Option Choice) (ch : Bool) (ms : Members Inst) (k : PyVal)
    (hm : hashable k = false ∨ mem ms k = false) :
    ∃ e, deleteAnonRun h ms k = (h, ms, some e) ∧ nodeOp (.list info kids) own (.list ch ms) (.delete k) = ⟨.list ch ms, [], some e⟩ := by
  cases hh : hashable k with
  | false => exact ⟨.typeError, by simp [deleteAnonRun, hh], by simp [nodeOp, ylDelete, hh, listOut]⟩
  | true =>
    have hm : mem ms k = false := by simpa [hh] using hm
    exact ⟨.keyError, by simp [deleteAnonRun, hh, hm], by simp [nodeOp, ylDelete, hh, erase_missing ms k hm, listOut]⟩

/-- C111, in part: if all children of the entries are lists, `add()` does the same with a helper as without,
and leaves the helper as it is.  Missing: entries with other children, and `delete` of entries that are
there. -/
theorem C111_lists_partial (eqv : XObj → XObj → Bool) (up : List PStep) (name : Str) (info : ListInfo) (hi : info.keys = []) (kids : List (Meta × Schema))
    (hk : ∀ k ∈ kids, IsList k.2) (own : Option Choice) (h : Helper) (ch : Bool) (ms : Members Inst) (u : Str) :
    ∃ ms', addAnonRun eqv up name kids h ms u = (h, ms', none) ∧ nodeOp (.list info kids) own (.list ch ms) (.addAnon u) = ⟨.list ch ms', [], none⟩ := by
  refine ⟨store ms (.str u) (.cont false false (freshKids kids)), ?_, ?_⟩
  · simp [addAnonRun, regKids_lists _ kids hk, callAll]
  · simp [nodeOp, hi]

/-! Examples: a list `log` of a module, with two leaves in its entries. -/

def logUp : List PStep := [⟨py!"ifs", []⟩]

theorem log_valid : ∀ k ∈ demoL, ValidPath exK (logUp ++ [⟨py!"log", []⟩] ++ [⟨k.1.name, []⟩]) := by
  intro k hk
  simp only [demoL, List.mem_cons, List.not_mem_nil, or_false] at hk
  rcases hk with rfl | rfl
  all_goals
    refine ⟨by simp, ?_, .cons _ _ _ (by decide) (.cons _ _ _ (by decide) (.cons _ _ _ (by decide) (.nil _)))⟩
    intro s hs
    simp only [logUp, List.cons_append, List.nil_append, List.mem_cons, List.not_mem_nil, or_false] at hs
    rcases hs with rfl | rfl | rfl <;> exact ⟨ident_of (by decide) (by decide), by simp, by simp, by simp⟩

set_option maxRecDepth 4000 in
example : (∀ op ∈ [RegOp.register exIfs ⟨1, []⟩], ¬ logUp ++ [⟨py!"log", []⟩] <+: op.path) ∧ (∃ k ∈ demoL, ¬ IsList k.2) ∧
    (addAnonRun exEqv logUp py!"log" demoL (runOps exEqv [.register exIfs ⟨1, []⟩]) [] py!"u1").2.2 = some .xpathError ∧
    mem ([] : Members Inst) (.str py!"u1") = false ∧ mem ([(.str py!"u1", .cont false false (freshKids demoL))] : Members Inst) (.str py!"u1") = true := by
  refine ⟨by decide, ⟨_, List.mem_cons_self, id⟩, by decide, by decide, by decide⟩

end Pyb
