import Verif.Model.GetList
import Verif.Props.Reg

/-! # C103: the lists of a binding, from the path helper -/

namespace Pyb
open Py Spec

variable {K : List Str → List Str} {eqv : XObj → XObj → Bool}

theorem getList_parts {α : Type} (h : Helper) (attr : XObj → Str → Option α) (p : List Str) (name : Str) (caller) :
    h.getList attr (p ++ [name]) caller = (h.getUnique p caller).bind fun o =>
      match attr o (py!"_get_" ++ safeName name) with | none => .error .runtimeError | some v => .ok v := by
  simp only [Helper.getList, List.dropLast_concat, List.getLastD_concat]
  cases h.getUnique p caller <;> rfl

/-- **C103.**  After any history of `register` and `unregister`, `get_list` of a path and a name
gives what the object at the path has under the name; it raises the given exception if there is
no object at the path, or if that has no such attribute. -/
theorem C103_registry_partial {α : Type} {ops : List RegOp} (hv : ∀ op ∈ ops, ValidPath K op.path) {q : List PStep} (hq : ValidPath K q)
    (attr : XObj → Str → Option α) (name : Str) (caller) :
    (registryAfter ops q = none → (runOps eqv ops).getList attr (q.map PStep.text ++ [name]) caller = .error .runtimeError) ∧
    (∀ o, registryAfter ops q = some o → ∃ o', (o' = o ∨ eqv o' o = true) ∧
      (∀ v, attr o' (py!"_get_" ++ safeName name) = some v → (runOps eqv ops).getList attr (q.map PStep.text ++ [name]) caller = .ok v) ∧
      (attr o' (py!"_get_" ++ safeName name) = none →
        (runOps eqv ops).getList attr (q.map PStep.text ++ [name]) caller = .error .runtimeError)) := by
  obtain ⟨h1, h2⟩ := C51_lookup_partial (eqv := eqv) hv hq caller
  refine ⟨fun h => ?_, fun o h => ?_⟩
  · rw [getList_parts, C55_raises _ _ _ (h1 h) (by simp)]; rfl
  · obtain ⟨o', e, he⟩ := h2 o h
    refine ⟨o', he, fun v hv => ?_, fun hn => ?_⟩
    · rw [getList_parts, (C55_unique _ _ _ o').2 e]; simp only [Except.bind, hv]
    · rw [getList_parts, (C55_unique _ _ _ o').2 e]; simp only [Except.bind, hn]

/-- **C103.**  In a binding made with a new path helper, after any history (see
`C83_lookup_partial`): `get_list` of the path of a container or a list entry that is in the tree,
and the name of a list in it, asks that object for the list; where there is no such container or
entry, it raises the given exception. -/
theorem C103_binding_partial {α : Type} {K : PyVal → Prop} {kids : List (Meta × Schema)} {ops : List (Path × Op)} (hK : ToldApart K) (hok : Named kids)
    (ha : ∀ k ∈ kids, Addressable k.2) (hf : ApartRoot kids) (hh : HistOk K kids (freshKids kids) ops) {q : List PStep} (hq : PathOk q kids)
    (hne : q ≠ []) (attr : XObj → Str → Option α) (name : Str) (caller) :
    (regAt q kids (history kids (freshKids kids) ops) = none →
      (helperAfter eqv kids ops).getList attr (q.map PStep.text ++ [name]) caller = .error .runtimeError) ∧
    (∀ o, regAt q kids (history kids (freshKids kids) ops) = some o → ∃ o', (o' = o ∨ eqv o' o = true) ∧
      ∀ v, attr o' (py!"_get_" ++ safeName name) = some v → (helperAfter eqv kids ops).getList attr (q.map PStep.text ++ [name]) caller = .ok v) := by
  obtain ⟨h1, h2⟩ := C83_lookup_partial (eqv := eqv) hK hok ha hf hh hq hne caller
  refine ⟨fun h => ?_, fun o h => ?_⟩
  · rw [getList_parts, C55_raises _ _ _ (h1 h) (by simp)]; rfl
  · obtain ⟨o', e, he⟩ := h2 o h
    refine ⟨o', he, fun v hv => ?_⟩
    rw [getList_parts, (C55_unique _ _ _ o').2 e]; simp only [Except.bind, hv]

/-- **C103.**  The same for a path given as one text. -/
theorem C103_text_partial {α : Type} {q : List PStep} (hq : ValidPath K q) {name : Str} (hn : Identifier name) (h : Helper)
    (attr : XObj → Str → Option α) (caller) :
    h.getListStr attr ('/' :: joinSlash (q.map PStep.text ++ [name])) caller = h.getList attr (q.map PStep.text ++ [name]) caller := by
  have hs := C51_string_partial hq h caller
  obtain ⟨s, p, rfl⟩ := List.exists_cons_of_ne_nil hq.ne
  have e : (s :: p).map PStep.text ++ [name] = (s :: (p ++ [⟨name, []⟩])).map PStep.text := by simp [PStep.text]
  have h1 : pathParts ('/' :: joinSlash ((s :: p).map PStep.text ++ [name])) = ([] :: (s :: p).map PStep.text) ++ [name] := by
    rw [e, pathParts, pathPartsGo, if_pos (by decide), go_texts (p ++ [(⟨name, []⟩ : PStep)]) [] s]
    · simp [PStep.text]
    · intro t ht
      rw [← List.cons_append, List.mem_append] at ht
      rcases ht with ht | ht
      · exact hq.good t ht
      · rw [List.mem_singleton.1 ht]
        exact ⟨hn, by simp, by simp, by simp⟩
  have h2 : pathParts ('/' :: joinSlash ((s :: p).map PStep.text)) = [] :: (s :: p).map PStep.text := by
    rw [pathParts, pathPartsGo, if_pos (by decide), go_texts p [] s hq.good]
    rfl
  rw [Helper.getStr, h2] at hs
  rw [Helper.getListStr, h1, getList_parts, getList_parts, Helper.getUnique, Helper.getUnique, hs]

/-- The interfaces have a list of interfaces, which stands for itself here. -/
def exAttr (o : XObj) (n : Str) : Option Str := if o.ref = 1 ∧ n = py!"_get_if_" then some py!"the list" else none

/-- `get_list("/ifs/if")`; `if` is a reserved word. -/
example : (runOps (fun _ _ => false) exOps).getList exAttr (exIfs.map PStep.text ++ [py!"if"]) none = .ok py!"the list" := by
  obtain ⟨_, h⟩ := C103_registry_partial (eqv := fun _ _ => false) exOps_valid exIfs_valid exAttr py!"if" none
  obtain ⟨o', rfl | h1, h2, _⟩ := h ⟨1, []⟩ (by decide)
  · exact h2 _ (by decide)
  · cases h1

example : (runOps exEqv exOps).getListStr exAttr py!"/ifs/if" none = .ok py!"the list" ∧
    (runOps exEqv exOps).getListStr exAttr py!"/nope/if" none = .error .runtimeError ∧
    (runOps exEqv exOps).getListStr exAttr py!"/ifs/unit" none = .error .runtimeError := by decide

/-- C103 fails for lists at the top level: the object at `/` is there, but has no such method,
whatever entries the list has (only they are registered). -/
theorem C103_top_refuted : ∃ (p : List PStep) (o : XObj), ValidPath (fun _ => [py!"k"]) p ∧
    registryAfter [.register p o] p = some o ∧ p.map PStep.tag = [py!"l"] ∧
    ∀ attr : XObj → Str → Option Unit, (∀ n, attr ⟨0, []⟩ n ≠ none → n ∈ rootGetters [p.map PStep.text]) →
      (runOps exEqv [.register p o]).getListStr attr py!"/l" none = .error .runtimeError := by
  refine ⟨[⟨py!"l", [(py!"k", py!"e")]⟩], ⟨1, []⟩, ⟨by simp, ?_, .cons _ _ _ rfl (.nil _)⟩, by decide, rfl, ?_⟩
  · intro s hs
    simp only [List.mem_singleton] at hs
    subst hs
    refine ⟨ident_of (by decide) (by decide), ?_, by decide, ?_⟩
    · intro k hk
      rw [List.mem_singleton.1 hk]
      exact ⟨ident_of (by decide) (by decide), by decide, by decide⟩
    · intro k hk
      rw [List.mem_singleton.1 hk]
      exact goodValue_of (by decide) (by decide)
  · intro attr ha
    have e : (runOps exEqv [.register [⟨py!"l", [(py!"k", py!"e")]⟩] ⟨1, []⟩]).getUnique [[]] none = .ok ⟨0, []⟩ := by decide
    have hp : pathParts py!"/l" = [[]] ++ [py!"l"] := by decide
    rw [Helper.getListStr, hp, getList_parts, e]
    have hn : attr ⟨0, []⟩ (py!"_get_" ++ safeName py!"l") = none := by
      cases h : attr ⟨0, []⟩ (py!"_get_" ++ safeName py!"l") with
      | none => rfl
      | some u => exact absurd (ha _ (by rw [h]; simp)) (by decide)
    simp only [Except.bind, hn]

/-- C103 fails for names with a prefix: prefixes are taken off the path to the parent, not off
the name of the list. -/
theorem C103_prefix_refuted : (runOps exEqv exOps).getListStr exAttr py!"/m:ifs/if" none = .ok py!"the list" ∧
    (runOps exEqv exOps).getListStr exAttr py!"/m:ifs/m:if" none = .error .runtimeError := by decide

end Pyb
