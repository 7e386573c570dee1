import Verif.Lemmas.RegRun
import Verif.Props.ListErr

/-! # Operations that raise before anything is registered -/

namespace Pyb
open Py Spec

variable {K : PyVal → Prop}

theorem not_mem_of {E : Type} {ms : Members E} {k : PyVal} (h : ¬ Present ms k) : mem ms k = false := by
  cases hm : mem ms k with
  | false => rfl
  | true => exact absurd (mem_true.1 hm) h

theorem addEvs_nil {up : List PStep} {t : Str} {info : ListInfo} {kids : List (Meta × Schema)} {ch : Bool} {es : Members Inst} {k : PyVal}
    (h : ¬ Late (.list info kids) (.list ch es) (.add k)) : addEvs up t info kids es k = [] := by
  simp only [addEvs]
  split
  · rfl
  split
  · rfl
  split
  · rfl
  rename_i h1 h2 h3
  cases hk : keyParts info.keys.length k with
  | error e => rfl
  | ok raws =>
    exact absurd ⟨hashable_iff.1 (by simpa using h2), h1, fun c => h3 (mem_true.2 c), raws, writes_of_keyParts hk⟩ h

theorem addNamedEvs_nil {up : List PStep} {t : Str} {info : ListInfo} {kids : List (Meta × Schema)} {ch : Bool} {es : Members Inst}
    {raws : List (Option PyVal)} (hl : raws.length = info.keys.length) (h : ¬ Late (.list info kids) (.list ch es) (.addNamed raws)) :
    addNamedEvs up t info kids es raws = [] := by
  simp only [addNamedEvs]
  cases hg : allGiven raws with
  | error e => rfl
  | ok rs =>
    have e := allGiven_ok.1 hg
    simp only
    split
    · rfl
    · rename_i h3
      exact absurd ⟨rs, e, by rw [← hl, e]; simp, fun c => h3 (mem_true.2 c)⟩ h

theorem nodeEvs_nil {up : List PStep} {t : Str} {S : Schema} {po : Option Choice} {n : Inst} {op : Op}
    (hop : OpOk K S op) (he : (nodeOp S po n op).err ≠ none) (h : ¬ Late S n op) (hin : ¬ InPlace op) :
    nodeEvs up t S po n op = [] := by
  cases op with
  | unset => exact absurd (by cases S <;> rfl) he
  | set v l =>
    cases S with
    | leaf L =>
      have h1 : nodeEvs up t (.leaf L) po n (.set v l) = leafEvs (up ++ [⟨t, []⟩]) L po v := by cases n <;> rfl
      have h2 : nodeOp (.leaf L) po n (.set v l) = leafSet L po n v := by cases n <;> rfl
      rw [h1, leafEvs]
      rw [h2, leafSet] at he
      cases hs : L.set v with
      | refused e => rfl
      | marked e => exact absurd ⟨e, hs⟩ h
      | ok w => rw [hs] at he; exact absurd rfl he
    | _ => cases n <;> rfl
  | ll op =>
    cases S with
    | leafList L =>
      cases op with
      | assign v => exact absurd trivial h
      | iadd v => exact absurd trivial h
      | _ => exact absurd trivial hin
    | _ => cases n <;> rfl
  | present b =>
    cases S <;> cases n <;> cases b <;> first | rfl | exact absurd rfl he
  | add k =>
    cases S <;> cases n <;> first | rfl | skip
    simp only [nodeEvs]
    split
    · rfl
    · exact addEvs_nil h
  | addNamed raws =>
    cases S <;> cases n <;> first | rfl | skip
    simp only [nodeEvs]
    split
    · rfl
    · rename_i hl
      exact addNamedEvs_nil (Classical.byContradiction fun e => hl (.inr e)) h
  | delete k =>
    cases S <;> cases n <;> first | rfl | skip
    simp only [nodeEvs, deleteEvs]
    simp only [nodeOp] at he
    cases hd : ylDelete _ k with
    | ok es => rw [hd] at he; exact absurd rfl he
    | error e => rfl
  | assign v => cases S <;> exact hop.elim
  | addAnon u => cases S <;> exact hop.elim
  | append v => cases S <;> exact hop.elim
  | setitem k v => cases S <;> exact hop.elim

theorem runEvs_nil {op : Op} (hin : ¬ InPlace op) : ∀ (p : Path) {up : List PStep} {t : Str} {S : Schema} {own : Option Choice} {n : Inst},
    (∀ S', schemaAt S p = some S' → OpOk K S' op) → (run S own n p op).err ≠ none →
    (∀ S' n', schemaAt S p = some S' → nodeAt n p = some n' → ¬ Late S' n' op) → runEvs up t S own n p op = []
  | [], up, t, S, own, n, hop, he, h => by
    have h1 : runEvs up t S own n [] op = nodeEvs up t S own n op := by cases S <;> rfl
    rw [run_nil] at he
    rw [h1]
    exact nodeEvs_nil (hop S (by cases S <;> rfl)) he (h S n (by cases S <;> rfl) (by cases n <;> rfl)) hin
  | .field i :: p, up, t, S, own, n, hop, he, h => by
    cases S <;> cases n <;> first | rfl | skip
    rename_i pres kids ch pr ns
    simp only [run, runEvs, schemaAt, nodeAt] at hop he h ⊢
    cases hk : kids[i]? with
    | none => rfl
    | some k =>
      cases hc : ns[i]? with
      | none => rfl
      | some c =>
        simp only [hk, hc] at hop he h ⊢
        rw [runEvs_nil hin p hop he h]
        rfl
  | [.key k], up, t, S, own, n, hop, he, h => by cases S <;> cases n <;> rfl
  | .key k :: .key k' :: p, up, t, S, own, n, hop, he, h => by cases S <;> cases n <;> rfl
  | .key k :: .field i :: p, up, t, S, own, n, hop, he, h => by
    cases S <;> cases n <;> first | rfl | skip
    rename_i info kids ch es
    simp only [runEvs]
    split
    · rfl
    rename_i hh
    simp only [run, if_neg hh, schemaAt, nodeAt] at he hop h
    cases hf : es.find? fun q => pyEq q.1 k with
    | none => rfl
    | some q =>
      obtain ⟨k', e⟩ := q
      simp only [hf] at he h
      cases e <;> first | rfl | skip
      rename_i ch' pr' ns
      simp only
      split
      · rfl
      rename_i hg
      rw [if_neg hg] at he
      simp only [reduceCtorEq, if_false, run, nodeAt] at he h
      cases hk : kids[i]? with
      | none => rfl
      | some k =>
        cases hc : ns[i]? with
        | none => rfl
        | some c =>
          simp only [hk, hc] at hop he h ⊢
          rw [runEvs_nil hin p hop he h]
          rfl

theorem callsOk_of {kids : List (Meta × Schema)} {ns : List Inst} {p : Path} {op : Op} (hop : ∀ S, clsAt kids p = some S → OpOk K S op)
    (h : StepOk kids ns p op) : CallsOk op (runRoot kids ns p op).2 (rootCalls kids ns p op) := by
  by_cases hin : InPlace op
  · exact .inr (.inr hin)
  rcases h with h | h
  · exact .inl h
  by_cases he : (runRoot kids ns p op).2 = none
  · exact .inl he
  refine .inr (.inl ?_)
  cases p with
  | nil => rfl
  | cons s p =>
    cases s with
    | key k => rfl
    | field i =>
      simp only [rootCalls, runRoot, clsAt, objAt, schemaAt, nodeAt] at *
      cases hk : kids[i]? with
      | none => rfl
      | some k =>
        cases hc : ns[i]? with
        | none => rfl
        | some c =>
          simp only [hk, hc] at hop he h ⊢
          rw [runEvs_nil hin p hop he h]
          rfl

end Pyb
