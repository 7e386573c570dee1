import Verif.Lemmas.BitsTree
import Verif.Lemmas.LoadInv
import Verif.Lemmas.Dumps

/-! # Sessions in which bits leaves are changed in place -/

namespace Pyb
open Py Spec

/-- Bits leaves have bits values. -/
def bitsInv (rx : Str → Str → Bool) : LInv where
  leaf L v _ := ∀ name allowed d, L = (YTy.ext name (.bits allowed)).cls rx d → BitsDecl allowed → ∃ s, v = .obj (.bits s) ∧ ExtValue (.bits allowed) (.bits s)
  ll _ _ _ := True

theorem bits_dyn {allowed : List (Str × Str)} (hd : BitsDecl allowed) {v w : PyVal} (h : (ExtTy.bits allowed).dyn v = .ok w) :
    ∃ s, w = .obj (.bits s) ∧ ExtValue (.bits allowed) (.bits s) := by
  have h0 : ExtValue (.bits allowed) (.bits []) := .bits _ _ hd.1 (by simp) .nil
  have key : ∀ w, bitsInit allowed v = .ok w → ∃ s, w = .obj (.bits s) ∧ ExtValue (.bits allowed) (.bits s) := by
    intro w hw
    cases v with
    | str t =>
      simp only [bitsInit] at hw
      cases hb : bitAddAll allowed [] (words t) with
      | error e => simp [hb, Except.map] at hw
      | ok s =>
        simp only [hb, Except.map, Except.ok.injEq] at hw
        subst hw
        have hi : BitInv allowed s := bitAddAll_inv ⟨by simp, by simp⟩ hb
        exact ⟨_, rfl, bits_value hd hi.1 hi.2⟩
    | obj o =>
      cases o with
      | bytes b =>
        simp only [bitsInit] at hw
        split at hw
        · simp only [Except.ok.injEq] at hw; subst hw; exact ⟨[], rfl, h0⟩
        · simp at hw
      | _ => simp [bitsInit] at hw
    | _ => simp [bitsInit] at hw
  simp only [ExtTy.dyn, ExtTy.call] at h
  split at h
  · simp only [Except.ok.injEq, ExtTy.zero] at h; subst h; exact ⟨[], rfl, h0⟩
  · exact key w h

theorem bitsInv_stable (rx : Str → Str → Bool) : LStable (bitsInv rx) where
  zero L := by
    rintro name allowed d rfl hd
    exact ⟨[], rfl, .bits _ _ hd.1 (by simp) .nil⟩
  nil L := trivial
  set L v w h := by
    rintro name allowed d rfl hd
    have h' : (ExtTy.bits allowed).build v = .ok w := h
    simp only [ExtTy.build] at h'
    cases e : (ExtTy.bits allowed).dyn v with
    | error er => simp [e] at h'
    | ok w' =>
      simp only [e, LeafRes.ok.injEq] at h'
      subst h'
      exact bits_dyn hd e
  init _ _ _ _ := trivial
  step _ _ _ _ _ _ _ _ _ := trivial

/-- A method call keeps the property of all leaves, if it keeps that of the leaf. -/
theorem through_obj {P : LInv} (hP : LStable P) {f : Option Choice → Inst → Out} {L : LeafCls}
    (hf : ∀ own n, ObjInv P (.leaf L) n → ObjInv P (.leaf L) (f own n).inst) {p : Path} :
    ∀ {S : Schema} {own : Option Choice} {n : Inst}, schemaAt S p = some (.leaf L) → ObjInv P S n → ObjInv P S (through f S own n p).inst := by
  induction p with
  | nil =>
    intro S own n hS hn
    simp only [schemaAt_nil, Option.some.injEq] at hS
    subst hS
    exact hf own n hn
  | cons st p ih =>
    intro S own n hS hn
    cases hn with
    | leaf => cases st <;> simp [schemaAt] at hS
    | leafList => cases st <;> simp [schemaAt] at hS
    | cont pres kids ch pr ns hl h =>
      cases st with
      | key k => simp [schemaAt] at hS
      | field i =>
        rw [schemaAt_cont] at hS
        obtain ⟨k, hkk, hS⟩ := Option.bind_eq_some_iff.1 hS
        simp only [through, hkk]
        cases hc : ns[i]? with
        | none => exact .cont _ _ _ _ _ hl h
        | some c => exact contPut_obj hP hkk (.cont _ _ _ _ _ hl h) (ih hS (h i k c hkk hc))
    | list info kids ch es h hd =>
      cases st with
      | field i => simp [schemaAt] at hS
      | key k =>
        simp only [schemaAt] at hS
        simp only [through]
        split
        · exact .list _ _ _ _ h hd
        · cases hq : es.find? fun q => pyEq q.1 k with
          | none => exact .list _ _ _ _ h hd
          | some q =>
            refine .list _ _ _ _ (fun x hx => ?_) (pd_store hd)
            rcases store_mem hx with h1 | ⟨h1, _⟩
            · exact h x h1
            · rw [h1]; exact ih hS (h q (List.mem_of_find?_eq_some hq))

/-- The methods leave a bits value in the leaf. -/
theorem bitsCall_obj {rx : Str → Str → Bool} {name : Str} {allowed : List (Str × Str)} {d : Option PyVal} (hd : BitsDecl allowed) {helper : Bool}
    {c : BitCall} (hc : ∀ bs, c ≠ .update bs) (own : Option Choice) (n : Inst)
    (h : ObjInv (bitsInv rx) (.leaf ((YTy.ext name (.bits allowed)).cls rx d)) n) :
    ObjInv (bitsInv rx) (.leaf ((YTy.ext name (.bits allowed)).cls rx d)) (bitsCall allowed helper c own n).inst := by
  cases h with
  | leaf _ v ch hv =>
    obtain ⟨s, rfl, hs⟩ := hv name allowed d rfl hd
    have good : ∀ t, ExtValue (.bits allowed) (.bits t) → ObjInv (bitsInv rx) (.leaf ((YTy.ext name (.bits allowed)).cls rx d)) (.leaf (.obj (.bits t)) true) :=
      fun t ht => .leaf _ _ _ ((bitsInv_stable rx).set _ _ _ (ext_set (ext_call_bits ht (List.Perm.refl t))))
    have out : ∀ (op : BitOp) (sigs : List (Option Choice)) (old : Inst),
        ((∃ b, op = .add b ∧ c = .add b) ∨ (∃ b, op = .discard b ∧ c = .discard b) ∨ (op = .clear ∧ c = .clear) ∨
          (∃ b, op = .remove b ∧ c = .remove b) ∨ (∃ b, op = .pop b ∧ c = .pop b)) →
        ObjInv (bitsInv rx) (.leaf ((YTy.ext name (.bits allowed)).cls rx d)) old →
        ObjInv (bitsInv rx) (.leaf ((YTy.ext name (.bits allowed)).cls rx d)) (bitsOut allowed sigs old (bitStep allowed s op)).inst := by
      intro op sigs old ho hold
      cases e : bitStep allowed s op with
      | error er => exact hold
      | ok t => exact good _ (bitStep_after hs hd e ho).1
    have same : ObjInv (bitsInv rx) (.leaf ((YTy.ext name (.bits allowed)).cls rx d)) (.leaf (.obj (.bits s)) ch) := .leaf _ _ _ hv
    cases c with
    | add b => exact out (.add b) _ _ (.inl ⟨b, rfl, rfl⟩) same
    | discard b => exact out (.discard b) _ _ (.inr (.inl ⟨b, rfl, rfl⟩)) same
    | clear => exact out .clear _ _ (.inr (.inr (.inl ⟨rfl, rfl⟩))) same
    | remove b =>
      cases helper with
      | true => exact good s hs
      | false => exact out (.remove b) _ _ (.inr (.inr (.inr (.inl ⟨b, rfl, rfl⟩)))) (good s hs)
    | pop b => exact out (.pop b) _ _ (.inr (.inr (.inr (.inr ⟨b, rfl, rfl⟩)))) (good s hs)
    | update bs => exact absurd rfl (hc bs)

theorem bitsRoot_obj {rx : Str → Str → Bool} {kids : List (Meta × Schema)} {ns : List Inst} {p : Path} {allowed : List (Str × Str)} {helper : Bool}
    {c : BitCall} (hb : BitsAt rx kids p allowed) (hc : ∀ bs, c ≠ .update bs) (h : RootObj (bitsInv rx) kids ns) :
    RootObj (bitsInv rx) kids (bitsRoot kids allowed helper ns p c).1 := by
  obtain ⟨hd, name, d, hT⟩ := hb
  cases p with
  | nil => exact h
  | cons st p =>
    cases st with
    | key k => exact h
    | field i =>
      rw [clsAt_field] at hT
      obtain ⟨k, hk, hT⟩ := Option.bind_eq_some_iff.1 hT
      simp only [bitsRoot, hk]
      cases hi : ns[i]? with
      | none => exact h
      | some n =>
        refine ⟨by simpa using h.1, ?_⟩
        intro j k' c' hk' hc'
        by_cases e : i = j
        · subst e
          rw [List.getElem?_set_self (List.getElem?_eq_some_iff.1 hi).1] at hc'
          simp at hc'; subst hc'
          rw [hk] at hk'; simp at hk'; subst hk'
          exact through_obj (bitsInv_stable rx) (fun own n hn => bitsCall_obj hd hc own n hn) hT (h.2 i k n hk hi)
        · rw [List.getElem?_set_ne e] at hc'
          exact h.2 j k' c' hk' hc'

theorem bitSession_obj {rx : Str → Str → Bool} {kids : List (Meta × Schema)} {helper : Bool} (acts : List BitAct) :
    ∀ {ns : List Inst}, (∀ p allowed c, BitAct.call p allowed c ∈ acts → BitsAt rx kids p allowed ∧ ∀ bs, c ≠ .update bs) →
    RootObj (bitsInv rx) kids ns → RootObj (bitsInv rx) kids (bitSession kids helper ns acts) := by
  induction acts with
  | nil => intro ns _ h; exact h
  | cons a acts ih =>
    intro ns ha h
    refine ih (fun p al c hm => ha p al c (by simp [hm])) ?_
    cases a with
    | act a => exact session_obj (bitsInv_stable rx) [a] h
    | call p al c =>
      obtain ⟨h1, h2⟩ := ha p al c (by simp)
      exact bitsRoot_obj h1 h2 h

end Pyb
