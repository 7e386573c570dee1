import Verif.Props.GenText

/-! # C90: a backslash at the end of a line -/

namespace Pyb
open Py Spec

theorem unesc_ordinary (names : Str → Option Char) : ∀ (a r : Str), '\\' ∉ a → unesc names .none (a ++ r) = (unesc names .none r).map (a ++ ·)
  | [], r, _ => by simp
  | c :: a, r, h => by
    simp only [List.mem_cons, not_or] at h
    have hc : c ≠ '\\' := fun e => h.1 e.symm
    simp only [List.cons_append, unesc, escStep, plainStep, if_neg hc, unesc_ordinary names a r h.2]
    cases unesc names .none r <;> simp

theorem shortEnd_line (q : Char) : ∀ (a r : Str), (∀ c ∈ a, c ≠ q ∧ c ≠ '\\' ∧ c ≠ '\n' ∧ c ≠ '\x00') →
    shortEnd q false (a ++ r) = (shortEnd q false r).map fun x => (a ++ x.1, x.2)
  | [], r, _ => by simp
  | c :: a, r, h => by
    obtain ⟨h1, h2, h3, h4⟩ := h c (by simp)
    simp only [List.cons_append, shortEnd, if_neg h1, h3, h4, or_self, if_false, h2, decide_false,
      shortEnd_line q a r (fun c hc => h c (by simp [hc]))]
    cases shortEnd q false r <;> simp

/-- C90 fails for a default with a backslash at the end of a line: the generated program is read, and has a default in
which the backslash and the line end are missing. -/
theorem C90_continuation_refuted (names : Str → Option Char) (a b rest : Str)
    (ha : ∀ c ∈ a, c ≠ '"' ∧ c ≠ '\\' ∧ c ≠ '\n' ∧ c ≠ '\r' ∧ c ≠ '\x00')
    (hb : ∀ c ∈ b, c ≠ '"' ∧ c ≠ '\\' ∧ c ≠ '\n' ∧ c ≠ '\r' ∧ c ≠ '\x00') :
    readLit names (srcNewlines (quoted '"' (a ++ '\\' :: '\n' :: b) ++ rest)) = some (a ++ b, srcNewlines rest) := by
  have hcr : '\r' ∉ a ++ '\\' :: '\n' :: b := by
    intro hm
    rcases List.mem_append.1 hm with h | h
    · exact (ha _ h).2.2.2.1 rfl
    · simp only [List.mem_cons] at h
      rcases h with h | h | h
      · exact absurd h (by decide)
      · exact absurd h (by decide)
      · exact (hb _ h).2.2.2.1 rfl
  have e : srcNewlines (quoted '"' (a ++ '\\' :: '\n' :: b) ++ rest) = '"' :: ((a ++ '\\' :: '\n' :: b) ++ '"' :: srcNewlines rest) := by
    unfold quoted srcNewlines
    rw [List.cons_append, List.append_assoc, List.singleton_append, srcNl, if_neg (by decide), if_neg (fun h => absurd h.1 (by decide)),
      srcNl_sep '"' (by decide) (by decide), srcNl_id _ hcr]
  rw [e]
  have ht : ((a ++ '\\' :: '\n' :: b) ++ '"' :: srcNewlines rest).take 2 ≠ ['"', '"'] := by
    cases a with
    | nil => simp
    | cons c a => have := (ha c (by simp)).1; simp [this]
  have hs : shortEnd '"' false ((a ++ '\\' :: '\n' :: b) ++ '"' :: srcNewlines rest) = some (a ++ '\\' :: '\n' :: b, srcNewlines rest) := by
    rw [List.append_assoc, shortEnd_line '"' a _ (fun c hc => ⟨(ha c hc).1, (ha c hc).2.1, (ha c hc).2.2.1, (ha c hc).2.2.2.2⟩)]
    have : shortEnd '"' false (b ++ '"' :: srcNewlines rest) = some (b, srcNewlines rest) := by
      rw [shortEnd_line '"' b _ (fun c hc => ⟨(hb c hc).1, (hb c hc).2.1, (hb c hc).2.2.1, (hb c hc).2.2.2.2⟩)]
      simp [shortEnd]
    simp [shortEnd, this]
  have hu : unesc names .none (a ++ '\\' :: '\n' :: b) = some (a ++ b) := by
    rw [unesc_ordinary names a _ (fun h => (ha _ h).2.1 rfl)]
    have := unesc_ordinary names b [] (fun h => (hb _ h).2.1 rfl)
    rw [List.append_nil] at this
    simp [unesc, escStep, plainStep, backStep, simpleEsc, this, escEnd]
  rw [readLit, if_pos (.inl rfl), if_neg ht, hs]
  simp [hu]

example : readLit (fun _ => none) (srcNewlines (quoted '"' py!"one\\\ntwo" ++ py!")")) = some (py!"onetwo", py!")") :=
  C90_continuation_refuted _ py!"one" py!"two" _ (by decide) (by decide)

end Pyb
