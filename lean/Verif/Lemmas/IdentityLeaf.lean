import Verif.Lemmas.Inherit

namespace Pyb
open Py Spec

theorem spellsOf_get {e : Dict IdInfo} {ch : Ident} {x : Str} {v : IdInfo} (h : (spellsOf e ch).get? x = some v) :
    e.get? x = some v ∨ (KeyOf ch x ∧ v = (ch.mod, ch.ns)) := by
  have key : ∀ (l : List (Option Str)) (e : Dict IdInfo), (∀ p ∈ l, ∀ q, p = some q → q ∈ ch.prefixes) → (l.foldl (spellIn ch) e).get? x = some v →
      e.get? x = some v ∨ (KeyOf ch x ∧ v = (ch.mod, ch.ns)) := by
    intro l
    induction l with
    | nil => intro e _ h; exact .inl h
    | cons p l ih =>
      intro e hp h
      rw [List.foldl_cons] at h
      rcases ih _ (fun q hq => hp q (by simp [hq])) h with h | h
      · simp only [spellIn, Dict.get?_set] at h
        split at h
        · rename_i hx
          refine .inr ⟨?_, (Option.some.inj h).symm⟩
          cases p with
          | none => exact .inl (by simpa [spfx] using hx)
          | some q => exact .inr ⟨q, hp _ (by simp) q rfl, by simpa [spfx, qual] using hx⟩
        · split at h
          · rename_i hx
            exact .inr ⟨.inl hx, (Option.some.inj h).symm⟩
          · exact .inl h
      · exact .inr h
  refine key _ e ?_ h
  intro p hp q e
  subst e
  simpa using hp

theorem spells_get {s : IdStore} {i : Ident} {x : Str} {v : IdInfo} (h : (spells s i).get? x = some v) :
    ∃ c ∈ i.children, ∃ ch, findId s c = some ch ∧ KeyOf ch x ∧ v = (ch.mod, ch.ns) := by
  have key : ∀ (l : List Ident) (e : Dict IdInfo), (l.foldl spellsOf e).get? x = some v →
      e.get? x = some v ∨ ∃ ch ∈ l, KeyOf ch x ∧ v = (ch.mod, ch.ns) := by
    intro l
    induction l with
    | nil => intro e h; exact .inl h
    | cons ch l ih =>
      intro e h
      rw [List.foldl_cons] at h
      rcases ih _ h with h | ⟨c, hc, h⟩
      · rcases spellsOf_get h with h | h
        · exact .inl h
        · exact .inr ⟨ch, by simp, h⟩
      · exact .inr ⟨c, by simp [hc], h⟩
  rcases key _ [] h with h | ⟨ch, hch, h⟩
  · simp at h
  · obtain ⟨c, hc, e⟩ := List.mem_filterMap.1 hch
    exact ⟨c, hc, ch, e, h⟩

end Pyb
