import Verif.Lemmas.XPathMore

namespace Pyb
open Py Spec

theorem go_chars {q a : Bool} : ∀ (s : Str) (buf t : Str), (∀ c ∈ s, c ≠ '"' ∧ c ≠ '[' ∧ c ≠ ']' ∧ (c = '/' → q = true ∨ a = true)) →
    pathPartsGo buf q a (s ++ t) = pathPartsGo (buf ++ s) q a t := by
  intro s
  induction s with
  | nil => intro buf t _; simp
  | cons c s ih =>
    intro buf t h
    obtain ⟨h1, h2, h3, h4⟩ := h c (by simp)
    have hs : ¬ (c = '/' ∧ q = false ∧ a = false) := by
      rintro ⟨rfl, rfl, rfl⟩
      simp at h4
    rw [List.cons_append, pathPartsGo, if_neg hs, if_neg (by simp [h1]), if_neg h1, if_neg h2, if_neg h3, ih]
    · simp
    · exact fun c hc => h c (by simp [hc])

/-- A quoted text without brackets is taken whole. -/
theorem go_quoted {a : Bool} {s : Str} (buf t : Str) (h1 : '"' ∉ s) (h2 : '[' ∉ s) (h3 : ']' ∉ s) :
    pathPartsGo buf false a (('"' :: s ++ ['"']) ++ t) = pathPartsGo (buf ++ ('"' :: s ++ ['"'])) false a t := by
  have e : ('"' :: s ++ ['"']) ++ t = '"' :: (s ++ '"' :: t) := by simp
  rw [e, pathPartsGo, if_neg (by simp), if_neg (by simp), if_pos rfl, go_chars s]
  · rw [pathPartsGo, if_neg (by simp), if_pos (by simp)]
    simp
  · intro c hc
    exact ⟨fun e => h1 (e ▸ hc), fun e => h2 (e ▸ hc), fun e => h3 (e ▸ hc), fun _ => .inl rfl⟩

theorem go_inner : ∀ (ps : List SPart) (buf t : Str), (∀ p ∈ ps, InnerPart p) → (∀ p ∈ ps, ∀ s, p = .quoted s → '[' ∉ s ∧ ']' ∉ s) →
    pathPartsGo buf false true (SPart.text.go ps ++ t) = pathPartsGo (buf ++ SPart.text.go ps) false true t := by
  intro ps
  induction ps with
  | nil => intro buf t _ _; simp [SPart.text.go]
  | cons p ps ih =>
    intro buf t h1 h2
    have e : SPart.text.go (p :: ps) ++ t = p.text ++ (SPart.text.go ps ++ t) := by simp [SPart.text.go]
    have e2 : buf ++ SPart.text.go (p :: ps) = (buf ++ p.text) ++ SPart.text.go ps := by simp [SPart.text.go]
    rw [e, e2, ← ih _ _ (fun p hp => h1 p (by simp [hp])) (fun p hp => h2 p (by simp [hp]))]
    have hp := h1 p (by simp)
    cases p with
    | chars s =>
      rw [SPart.text]
      apply go_chars
      intro c hc
      obtain ⟨a1, a2, a3⟩ := hp c hc
      exact ⟨a1, a2, a3, fun _ => .inr rfl⟩
    | quoted s =>
      obtain ⟨a1, a2⟩ := h2 _ (by simp) s rfl
      rw [SPart.text]
      exact go_quoted _ _ hp a1 a2
    | pred ps => exact hp.elim

theorem go_part (p : SPart) (buf t : Str) (h1 : OuterPart p) (h2 : NoQuotedBrackets p) :
    pathPartsGo buf false false (p.text ++ t) = pathPartsGo (buf ++ p.text) false false t := by
  cases p with
  | chars s =>
    rw [SPart.text]
    apply go_chars
    intro c hc
    obtain ⟨a1, a2, a3, a4⟩ := h1 c hc
    exact ⟨a1, a2, a3, fun e => absurd e a4⟩
  | quoted s =>
    rw [SPart.text]
    exact go_quoted _ _ h1 h2.1 h2.2
  | pred ps =>
    rw [SPart.text]
    have e : '[' :: SPart.text.go ps ++ [']'] ++ t = '[' :: (SPart.text.go ps ++ ']' :: t) := by simp
    rw [e, pathPartsGo, if_neg (by decide), if_neg (by decide), if_neg (by decide), if_pos rfl, go_inner ps _ _ h1 h2]
    rw [pathPartsGo, if_neg (by decide), if_neg (by decide), if_neg (by decide), if_neg (by decide), if_pos rfl]
    simp

theorem go_step : ∀ (ps : List SPart) (buf t : Str), (∀ p ∈ ps, OuterPart p ∧ NoQuotedBrackets p) →
    pathPartsGo buf false false (stepText ps ++ t) = pathPartsGo (buf ++ stepText ps) false false t := by
  intro ps
  induction ps with
  | nil => intro buf t _; simp [stepText, SPart.text.go]
  | cons p ps ih =>
    intro buf t h
    have e : stepText (p :: ps) ++ t = p.text ++ (stepText ps ++ t) := by simp [stepText, SPart.text.go]
    have e2 : buf ++ stepText (p :: ps) = (buf ++ p.text) ++ stepText ps := by simp [stepText, SPart.text.go]
    rw [e, e2, go_part _ _ _ (h p (by simp)).1 (h p (by simp)).2, ih _ _ fun p hp => h p (by simp [hp])]

theorem go_join : ∀ (ss : List (List SPart)) (buf : Str), ss ≠ [] → (∀ ps ∈ ss, ∀ p ∈ ps, OuterPart p ∧ NoQuotedBrackets p) →
    pathPartsGo buf false false (joinSlash (ss.map stepText)) = (buf ++ stepText (ss.headD [])) :: (ss.map stepText).tail := by
  intro ss
  induction ss with
  | nil => intro buf h; exact absurd rfl h
  | cons s ss ih =>
    intro buf _ h
    cases ss with
    | nil =>
      have := go_step s buf [] (h s (by simp))
      rw [List.append_nil] at this
      simp [joinSlash, this, pathPartsGo]
    | cons t r =>
      have e : joinSlash ((s :: t :: r).map stepText) = stepText s ++ '/' :: joinSlash ((t :: r).map stepText) := rfl
      rw [e, go_step s _ _ (h s (by simp)), pathPartsGo, if_pos (by decide), ih [] (by simp) fun ps hp => h ps (by simp [hp])]
      simp

/-- Inside a predicate, without quotes. -/
theorem go_pred : ∀ (s : Str) (buf t : Str), (∀ c ∈ s, c ≠ '"' ∧ c ≠ ']') →
    pathPartsGo buf false true (s ++ t) = pathPartsGo (buf ++ s) false true t := by
  intro s
  induction s with
  | nil => intro buf t _; simp
  | cons c s ih =>
    intro buf t h
    obtain ⟨h1, h3⟩ := h c (by simp)
    have e : pathPartsGo buf false true (c :: s ++ t) = pathPartsGo (buf ++ [c]) false true (s ++ t) := by
      rw [List.cons_append, pathPartsGo, if_neg (by simp), if_neg (by simp), if_neg h1, if_neg h3]
      simp
    rw [e, ih _ _ fun c hc => h c (by simp [hc])]
    simp

theorem keyBody_quote (ks : List (Str × Str)) (hk : KeysOk ks) : ∀ c ∈ keyBody ks, c ≠ '"' := by
  fun_induction keyBody ks with
  | case1 => simp
  | case2 p =>
    intro c hc
    simp only [List.append_assoc, List.mem_append, List.mem_cons, List.cons_append, List.not_mem_nil, or_false] at hc
    rcases hc with h | rfl | rfl | h | rfl
    · rintro rfl; have := ((hk.names p (by simp)).2 _ h).1; revert this; decide
    · decide
    · decide
    · rintro rfl; have := ((hk.values p (by simp)).2 _ h).1; revert this; decide
    · decide
  | case3 p q r ih =>
    have hk' : KeysOk (q :: r) := ⟨fun k h => hk.names k (by simp [h]), (List.nodup_cons.1 hk.nodup).2, fun k h => hk.values k (by simp [h])⟩
    intro c hc
    simp only [List.append_assoc, List.mem_append, List.mem_cons, List.cons_append] at hc
    rcases hc with h | rfl | rfl | h | rfl | rfl | h
    · rintro rfl; have := ((hk.names p (by simp)).2 _ h).1; revert this; decide
    · decide
    · decide
    · rintro rfl; have := ((hk.values p (by simp)).2 _ h).1; revert this; decide
    · decide
    · decide
    · exact ih hk' c h

theorem go_text {s : PStep} (h : s.Good) (buf t : Str) : pathPartsGo buf false false (s.text ++ t) = pathPartsGo (buf ++ s.text) false false t := by
  have htag : ∀ (buf t : Str), pathPartsGo buf false false (s.tag ++ t) = pathPartsGo (buf ++ s.tag) false false t := by
    intro buf t
    apply go_chars
    intro c hc
    have h1 : c ≠ '"' ∧ c ≠ '[' ∧ c ≠ ']' ∧ c ≠ '/' := by
      refine ⟨?_, ?_, ?_, ?_⟩ <;>
      · rcases h.tag.1 c hc with h | rfl
        · rintro rfl; revert h; unfold PlainChar; decide
        · decide
    exact ⟨h1.1, h1.2.1, h1.2.2.1, fun e => absurd e h1.2.2.2⟩
  unfold PStep.text
  split
  · exact htag buf t
  · rename_i hne
    rw [keyString_body _ hne]
    have e : s.tag ++ ('[' :: keyBody s.keys ++ [']']) ++ t = s.tag ++ '[' :: (keyBody s.keys ++ ']' :: t) := by simp
    rw [e, htag, pathPartsGo, if_neg (by decide), if_neg (by decide), if_neg (by decide), if_pos rfl, go_pred]
    · rw [pathPartsGo, if_neg (by decide), if_neg (by decide), if_neg (by decide), if_neg (by decide), if_pos rfl]
      simp
    · intro c hc
      exact ⟨keyBody_quote _ h.keysOk c hc, fun e => (keyBody_nobar _ h.keysOk).2 (e ▸ hc)⟩

theorem go_texts : ∀ (p : List PStep) (buf : Str) (s : PStep), (∀ t ∈ s :: p, t.Good) →
    pathPartsGo buf false false (joinSlash ((s :: p).map PStep.text)) = (buf ++ s.text) :: p.map PStep.text := by
  intro p
  induction p with
  | nil =>
    intro buf s h
    have := go_text (h s (by simp)) buf []
    rw [List.append_nil] at this
    simp [joinSlash, this, pathPartsGo]
  | cons t r ih =>
    intro buf s h
    have e : joinSlash ((s :: t :: r).map PStep.text) = s.text ++ '/' :: joinSlash ((t :: r).map PStep.text) := rfl
    rw [e, go_text (h s (by simp)), pathPartsGo, if_pos (by decide), ih [] t fun x hx => h x (by simp [hx])]
    simp

end Pyb
