import Verif.Lemmas.Loaded

/-! # Deciding that a document does not contradict itself

For the examples. -/

namespace Pyb
open Py Spec

def forIdx (kids : List (Meta × Schema)) (key : Str) : Option Nat := if '@' ∈ key then none else kidIdx kids (localKey key)

def rivalB (a b : Meta) : Bool :=
  match a.choice, b.choice with
  | some c, some d => decide (c.name = d.name) && decide (c.case_ ≠ d.case_)
  | _, _ => false

/-- The children two members stand for. -/
def rivalMembers (kids : List (Meta × Schema)) (a b : Str) : Bool :=
  match (forIdx kids a).bind (kids[·]?), (forIdx kids b).bind (kids[·]?) with
  | some k, some k' => rivalB k.1 k'.1
  | _, _ => false

def trailing : Option PyVal → Bool
  | some (.str s) => s.getLast? == some ' '
  | _ => false

mutual
def tidyB (repr : J → Str) : Schema → J → Bool
  | .cont _ kids, .obj ms => decide (ms.filterMap fun x => forIdx kids x.1).Nodup &&
      ms.all (fun x => ms.all fun y => !rivalMembers kids x.1 y.1) && tidyMs repr kids ms
  | .list info kids, .arr xs =>
      decide ((xs.filterMap (docKey repr info kids)).Pairwise fun a b => pyEq a b = false) &&
      xs.all (fun x => !trailing (docKey repr info kids x)) && tidyXs repr kids xs
  | _, _ => true
def tidyMs (repr : J → Str) (kids : List (Meta × Schema)) : List (Str × J) → Bool
  | [] => true
  | x :: ms =>
    (match (forIdx kids x.1).bind (kids[·]?) with
     | some k => tidyB repr k.2 x.2
     | none => true) && tidyMs repr kids ms
def tidyXs (repr : J → Str) (kids : List (Meta × Schema)) : List J → Bool
  | [] => true
  | x :: xs => tidyB repr (.cont false kids) x && tidyXs repr kids xs
end

theorem tidyMs_mem {repr : J → Str} {kids : List (Meta × Schema)} : ∀ {ms : List (Str × J)}, tidyMs repr kids ms = true →
    ∀ x ∈ ms, ∀ k, (forIdx kids x.1).bind (kids[·]?) = some k → tidyB repr k.2 x.2 = true := by
  intro ms
  induction ms with
  | nil => intro _ x hx; simp at hx
  | cons y ms ih =>
    intro h x hx k hk
    simp only [tidyMs, Bool.and_eq_true] at h
    rcases List.mem_cons.1 hx with rfl | hx
    · rw [hk] at h; exact h.1
    · exact ih h.2 x hx k hk

theorem tidyXs_mem {repr : J → Str} {kids : List (Meta × Schema)} : ∀ {xs : List J}, tidyXs repr kids xs = true →
    ∀ x ∈ xs, tidyB repr (.cont false kids) x = true := by
  intro xs
  induction xs with
  | nil => intro _ x hx; simp at hx
  | cons y ms ih =>
    intro h x hx
    simp only [tidyXs, Bool.and_eq_true] at h
    rcases List.mem_cons.1 hx with rfl | hx
    · exact h.1
    · exact ih h.2 x hx

theorem forIdx_for {kids : List (Meta × Schema)} (hn : GoodNames kids) {key : Str} {i : Nat} (h : IsFor kids key i) :
    forIdx kids key = some i := by
  rw [forIdx, if_neg h.1, isFor_idx hn h]

theorem rivalB_of {a b : Meta} (h : Rivals a b) : rivalB a b = true := by
  obtain ⟨c, d, h1, h2, h3, h4⟩ := h
  simp [rivalB, h1, h2, h3, h4]

theorem pairwise_filterMap {α β : Type} {f : α → Option β} {R : β → β → Prop} {l : List α} (h : (l.filterMap f).Pairwise R)
    {a b : Nat} {x y : α} {u v : β} (hab : a < b) (hx : l[a]? = some x) (hy : l[b]? = some y) (hu : f x = some u) (hv : f y = some v) : R u v := by
  induction l generalizing a b with
  | nil => simp at hx
  | cons z l ih =>
    cases b with
    | zero => omega
    | succ b =>
      simp only [List.getElem?_cons_succ] at hy
      cases a with
      | zero =>
        simp only [List.getElem?_cons_zero, Option.some.injEq] at hx
        subst hx
        rw [List.filterMap_cons, hu] at h
        exact (List.pairwise_cons.1 h).1 v (List.mem_filterMap.2 ⟨y, List.mem_of_getElem? hy, hv⟩)
      | succ a =>
        simp only [List.getElem?_cons_succ] at hx
        refine ih ?_ (by omega) hx hy
        rw [List.filterMap_cons] at h
        split at h
        · exact h
        · exact (List.pairwise_cons.1 h).2

theorem tidy_sound {repr : J → Str} {S : Schema} {j : J} (h : Contradicts repr S j ∨ Loose repr S j) (hO : Orderly S) : tidyB repr S j = false := by
  rcases h with h | h
  · induction h with
    | @twice pres kids ms a b x y i h1 h2 h3 h4 h5 =>
      rw [Bool.eq_false_iff]
      intro ht
      simp only [tidyB, Bool.and_eq_true, decide_eq_true_eq] at ht
      exact pairwise_filterMap (R := (· ≠ ·)) ht.1.1 h1 h2 h3 (forIdx_for hO.1 h4) (forIdx_for hO.1 h5) rfl
    | @rivals pres kids ms x y i j k k' h1 h2 h3 h4 h5 h6 h7 =>
      rw [Bool.eq_false_iff]
      intro ht
      simp only [tidyB, Bool.and_eq_true, decide_eq_true_eq, List.all_eq_true] at ht
      have := ht.1.2 x h1 y h2
      simp [rivalMembers, forIdx_for hO.1 h3, forIdx_for hO.1 h4, h5, h6, rivalB_of h7] at this
    | @inside pres kids ms x i k h1 h2 h3 h4 ih =>
      rw [Bool.eq_false_iff]
      intro ht
      simp only [tidyB, Bool.and_eq_true] at ht
      have := tidyMs_mem ht.2 x h1 k (by rw [forIdx_for hO.1 h2]; exact h3)
      rw [ih (orderly_kid hO.2 (List.mem_of_getElem? h3))] at this
      simp at this
    | @sameKey info kids xs a b x y k k' h1 h2 h3 h4 h5 h6 =>
      rw [Bool.eq_false_iff]
      intro ht
      simp only [tidyB, Bool.and_eq_true, decide_eq_true_eq] at ht
      have := pairwise_filterMap ht.1.1 h1 h2 h3 h4 h5
      rw [h6] at this
      simp at this
    | @elem info kids xs x h1 h2 ih =>
      rw [Bool.eq_false_iff]
      intro ht
      simp only [tidyB, Bool.and_eq_true] at ht
      have := tidyXs_mem ht.2 x h1
      rw [ih ⟨hO.1, hO.2.2⟩] at this
      simp at this
  · induction h with
    | @here info kids xs x s h1 h2 h3 =>
      rw [Bool.eq_false_iff]
      intro ht
      simp only [tidyB, Bool.and_eq_true, List.all_eq_true] at ht
      have := ht.1.2 x h1
      simp [h3, trailing] at this
    | @inside pres kids ms x i k h1 h2 h3 h4 ih =>
      rw [Bool.eq_false_iff]
      intro ht
      simp only [tidyB, Bool.and_eq_true] at ht
      have := tidyMs_mem ht.2 x h1 k (by rw [forIdx_for hO.1 h2]; exact h3)
      rw [ih (orderly_kid hO.2 (List.mem_of_getElem? h3))] at this
      simp at this
    | @elem info kids xs x h1 h2 ih =>
      rw [Bool.eq_false_iff]
      intro ht
      simp only [tidyB, Bool.and_eq_true] at ht
      have := tidyXs_mem ht.2 x h1
      rw [ih ⟨hO.1, hO.2.2⟩] at this
      simp at this

theorem tidy_ok {repr : J → Str} {S : Schema} {j : J} (hO : Orderly S) (h : tidyB repr S j = true) :
    ¬ Loose repr S j ∧ ¬ Contradicts repr S j :=
  ⟨fun hl => by rw [tidy_sound (.inr hl) hO] at h; simp at h, fun hc => by rw [tidy_sound (.inl hc) hO] at h; simp at h⟩

def concernsB (repr : J → Str) : Schema → J → Path → Bool
  | _, _, [] => true
  | .cont _ kids, .obj ms, .field i :: p => ms.any fun x =>
      match forIdx kids x.1, kids[i]? with
      | some i', some k => (decide (i' = i) && concernsB repr k.2 x.2 p) || (match kids[i']? with | some k' => rivalB k'.1 k.1 | none => false)
      | _, _ => false
  | .list info kids, .arr xs, .key k :: p => xs.any fun x =>
      (match docKey repr info kids x with | some k' => pyEq k' k | none => false) && concernsB repr (.cont false kids) x p
  | .list _ _, .arr _, _ => false
  | .list _ _, .obj _, _ => false
  | .list _ _, .null, _ => false
  | .list _ _, _, _ => true
  | _, _, _ => false

theorem concerns_sound {repr : J → Str} {S : Schema} {j : J} {p : Path} (h : Concerns repr S j p) (hO : Orderly S) : concernsB repr S j p = true := by
  induction h with
  | here => simp [concernsB]
  | @field pres kids ms x i k p h1 h2 h3 h4 ih =>
    simp only [concernsB, List.any_eq_true]
    refine ⟨x, h1, ?_⟩
    rw [forIdx_for hO.1 h2, h3]
    simp [ih (orderly_kid hO.2 (List.mem_of_getElem? h3))]
  | @rival pres kids ms x i k i' k' p h1 h2 h3 h4 h5 =>
    simp only [concernsB, List.any_eq_true]
    refine ⟨x, h1, ?_⟩
    rw [forIdx_for hO.1 h2, h4]
    simp [h3, rivalB_of h5]
  | @entry info kids xs x k k' p h1 h2 h3 h4 ih =>
    simp only [concernsB, List.any_eq_true]
    refine ⟨x, h1, ?_⟩
    simp [h2, h3, ih ⟨hO.1, hO.2.2⟩]
  | @whole info kids j p h0 h1 h2 =>
    cases p with
    | nil => simp [concernsB]
    | cons s p =>
      cases j with
      | null => exact absurd rfl h0
      | arr xs => exact absurd rfl (h1 xs)
      | obj ms => exact absurd rfl (h2 ms)
      | _ => cases s <;> simp [concernsB]

theorem spares_of {repr : J → Str} {S : Schema} {j : J} {p : Path} (hO : Orderly S) (h : concernsB repr S j p = false) : ¬ Concerns repr S j p :=
  fun hc => by rw [concerns_sound hc hO] at h; simp at h

end Pyb
