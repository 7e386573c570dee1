import Verif.Lemmas.NativeLoaded
import Verif.Lemmas.LoadedCheck

/-! # Deciding that a native JSON document does not contradict itself

For the examples. -/

namespace Pyb
open Py Spec

def nForIdx (o : Bool) (kids : List (Meta × Schema)) (key : Str) : Option Nat := if o && key == yangOrder then none else kidIdx kids key

/-- The children two members stand for. -/
def nRivalMembers (o : Bool) (kids : List (Meta × Schema)) (a b : Str) : Bool :=
  match (nForIdx o kids a).bind (kids[·]?), (nForIdx o kids b).bind (kids[·]?) with
  | some k, some k' => rivalB k.1 k'.1
  | _, _ => false

mutual
def nTidyB : Bool → Schema → J → Bool
  | o, .cont _ kids, .obj ms => decide (ms.filterMap fun x => nForIdx o kids x.1).Nodup &&
      ms.all (fun x => ms.all fun y => !nRivalMembers o kids x.1 y.1) && nTidyMs o kids ms
  | _, .list info kids, .obj ms =>
      decide (ms.map Prod.fst).Nodup && (!info.ordered || decide (ms.filterMap fun x => position x.2).Nodup) && nTidyXs info.ordered kids ms
  | _, _, _ => true
def nTidyMs (o : Bool) (kids : List (Meta × Schema)) : List (Str × J) → Bool
  | [] => true
  | x :: ms =>
    (match (nForIdx o kids x.1).bind (kids[·]?) with
     | some k => nTidyB false k.2 x.2
     | none => true) && nTidyMs o kids ms
def nTidyXs (o : Bool) (kids : List (Meta × Schema)) : List (Str × J) → Bool
  | [] => true
  | x :: xs => nTidyB o (.cont false kids) x.2 && nTidyXs o kids xs
end

theorem nTidyMs_mem {o : Bool} {kids : List (Meta × Schema)} : ∀ {ms : List (Str × J)}, nTidyMs o kids ms = true →
    ∀ x ∈ ms, ∀ k, (nForIdx o kids x.1).bind (kids[·]?) = some k → nTidyB false k.2 x.2 = true := by
  intro ms
  induction ms with
  | nil => intro _ x hx; simp at hx
  | cons y ms ih =>
    intro h x hx k hk
    simp only [nTidyMs, Bool.and_eq_true] at h
    rcases List.mem_cons.1 hx with rfl | hx
    · rw [hk] at h; exact h.1
    · exact ih h.2 x hx k hk

theorem nTidyXs_mem {o : Bool} {kids : List (Meta × Schema)} : ∀ {xs : List (Str × J)}, nTidyXs o kids xs = true →
    ∀ x ∈ xs, nTidyB o (.cont false kids) x.2 = true := by
  intro xs
  induction xs with
  | nil => intro _ x hx; simp at hx
  | cons y ms ih =>
    intro h x hx
    simp only [nTidyXs, Bool.and_eq_true] at h
    rcases List.mem_cons.1 hx with rfl | hx
    · exact h.1
    · exact ih h.2 x hx

theorem nForIdx_for {o : Bool} {kids : List (Meta × Schema)} (hn : GoodNames kids) {key : Str} {i : Nat} (h : NIsFor o kids key i) :
    nForIdx o kids key = some i := by
  have ho : ¬ (o && key == yangOrder) = true := by
    intro h'
    simp only [Bool.and_eq_true, beq_iff_eq] at h'
    exact h.1 h'
  rw [nForIdx, if_neg ho, nIsFor_idx hn h]

theorem nTidy_sound {o : Bool} {S : Schema} {j : J} (h : NContradicts o S j) (hO : Orderly S) : nTidyB o S j = false := by
  induction h with
  | @twice o pres kids ms a b x y i h1 h2 h3 h4 h5 =>
    rw [Bool.eq_false_iff]
    intro ht
    simp only [nTidyB, Bool.and_eq_true, decide_eq_true_eq] at ht
    exact pairwise_filterMap (R := (· ≠ ·)) ht.1.1 h1 h2 h3 (nForIdx_for hO.1 h4) (nForIdx_for hO.1 h5) rfl
  | @rivals o pres kids ms x y i j k k' h1 h2 h3 h4 h5 h6 h7 =>
    rw [Bool.eq_false_iff]
    intro ht
    simp only [nTidyB, Bool.and_eq_true, decide_eq_true_eq, List.all_eq_true] at ht
    have := ht.1.2 x h1 y h2
    simp [nRivalMembers, nForIdx_for hO.1 h3, nForIdx_for hO.1 h4, h5, h6, rivalB_of h7] at this
  | @inside o pres kids ms x i k h1 h2 h3 h4 ih =>
    rw [Bool.eq_false_iff]
    intro ht
    simp only [nTidyB, Bool.and_eq_true] at ht
    have := nTidyMs_mem ht.2 x h1 k (by rw [nForIdx_for hO.1 h2]; exact h3)
    rw [ih (orderly_kid hO.2 (List.mem_of_getElem? h3))] at this
    simp at this
  | sameKey h => simp [nTidyB, h]
  | samePlace h1 h2 => simp [nTidyB, h1, h2]
  | @entry o info kids xs x h1 h2 ih =>
    rw [Bool.eq_false_iff]
    intro ht
    simp only [nTidyB, Bool.and_eq_true] at ht
    have := nTidyXs_mem ht.2 x h1
    rw [ih ⟨hO.1, hO.2.2⟩] at this
    simp at this

theorem nTidy_ok {o : Bool} {S : Schema} {j : J} (hO : Orderly S) (h : nTidyB o S j = true) : ¬ NContradicts o S j :=
  fun hc => by rw [nTidy_sound hc hO] at h; simp at h

def nConcernsB : Bool → Schema → J → Path → Bool
  | _, _, _, [] => true
  | o, .cont _ kids, .obj ms, .field i :: p => ms.any fun x =>
      match nForIdx o kids x.1, kids[i]? with
      | some i', some k => (decide (i' = i) && nConcernsB false k.2 x.2 p) || (match kids[i']? with | some k' => rivalB k'.1 k.1 | none => false)
      | _, _ => false
  | _, .list info kids, .obj ms, s :: p => ms.isEmpty || ms.any fun x => decide (s = .key (.str x.1)) && nConcernsB info.ordered (.cont false kids) x.2 p
  | _, _, _, _ => false

theorem nConcerns_sound {o : Bool} {S : Schema} {j : J} {p : Path} (h : NConcerns o S j p) (hO : Orderly S) : nConcernsB o S j p = true := by
  induction h with
  | here => simp [nConcernsB]
  | @field o pres kids ms x i k p h1 h2 h3 h4 ih =>
    simp only [nConcernsB, List.any_eq_true]
    refine ⟨x, h1, ?_⟩
    rw [nForIdx_for hO.1 h2, h3]
    simp [ih (orderly_kid hO.2 (List.mem_of_getElem? h3))]
  | @rival o pres kids ms x i k i' k' p h1 h2 h3 h4 h5 =>
    simp only [nConcernsB, List.any_eq_true]
    refine ⟨x, h1, ?_⟩
    rw [nForIdx_for hO.1 h2, h4]
    simp [h3, rivalB_of h5]
  | @entry o info kids xs x p h1 h2 ih =>
    simp only [nConcernsB, Bool.or_eq_true, List.any_eq_true]
    refine .inr ⟨x, h1, ?_⟩
    simp [ih ⟨hO.1, hO.2.2⟩]
  | @whole o info kids p =>
    cases p <;> simp [nConcernsB]

theorem nSpares_of {o : Bool} {S : Schema} {j : J} {p : Path} (hO : Orderly S) (h : nConcernsB o S j p = false) : ¬ NConcerns o S j p :=
  fun hc => by rw [nConcerns_sound hc hO] at h; simp at h

end Pyb
