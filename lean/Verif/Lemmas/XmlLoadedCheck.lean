import Verif.Lemmas.XmlLoaded
import Verif.Lemmas.LoadedCheck

/-! # Deciding that an XML document does not contradict itself

For the examples. -/

namespace Pyb
open Py Spec

/-- The child an element is for, and the key if it is an entry. -/
def xPlace (infer : Str → PyVal) (kids : List (Meta × Schema)) (x : Xml) : Option (Nat × Option PyVal) :=
  (kidIdx kids x.name).bind fun i =>
    match kids[i]? with
    | some (_, .list info ks) => (xDocKey infer info ks x).map fun k => (i, some k)
    | some (_, .leafList _) => none
    | _ => some (i, none)

def xClash (a b : Nat × Option PyVal) : Bool :=
  decide (a.1 = b.1) && match a.2, b.2 with
    | some k, some k' => pyEq k k'
    | _, _ => true

def xRivalMembers (kids : List (Meta × Schema)) (a b : Str) : Bool :=
  match (kidIdx kids a).bind (kids[·]?), (kidIdx kids b).bind (kids[·]?) with
  | some k, some k' => rivalB k.1 k'.1
  | _, _ => false

mutual
def xTidyB (infer : Str → PyVal) : Schema → Xml → Bool
  | S, .elem _ _ _ _ xs =>
    match S with
    | .cont _ kids => xTidyKids infer kids xs
    | .list _ kids => xTidyKids infer kids xs
    | _ => true
def xTidyKids (infer : Str → PyVal) (kids : List (Meta × Schema)) : List Xml → Bool
  | [] => true
  | x :: xs =>
    ((xPlace infer kids x).all fun a => (xs.filterMap (xPlace infer kids)).all fun b => !xClash a b) &&
    (xs.all fun y => !xRivalMembers kids x.name y.name && !xRivalMembers kids y.name x.name) &&
    (match (kidIdx kids x.name).bind (kids[·]?) with
     | some k => xTidyB infer k.2 x
     | none => true) && xTidyKids infer kids xs
end

theorem rivalB_self (m : Meta) : rivalB m m = false := by
  unfold rivalB
  split
  · rename_i h1 h2; rw [h1] at h2; obtain rfl := Option.some.inj h2; simp
  · rfl

theorem xTidyKids_pair {infer : Str → PyVal} {kids : List (Meta × Schema)} : ∀ {xs : List Xml}, xTidyKids infer kids xs = true →
    ∀ {a b : Nat} {y z : Xml} {p q : Nat × Option PyVal}, a < b → xs[a]? = some y → xs[b]? = some z → xPlace infer kids y = some p → xPlace infer kids z = some q →
      xClash p q = false := by
  intro xs
  induction xs with
  | nil => intro _ a b y z p q _ h; simp at h
  | cons x xs ih =>
    intro h a b y z p q hab hy hz hp hq
    simp only [xTidyKids, Bool.and_eq_true] at h
    cases b with
    | zero => omega
    | succ b =>
    simp only [List.getElem?_cons_succ] at hz
    cases a with
    | zero =>
      simp only [List.getElem?_cons_zero, Option.some.injEq] at hy
      subst hy
      have h1 := h.1.1.1
      rw [hp] at h1
      simp only [Option.all_some, List.all_eq_true] at h1
      simpa using h1 q (List.mem_filterMap.2 ⟨z, List.mem_of_getElem? hz, hq⟩)
    | succ a => exact ih h.2 (by omega : a < b) (by simpa using hy) hz hp hq

theorem xTidyKids_rival {infer : Str → PyVal} {kids : List (Meta × Schema)} : ∀ {xs : List Xml}, xTidyKids infer kids xs = true →
    ∀ {y z : Xml}, y ∈ xs → z ∈ xs → xRivalMembers kids y.name z.name = false := by
  intro xs
  induction xs with
  | nil => intro _ y z h; simp at h
  | cons x xs ih =>
    intro h y z hy hz
    simp only [xTidyKids, Bool.and_eq_true, List.all_eq_true, Bool.not_eq_true'] at h
    rcases List.mem_cons.1 hy with e | hy' <;> rcases List.mem_cons.1 hz with e' | hz'
    · rw [e, e']
      unfold xRivalMembers
      split
      · rename_i h1 h2; rw [h1] at h2; obtain rfl := Option.some.inj h2; exact rivalB_self _
      · rfl
    · rw [e]; exact (h.1.1.2 z hz').1
    · rw [e']; exact (h.1.1.2 y hy').2
    · exact ih h.2 hy' hz'

theorem xTidyKids_mem {infer : Str → PyVal} {kids : List (Meta × Schema)} : ∀ {xs : List Xml}, xTidyKids infer kids xs = true →
    ∀ x ∈ xs, ∀ k, (kidIdx kids x.name).bind (kids[·]?) = some k → xTidyB infer k.2 x = true := by
  intro xs
  induction xs with
  | nil => intro _ x hx; simp at hx
  | cons y ms ih =>
    intro h x hx k hk
    simp only [xTidyKids, Bool.and_eq_true] at h
    rcases List.mem_cons.1 hx with rfl | hx
    · have := h.1.2; rw [hk] at this; exact this
    · exact ih h.2 x hx k hk

theorem xTidy_cont {infer : Str → PyVal} {pres : Bool} {kids : List (Meta × Schema)} {x : Xml} (h : xTidyB infer (.cont pres kids) x = true) :
    xTidyKids infer kids x.kids = true := by
  cases x
  rw [xTidyB] at h
  exact h

theorem xTidy_sound {infer : Str → PyVal} {S : Schema} {x : Xml} (h : XContradicts infer S x) (hO : Orderly S) : xTidyB infer S x = false := by
  induction h with
  | @twice pres kids x y z i k a b h1 h2 h3 h4 h5 h6 h7 =>
    rw [Bool.eq_false_iff]
    intro ht
    have hp : ∀ w, XIsFor kids w i → xPlace infer kids w = some (i, none) := by
      intro w hw
      rw [xPlace, xIsFor_idx hO.1 hw]
      obtain ⟨m, S⟩ := k
      simp only [Option.bind_some, h6]
      cases S with
      | leaf => rfl
      | cont => rfl
      | list => exact absurd trivial h7
      | leafList => exact absurd trivial h7
    have := xTidyKids_pair (xTidy_cont ht) h1 h2 h3 (hp y h4) (hp z h5)
    simp [xClash] at this
  | @sameKey pres kids x y z i m info ks k k' a b h1 h2 h3 h4 h5 h6 h7 h8 h9 =>
    rw [Bool.eq_false_iff]
    intro ht
    have hp : ∀ w q, XIsFor kids w i → xDocKey infer info ks w = some q → xPlace infer kids w = some (i, some q) := by
      intro w q hw hq
      rw [xPlace, xIsFor_idx hO.1 hw]
      simp only [Option.bind_some, h6, hq, Option.map_some]
    have := xTidyKids_pair (xTidy_cont ht) h1 h2 h3 (hp y _ h4 h7) (hp z _ h5 h8)
    simp [xClash, h9] at this
  | @rivals pres kids x y z i j k k' h1 h2 h3 h4 h5 h6 h7 =>
    rw [Bool.eq_false_iff]
    intro ht
    have := xTidyKids_rival (xTidy_cont ht) h1 h2
    simp [xRivalMembers, xIsFor_idx hO.1 h3, xIsFor_idx hO.1 h4, h5, h6, rivalB_of h7] at this
  | @inside pres kids x y i k h1 h2 h3 h4 ih =>
    rw [Bool.eq_false_iff]
    intro ht
    have := xTidyKids_mem (xTidy_cont ht) y h1 k (by rw [xIsFor_idx hO.1 h2]; exact h3)
    rw [ih (orderly_kid hO.2 (List.mem_of_getElem? h3))] at this
    simp at this
  | @entry info kids x h1 ih =>
    rw [Bool.eq_false_iff]
    intro ht
    have h2 := ih ⟨hO.1, hO.2.2⟩
    have e : xTidyB infer (.list info kids) x = xTidyB infer (.cont false kids) x := by cases x; simp only [xTidyB]
    rw [e, h2] at ht
    simp at ht

theorem xTidy_ok {infer : Str → PyVal} {S : Schema} {x : Xml} (hO : Orderly S) (h : xTidyB infer S x = true) : ¬ XContradicts infer S x :=
  fun hc => by rw [xTidy_sound hc hO] at h; simp at h

def xConcernsB (infer : Str → PyVal) : Schema → Xml → Path → Bool
  | _, _, [] => true
  | .cont _ kids, x, .field i :: p => x.kids.any fun y =>
      match kidIdx kids y.name, kids[i]? with
      | some i', some k => (decide (i' = i) && xConcernsB infer k.2 y p) || (match kids[i']? with | some k' => rivalB k'.1 k.1 | none => false)
      | _, _ => false
  | .list info kids, x, .key k' :: p => (xDocKey infer info kids x).any (pyEq · k') && xConcernsB infer (.cont false kids) x p
  | _, _, _ => false

theorem xConcerns_sound {infer : Str → PyVal} {S : Schema} {x : Xml} {p : Path} (h : XConcerns infer S x p) (hO : Orderly S) :
    xConcernsB infer S x p = true := by
  induction h with
  | here => simp [xConcernsB]
  | @field pres kids x y i k p h1 h2 h3 h4 ih =>
    simp only [xConcernsB, List.any_eq_true]
    refine ⟨y, h1, ?_⟩
    rw [xIsFor_idx hO.1 h2, h3]
    simp [ih (orderly_kid hO.2 (List.mem_of_getElem? h3))]
  | @rival pres kids x y i k i' k' p h1 h2 h3 h4 h5 =>
    simp only [xConcernsB, List.any_eq_true]
    refine ⟨y, h1, ?_⟩
    rw [xIsFor_idx hO.1 h2, h4]
    simp [h3, rivalB_of h5]
  | @entry info kids x k k' p h1 h2 h3 ih =>
    simp only [xConcernsB, h1, Option.any_some, h2, Bool.true_and]
    exact ih ⟨hO.1, hO.2.2⟩

theorem xSpares_of {infer : Str → PyVal} {S : Schema} {x : Xml} {p : Path} (hO : Orderly S) (h : xConcernsB infer S x p = false) : ¬ XConcerns infer S x p :=
  fun hc => by rw [xConcerns_sound hc hO] at h; simp at h

end Pyb
