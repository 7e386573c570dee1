import Verif.Model.Names
import Verif.Spec.Names
import Verif.Lemmas.Str

namespace Pyb
open Py Spec

/-- The character map of `safe_name`. -/
def under (s : Str) : Str := replaceChar '.' '_' (replaceChar '-' '_' s)

theorem safeName_eq (s : Str) :
    safeName s = if under s ∈ reservedName then under s ++ py!"_" else under s := rfl

def blur (c : Char) : Char := if c = '-' then '_' else if c = '.' then '_' else c

theorem under_eq_map (s : Str) : under s = s.map blur := by
  simp only [under, replaceChar, List.map_map]
  apply List.map_congr_left
  intro c _
  simp only [Function.comp, blur]
  split
  · rename_i h; subst h; decide
  · rfl

theorem blur_blur (c : Char) : blur (blur c) = blur c := by
  unfold blur; split <;> (try split) <;> simp_all

theorem under_under (s : Str) : under (under s) = under s := by
  simp [under_eq_map, blur_blur]

theorem under_append (s t : Str) : under (s ++ t) = under s ++ under t := by
  simp [under_eq_map]

theorem reserved_under : ∀ r ∈ reservedName, under r = r := by decide
theorem reserved_append : ∀ r ∈ reservedName, r ++ py!"_" ∉ reservedName := by decide
theorem reserved_head : ∀ r ∈ reservedName, r.head? ≠ some '_' := by decide
theorem reserved_no_space : ∀ r ∈ reservedName, ' ' ∉ r := by decide
theorem reserved_no_slash : ∀ r ∈ reservedName, '/' ∉ r := by decide

theorem under_of_clean {s : Str} (h : ∀ c ∈ s, c ≠ '-' ∧ c ≠ '.') : under s = s := by
  rw [under_eq_map]
  conv => rhs; rw [← List.map_id s]
  apply List.map_congr_left
  intro c hc
  simp [blur, (h c hc).1, (h c hc).2]

theorem blur_eq_iff (c d : Char) : blur c = blur d ↔ c = d ∨ (blurred c ∧ blurred d) := by
  unfold blur blurred
  by_cases h1 : c = '-' <;> by_cases h2 : c = '.' <;> by_cases h3 : d = '-' <;>
    by_cases h4 : d = '.' <;> simp_all <;> (try subst_vars) <;> (try simp) <;> grind

theorem under_eq_iff (s t : Str) : under s = under t ↔ confusable s t = true := by
  rw [under_eq_map, under_eq_map]
  induction s generalizing t with
  | nil => cases t <;> simp [confusable]
  | cons c cs ih =>
    cases t with
    | nil => simp [confusable]
    | cons d ds =>
      simp only [List.map_cons, List.cons.injEq, ih, blur_eq_iff, confusable]
      simp

theorem mem_under {c : Char} {s : Str} (h : c ∈ under s) : c ∈ s ∨ c = '_' := by
  rw [under_eq_map, List.mem_map] at h
  obtain ⟨d, hd, rfl⟩ := h
  unfold blur; split <;> (try split) <;> simp_all

theorem getLast?_splitOn_append (sep : Char) (a b : Str) :
    (splitOn sep (a ++ sep :: b)).getLast? = (splitOn sep b).getLast? := by
  induction a with
  | nil =>
    simp only [List.nil_append, splitOn, if_true]
    cases h : splitOn sep b with
    | nil => exact absurd h (splitOn_ne_nil _ _)
    | cons p ps => simp
  | cons c cs ih =>
    simp only [List.cons_append, splitOn]
    split
    · cases h : splitOn sep (cs ++ sep :: b) with
      | nil => exact absurd h (splitOn_ne_nil _ _)
      | cons p ps => rw [h] at ih; simp [← ih]
    · cases h : splitOn sep (cs ++ sep :: b) with
      | nil => exact absurd h (splitOn_ne_nil _ _)
      | cons p ps =>
        rw [h] at ih
        cases ps with
        | nil =>
          -- impossible: the separator occurs
          have : (splitOn sep (cs ++ sep :: b)).length ≥ 2 := by
            clear ih h
            induction cs with
            | nil =>
              simp only [List.nil_append, splitOn, if_true, List.length_cons]
              have := List.length_pos_iff.2 (splitOn_ne_nil sep b); omega
            | cons x xs ihx =>
              simp only [List.cons_append, splitOn]
              split
              · simp; omega
              · split
                · rename_i h; exact absurd h (splitOn_ne_nil _ _)
                · rename_i h; rw [h] at ihx; simpa using ihx
          rw [h] at this; simp at this
        | cons q qs => simpa using ih

/-- The path with `/` replaced, for clean names. -/
def underPath : List Str → Str
  | [] => []
  | x :: xs => '_' :: x ++ underPath xs

/-- A name free of the characters that `safe_name` and the path flattening blur. -/
def cleanName (s : Str) : Prop := ∀ c ∈ s, c ≠ '-' ∧ c ≠ '.' ∧ c ≠ '_' ∧ c ≠ '/'

theorem replace_nodePath (ns : List Str) (h : ∀ n ∈ ns, cleanName n) :
    replaceChar '/' '_' (nodePath ns) = underPath ns := by
  induction ns with
  | nil => rfl
  | cons x xs ih =>
    have hx := h x (by simp)
    rw [nodePath, underPath, replaceChar_append, ih (fun n hn => h n (by simp [hn]))]
    congr 1
    have : replaceChar '/' '_' x = x := replaceChar_of_not_mem (fun hm => (hx _ hm).2.2.2 rfl)
    simp only [replaceChar, List.map_cons, if_true] at this ⊢
    rw [this]

theorem underPath_clean (ns : List Str) (h : ∀ n ∈ ns, cleanName n) :
    ∀ c ∈ underPath ns, c ≠ '-' ∧ c ≠ '.' := by
  induction ns with
  | nil => simp [underPath]
  | cons x xs ih =>
    intro c hc
    simp only [underPath, List.cons_append, List.mem_cons, List.mem_append] at hc
    rcases hc with rfl | hc | hc
    · decide
    · exact ⟨(h x (by simp) c hc).1, (h x (by simp) c hc).2.1⟩
    · exact ih (fun n hn => h n (by simp [hn])) c hc

theorem safeName_underPath (ns : List Str) (h : ∀ n ∈ ns, cleanName n) :
    safeName (underPath ns) = underPath ns := by
  rw [safeName_eq, under_of_clean (underPath_clean ns h), if_neg]
  intro hm
  cases ns with
  | nil => revert hm; decide
  | cons x xs => exact reserved_head _ hm rfl

theorem splitOn_underPath (ns : List Str) (h : ∀ n ∈ ns, cleanName n) (a : Str) (ha : '_' ∉ a) :
    splitOn '_' (a ++ underPath ns) = a :: ns := by
  induction ns generalizing a with
  | nil => simp [underPath, splitOn_of_not_mem ha]
  | cons x xs ih =>
    rw [underPath, List.cons_append, splitOn_append_sep _ _ _ ha]
    rw [ih (fun n hn => h n (by simp [hn])) x (fun hm => (h x (by simp) _ hm).2.2.1 rfl)]

end Pyb
