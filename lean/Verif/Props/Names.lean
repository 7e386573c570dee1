import Verif.Lemmas.Names

/-! # C01–C05: names -/

namespace Pyb
open Py Spec

/-! ## C01 attribute names are legal and stable -/

/-- Converting a converted name changes nothing. -/
theorem C01_safe_name_idempotent (s : Str) : safeName (safeName s) = safeName s := by
  rw [safeName_eq s]
  split
  · rename_i h
    rw [safeName_eq, under_append, under_under]
    have : under py!"_" = py!"_" := by decide
    rw [this, if_neg (reserved_append _ h)]
  · rename_i h
    rw [safeName_eq, under_under, if_neg h]

/-- The name exposed is never one of pyangbind's reserved words. -/
theorem C01_safe_name_not_reserved (s : Str) : safeName s ∉ reservedName := by
  rw [safeName_eq]
  split
  · rename_i h; exact reserved_append _ h
  · assumption

/-- The name exposed for a YANG identifier is a Python identifier. -/
theorem C01_safe_name_identifier (s : Str) (h : isYangIdentifier s = true) :
    isPyIdentifier (safeName s) = true := by
  have key : isPyIdentifier (under s) = true := by
    rw [under_eq_map]
    cases s with
    | nil => simp [isYangIdentifier] at h
    | cons c cs =>
      simp only [isYangIdentifier, Bool.and_eq_true, List.all_eq_true] at h
      simp only [List.map_cons, isPyIdentifier, Bool.and_eq_true, List.all_eq_true, List.mem_map]
      refine ⟨?_, ?_⟩
      · have : blur c = c := by
          have h1 := h.1
          unfold blur
          split
          · subst_vars; simp [isAlpha] at h1
          · split
            · subst_vars; simp [isAlpha] at h1
            · rfl
        rw [this]; exact h.1
      · rintro d ⟨e, he, rfl⟩
        have := h.2 e he
        unfold blur; split
        · simp
        · split
          · simp
          · simp_all
  rw [safeName_eq]
  split
  · cases hu : under s with
    | nil => rw [hu] at key; simp [isPyIdentifier] at key
    | cons c cs =>
      rw [hu] at key
      simp only [isPyIdentifier, Bool.and_eq_true, List.all_eq_true] at key
      simp only [List.cons_append, isPyIdentifier, Bool.and_eq_true, List.all_eq_true,
        List.mem_append]
      refine ⟨key.1, ?_⟩
      rintro x (hx | hx)
      · exact key.2 x hx
      · simp at hx; simp [hx]
  · exact key

example : isYangIdentifier py!"oc-if.v2_class" = true := by decide

/-- The full claim "never a Python keyword" is false: five keywords are missing
from the reserved table, so e.g. a leaf called `await` is emitted as `await = ...`. -/
theorem C01_keyword_refuted :
    ∃ s, isYangIdentifier s = true ∧ safeName s ∈ pyKeywords := ⟨py!"await", by decide⟩

/-- Every YANG identifier other than `False`, `None`, `True`, `await`, `nonlocal`
gets a name that is not a Python keyword, and those five are exactly the failures. -/
theorem C01_not_keyword_partial (s : Str) :
    safeName s ∈ pyKeywords ↔
      s ∈ [py!"False", py!"None", py!"True", py!"await", py!"nonlocal"] := by
  constructor
  · intro h
    rw [safeName_eq] at h
    split at h
    · exfalso
      have : ∀ r ∈ reservedName, r ++ py!"_" ∉ pyKeywords := by decide
      exact this _ ‹_› h
    · rename_i hr
      have h2 : ∀ k ∈ pyKeywords, k ∉ reservedName →
          k ∈ [py!"False", py!"None", py!"True", py!"await", py!"nonlocal"] := by decide
      have h3 := h2 _ h hr
      have h4 : ∀ k ∈ [py!"False", py!"None", py!"True", py!"await", py!"nonlocal"],
          '_' ∉ k := by decide
      have h5 : under s = s := by
        apply under_of_clean
        intro c hc
        have hm : blur c ∈ under s := by rw [under_eq_map]; exact List.mem_map_of_mem hc
        have hne : blur c ≠ '_' := fun he => h4 _ h3 (he ▸ hm)
        constructor
        · rintro rfl; exact hne (by decide)
        · rintro rfl; exact hne (by decide)
      rw [h5] at h3; exact h3
  · have : ∀ k ∈ [py!"False", py!"None", py!"True", py!"await", py!"nonlocal"],
        safeName k ∈ pyKeywords := by decide
    exact this s

/-! ## C02 collisions -/

/-- Two names collide iff they differ only by `-`/`.`/`_`, or one is (up to that)
a reserved word and the other that word with one more blurred character. -/
theorem C02_collision_iff (a b : Str) :
    safeName a = safeName b ↔
      confusable a b = true ∨
      (∃ r ∈ reservedName, confusable a r = true ∧ confusable b (r ++ py!"_") = true) ∨
      (∃ r ∈ reservedName, confusable b r = true ∧ confusable a (r ++ py!"_") = true) := by
  have hr : ∀ r ∈ reservedName, under (r ++ py!"_") = r ++ py!"_" := by
    intro r h; rw [under_append, reserved_under r h]; rfl
  simp only [← under_eq_iff]
  constructor
  · intro h
    rw [safeName_eq, safeName_eq] at h
    split at h <;> split at h
    · left; exact List.append_cancel_right h
    · rename_i h1 h2
      right; left
      exact ⟨under a, h1, (under_under a).symm, by rw [hr _ h1]; exact h.symm⟩
    · rename_i h1 h2
      right; right
      exact ⟨under b, h2, (under_under b).symm, by rw [hr _ h2]; exact h⟩
    · left; exact h
  · rintro (h | ⟨r, hm, h1, h2⟩ | ⟨r, hm, h1, h2⟩)
    · rw [safeName_eq, safeName_eq, h]
    · rw [hr r hm] at h2
      rw [reserved_under r hm] at h1
      rw [safeName_eq a, safeName_eq b, h1, h2, if_pos hm, if_neg (reserved_append r hm)]
    · rw [hr r hm] at h2
      rw [reserved_under r hm] at h1
      rw [safeName_eq a, safeName_eq b, h1, h2, if_pos hm, if_neg (reserved_append r hm)]

/-- In particular names made of letters and digits never collide. -/
theorem C02_injective_on_alphanumeric (a b : Str) (ha : ∀ c ∈ a, blurred c = false)
    (hb : ∀ c ∈ b, blurred c = false) (h : safeName a = safeName b) : a = b := by
  have key : ∀ s t : Str, (∀ c ∈ s, blurred c = false) → confusable s t = true → s = t := by
    intro s
    induction s with
    | nil => intro t _ h; cases t <;> simp_all [confusable]
    | cons c cs ih =>
      intro t hs h
      cases t with
      | nil => simp [confusable] at h
      | cons d ds =>
        simp only [confusable, hs c (by simp), Bool.and_eq_true, Bool.false_and, Bool.or_false,
          decide_eq_true_eq] at h
        rw [h.1, ih ds (fun x hx => hs x (by simp [hx])) h.2]
  rcases (C02_collision_iff a b).1 h with h | ⟨r, hm, h1, h2⟩ | ⟨r, hm, h1, h2⟩
  · exact key a b ha h
  · have := key b _ hb h2
    have h3 : '_' ∈ b := by rw [this]; simp
    have := hb _ h3; simp [blurred] at this
  · have := key a _ ha h2
    have h3 : '_' ∈ a := by rw [this]; simp
    have := ha _ h3; simp [blurred] at this

/-- The two collision classes are inhabited. -/
theorem C02_collision_witnesses :
    safeName py!"a-b" = safeName py!"a.b" ∧ py!"a-b" ≠ py!"a.b" ∧
    safeName py!"list" = safeName py!"list-" ∧ py!"list" ≠ py!"list-" := by decide

/-! ## C03 list key attributes -/

/-- The attribute names a list uses for its keys are the attribute names of the
key leaves, for a single key and for several keys none of which is reserved; and
with a reserved key among several it fails. -/
theorem C03_key_attrs_partial (keys : List Str) (hne : keys ≠ [])
    (hsp : ∀ k ∈ keys, ' ' ∉ k) :
    keyAttrs keys = keys.map safeName ↔
      (keys.length = 1 ∨ ∀ k ∈ keys, safeName k = replaceChar '.' '_' (replaceChar '-' '_' k)) := by
  have hspu : ∀ k ∈ keys, ' ' ∉ under k := by
    intro k hk hm
    rcases mem_under hm with h | h
    · exact hsp k hk h
    · revert h; decide
  cases keys with
  | nil => exact absurd rfl hne
  | cons k ks =>
    cases ks with
    | nil =>
      simp only [keyAttrs, keyAttrString, join, List.map_cons, List.map_nil, List.length_cons,
        List.length_nil, Nat.zero_add, true_or, iff_true]
      apply splitOn_of_not_mem
      rw [safeName_eq]
      split
      · simp only [List.mem_append, List.mem_singleton, not_or]
        exact ⟨hspu k (by simp), by decide⟩
      · exact hspu k (by simp)
    | cons k2 ks =>
      have hmap : under (join py!" " (k :: k2 :: ks)) = join py!" " ((k :: k2 :: ks).map under) := by
        generalize k :: k2 :: ks = l
        induction l with
        | nil => rfl
        | cons x xs ih =>
          cases xs with
          | nil => rfl
          | cons y ys =>
            simp only [List.map_cons, join, under_append] at ih ⊢
            rw [ih]; rfl
      have hnr : under (join py!" " (k :: k2 :: ks)) ∉ reservedName := by
        intro hm
        apply reserved_no_space _ hm
        rw [hmap]; simp [join]
      have hka : keyAttrs (k :: k2 :: ks) = (k :: k2 :: ks).map under := by
        rw [keyAttrs, keyAttrString, safeName_eq, if_neg hnr, hmap]
        apply splitOn_join _ _ (by simp)
        intro p hp
        rw [List.mem_map] at hp
        obtain ⟨q, hq, rfl⟩ := hp
        exact hspu q hq
      rw [hka]
      constructor
      · intro h
        right
        intro x hx
        have := List.map_inj_left.1 h x hx
        exact this.symm
      · rintro (h | h)
        · simp at h
        · apply List.map_congr_left
          intro x hx
          exact (h x hx).symm

example : (∀ k ∈ [py!"src-ip", py!"port"], ' ' ∉ k) ∧
    keyAttrs [py!"src-ip", py!"port"] = [py!"src_ip", py!"port"] := by decide

/-- The full claim fails: with keys `list` and `foo` the list looks for an
attribute `list`, but the entry has `list_`. -/
theorem C03_key_attrs_refuted :
    keyAttrs [py!"list", py!"foo"] ≠ [py!"list", py!"foo"].map safeName := by decide

/-! ## C04 class names -/

/-- Two different containers `/a/b/c` and `/a-b/c` get the same class name, so one
class definition overwrites the other. -/
theorem C04_class_name_refuted :
    className py!"m" [py!"a", py!"b", py!"c"] = className py!"m" [py!"a-b", py!"c"] ∧
    [py!"a", py!"b", py!"c"] ≠ [py!"a-b", py!"c"] := by decide

/-- When no identifier contains `-`, `.`, `_` (or `/`), distinct schema paths of a
module get distinct class names. -/
theorem C04_class_name_partial (m : Str) (p q : List Str) (hp : p ≠ []) (hq : q ≠ [])
    (cp : ∀ n ∈ p, ∀ c ∈ n, c ≠ '-' ∧ c ≠ '.' ∧ c ≠ '_' ∧ c ≠ '/')
    (cq : ∀ n ∈ q, ∀ c ∈ n, c ≠ '-' ∧ c ≠ '.' ∧ c ≠ '_' ∧ c ≠ '/')
    (h : className m p = className m q) : p = q := by
  unfold className at h
  rw [replace_nodePath p cp, replace_nodePath q cq, safeName_underPath p cp,
    safeName_underPath q cq] at h
  have lastOf : ∀ (ns : List Str), ns ≠ [] → (∀ n ∈ ns, cleanName n) → ∀ a : Str,
      (splitOn '_' (a ++ py!"_" ++ underPath ns)).getLast? = some (ns.getLastD []) := by
    intro ns hne hc a
    rw [List.append_assoc, List.singleton_append, getLast?_splitOn_append]
    have := splitOn_underPath ns hc [] (by simp)
    rw [List.nil_append] at this
    rw [this]
    cases ns with
    | nil => exact absurd rfl hne
    | cons x xs => simp [List.getLast?_cons]
  have hl : p.getLastD [] = q.getLastD [] := by
    have h1 := lastOf p hp cp (py!"yc_" ++ safeName (p.getLastD []) ++ py!"_" ++ safeName m)
    have h2 := lastOf q hq cq (py!"yc_" ++ safeName (q.getLastD []) ++ py!"_" ++ safeName m)
    rw [h, h2] at h1
    exact (Option.some.inj h1).symm
  rw [hl] at h
  have h3 := List.append_cancel_left h
  have h4 := splitOn_underPath p cp [] (by simp)
  have h5 := splitOn_underPath q cq [] (by simp)
  rw [List.nil_append] at h4 h5
  rw [h3, h5] at h4
  exact ((List.cons.inj h4).2).symm

example : className py!"m" [py!"list", py!"b"] ≠ className py!"m" [py!"b"] := by decide

/-! ## C05 extension-method paths -/

/-- An instance path step: a node name followed by predicate text (empty, or
starting with `[`).  Removing the attributes of a path gives the node names. -/
theorem C05_remove_path_attributes (steps : List (Str × Str))
    (hn : ∀ s ∈ steps, '[' ∉ s.1)
    (hp : ∀ s ∈ steps, s.2 = [] ∨ s.2.head? = some '[') :
    removePathAttributes (steps.map fun s => s.1 ++ s.2) = steps.map Prod.fst := by
  rw [removePathAttributes, List.map_map]
  apply List.map_congr_left
  intro s hs
  simp only [Function.comp]
  rcases hp s hs with h | h
  · simp [h, hn s hs]
  · cases h2 : s.2 with
    | nil => simp [h2] at h
    | cons c cs =>
      rw [h2] at h
      simp at h; subst h
      rw [if_pos (by simp), headD_splitOn_append _ _ _ (hn s hs)]

example : (∀ s ∈ [(py!"if", py!"[name='a[/0]']"), (py!"cfg", py!"")],
    '[' ∉ s.1 ∧ (s.2 = [] ∨ s.2.head? = some '[')) := by decide

end Pyb
