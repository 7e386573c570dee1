import Verif.Model.Extensions
import Verif.Props.GenValue

/-! # C109: extension statements kept with a node -/

namespace Pyb
open Py

/-- The arguments of the statements of the extension, in their order. -/
def argsOf (m n : Str) (ss : List SubStmt) : List (Option Str) := (ss.filter fun s => s.keyword = .ext m n).map SubStmt.arg

theorem dictSet_lookup {V : Type} (k : Str) (v : V) (d : List (Str × V)) (x : Str) : (dictSet k v d).lookup x = if x = k then some v else d.lookup x := by
  induction d with
  | nil =>
    by_cases h : x = k
    · subst h; simp [dictSet, List.lookup]
    · have hb : (x == k) = false := by simpa using h
      simp [dictSet, List.lookup, h, hb]
  | cons p d ih =>
    obtain ⟨y, w⟩ := p
    unfold dictSet
    by_cases h : y = k
    · subst h
      by_cases h' : x = y
      · subst h'; simp [List.lookup]
      · have hb : (x == y) = false := by simpa using h'
        simp [List.lookup, h', hb]
    · rw [if_neg h]
      by_cases h' : x = y
      · subst h'; simp [List.lookup, h]
      · have hb : (x == y) = false := by simpa using h'
        simp only [List.lookup, hb, ih]

/-- What the dictionary has for an extension after one more statement. -/
def look (d : ExtDict) (m n : Str) : Option (Option Str) := (d.lookup m).bind fun e => e.lookup n

theorem addExt_look (interested : List Str) (d : ExtDict) (s : SubStmt) (m n : Str) :
    look (addExt interested d s) m n = if s.keyword.fst ∈ interested ∧ m = s.keyword.fst ∧ n = s.keyword.snd then some s.arg else look d m n := by
  unfold addExt
  by_cases hi : s.keyword.fst ∈ interested
  · rw [if_pos hi]
    simp only [look]
    by_cases hm : m = s.keyword.fst
    · by_cases hn : n = s.keyword.snd
      · simp [hi, hm, hn, dictSet_lookup]
      · cases q : d.lookup s.keyword.fst with
        | none => simp [hi, hm, hn, dictSet_lookup, q]
        | some e => simp [hi, hm, hn, dictSet_lookup, q]
    · cases q : d.lookup s.keyword.fst with
      | none => simp [hm, dictSet_lookup, q]
      | some e => simp [hm, dictSet_lookup, q]
  · rw [if_neg hi]; simp [hi]

theorem extArg_look (interested : List Str) (ss : List SubStmt) (m n : Str) : extArg interested ss m n = look (collectExts interested ss) m n := by
  unfold extArg objExtensions
  cases q : collectExts interested ss <;> simp [look]

/-- C109, in part: with modules of interest whose names have at least two characters, `_extensions()`
has, for each extension of each of them, the argument of the node's last statement of this extension,
and nothing else.  Missing: names of one character, and the statements before the last. -/
theorem C109_last_partial (interested : List Str) (hi : ∀ m ∈ interested, 2 ≤ m.length) (ss : List SubStmt) (m n : Str) :
    extArg interested ss m n = if m ∈ interested then (argsOf m n ss).getLast? else none := by
  rw [extArg_look]
  have gen : ∀ (ss : List SubStmt) (d : ExtDict), look (ss.foldl (addExt interested) d) m n =
      if m ∈ interested then ((argsOf m n ss).getLast?).or (look d m n) else look d m n := by
    intro ss
    induction ss with
    | nil => intro d; simp [argsOf]
    | cons s ss ih =>
      intro d
      rw [List.foldl_cons, ih, addExt_look]
      by_cases hm : m ∈ interested
      · rw [if_pos hm, if_pos hm]
        have hs : (s.keyword.fst ∈ interested ∧ m = s.keyword.fst ∧ n = s.keyword.snd) ↔ s.keyword = .ext m n := by
          cases hk : s.keyword with
          | ext a b =>
            simp only [Keyword.fst, Keyword.snd, Keyword.ext.injEq]
            exact ⟨fun ⟨_, h1, h2⟩ => ⟨h1.symm, h2.symm⟩, fun ⟨h1, h2⟩ => ⟨h1 ▸ hm, h1.symm, h2.symm⟩⟩
          | core t =>
            simp only [Keyword.fst, Keyword.snd, reduceCtorEq, iff_false]
            rintro ⟨h, _⟩
            have := hi _ h
            simp only [List.length_take] at this
            omega
        by_cases hk : s.keyword = .ext m n
        · rw [if_pos (hs.2 hk)]
          have : argsOf m n (s :: ss) = s.arg :: argsOf m n ss := by simp [argsOf, hk]
          rw [this, List.getLast?_cons]
          cases (argsOf m n ss).getLast? <;> simp
        · rw [if_neg (fun h => hk (hs.1 h))]
          have : argsOf m n (s :: ss) = argsOf m n ss := by simp [argsOf, hk]
          rw [this]
      · rw [if_neg hm, if_neg hm, if_neg]
        rintro ⟨h, rfl, _⟩
        exact hm h
  rw [collectExts, gen ss []]
  simp [look]

/-- C109: an extension that a node has once is found with its argument. -/
theorem C109_once_partial (interested : List Str) (hi : ∀ m ∈ interested, 2 ≤ m.length) (ss : List SubStmt) (m n : Str) (a : Option Str)
    (hm : m ∈ interested) (h : argsOf m n ss = [a]) : extArg interested ss m n = some a := by
  rw [C109_last_partial interested hi, if_pos hm, h]; rfl

/-- C109: `_extensions()` is `None` exactly if the node has no statement of an extension of the modules
of interest. -/
theorem C109_none_partial (interested : List Str) (hi : ∀ m ∈ interested, 2 ≤ m.length) (ss : List SubStmt) :
    objExtensions interested ss = none ↔ ∀ s ∈ ss, ∀ m n, s.keyword = .ext m n → m ∉ interested := by
  constructor
  · intro h s hs m n hk hm
    have h1 : extArg interested ss m n = none := by rw [extArg, h]; rfl
    rw [C109_last_partial interested hi, if_pos hm] at h1
    have h2 : argsOf m n ss = [] := by simpa using h1
    have : s.arg ∈ argsOf m n ss := List.mem_map.2 ⟨s, List.mem_filter.2 ⟨hs, by simpa using hk⟩, rfl⟩
    rw [h2] at this
    simp at this
  · intro h
    have e : ∀ (ss : List SubStmt), (∀ s ∈ ss, ∀ m n, s.keyword = .ext m n → m ∉ interested) → ss.foldl (addExt interested) [] = [] := by
      intro ss
      induction ss with
      | nil => intro _; rfl
      | cons s ss ih =>
        intro h
        have : addExt interested [] s = [] := by
          unfold addExt
          rw [if_neg]
          intro hf
          cases hk : s.keyword with
          | ext a b => rw [hk] at hf; exact h s (by simp) a b hk hf
          | core t =>
            rw [hk] at hf
            have := hi _ hf
            simp only [Keyword.fst, List.length_take] at this
            omega
        rw [List.foldl_cons, this]
        exact ih fun s hs => h s (by simp [hs])
    simp [objExtensions, collectExts, e ss h]

/-! ## Through the generated program -/

theorem mem_dictSet {V : Type} (k : Str) (v : V) (d : List (Str × V)) (x : Str × V) (h : x ∈ dictSet k v d) : x = (k, v) ∨ x ∈ d := by
  induction d with
  | nil => simpa [dictSet] using h
  | cons p d ih =>
    unfold dictSet at h
    split at h
    · rcases List.mem_cons.1 h with h | h
      · exact .inl h
      · exact .inr (by simp [h])
    · rcases List.mem_cons.1 h with h | h
      · exact .inr (by simp [h])
      · rcases ih h with h | h
        · exact .inl h
        · exact .inr (by simp [h])

theorem dictSet_nodup {V : Type} (k : Str) (v : V) (d : List (Str × V)) (h : (d.map Prod.fst).Nodup) : ((dictSet k v d).map Prod.fst).Nodup := by
  induction d with
  | nil => simp [dictSet]
  | cons p d ih =>
    rw [List.map_cons, List.nodup_cons] at h
    unfold dictSet
    split
    · rename_i e
      rw [List.map_cons, List.nodup_cons]
      exact ⟨by rw [← e]; exact h.1, h.2⟩
    · rename_i e
      rw [List.map_cons, List.nodup_cons]
      refine ⟨fun hm => ?_, ih h.2⟩
      obtain ⟨x, hx, hxe⟩ := List.mem_map.1 hm
      rcases mem_dictSet k v d x hx with h' | h'
      · exact e (by rw [← hxe, h'])
      · exact h.1 (hxe ▸ List.mem_map_of_mem h')

/-- No name is twice in the dictionary or in one of those in it. -/
def ExtApart (d : ExtDict) : Prop := (d.map Prod.fst).Nodup ∧ ∀ x ∈ d, (x.2.map Prod.fst).Nodup

theorem extApart_set {d : ExtDict} (h : ExtApart d) (k : Str) (e : List (Str × Option Str)) (he : (e.map Prod.fst).Nodup) : ExtApart (dictSet k e d) :=
  ⟨dictSet_nodup k e d h.1, fun x hx => by
    rcases mem_dictSet k e d x hx with h' | h'
    · rw [h']; exact he
    · exact h.2 x h'⟩

theorem mem_of_extLookup {V : Type} (d : List (Str × V)) (k : Str) (v : V) (h : d.lookup k = some v) : (k, v) ∈ d := by
  induction d with
  | nil => simp at h
  | cons p d ih =>
    obtain ⟨y, w⟩ := p
    by_cases e : k = y
    · subst e
      simp [List.lookup] at h
      simp [h]
    · have hb : (k == y) = false := by simpa using e
      simp only [List.lookup, hb] at h
      simp [ih h]

theorem extApart_add (interested : List Str) (d : ExtDict) (s : SubStmt) (h : ExtApart d) : ExtApart (addExt interested d s) := by
  have inner : ∀ d : ExtDict, ExtApart d → ExtApart (dictSet s.keyword.fst (dictSet s.keyword.snd s.arg ((d.lookup s.keyword.fst).getD [])) d) := by
    intro d h
    refine extApart_set h _ _ (dictSet_nodup _ _ _ ?_)
    cases q : d.lookup s.keyword.fst with
    | none => simp
    | some e => exact h.2 _ (mem_of_extLookup d _ e q)
  unfold addExt
  split
  · refine inner _ ?_
    split
    · exact h
    · exact extApart_set h _ _ (by simp)
  · exact h

theorem extApart_collect (interested : List Str) (ss : List SubStmt) : ExtApart (collectExts interested ss) := by
  have gen : ∀ (ss : List SubStmt) (d : ExtDict), ExtApart d → ExtApart (ss.foldl (addExt interested) d) := by
    intro ss
    induction ss with
    | nil => intro d h; exact h
    | cons s ss ih => intro d h; exact ih _ (extApart_add interested d s h)
  exact gen ss [] ⟨by simp, by simp⟩

theorem litPairs_get {V : Type} (f : V → Lit) (d : List (Str × V)) (h : (d.map Prod.fst).Nodup) (k : Str) : (litPairs f d).get k = (d.lookup k).map f := by
  induction d with
  | nil => rfl
  | cons p d ih =>
    obtain ⟨y, w⟩ := p
    rw [List.map_cons, List.nodup_cons] at h
    rw [litPairs, LitPairs.get, ih h.2]
    by_cases e : k = y
    · subst e
      have : d.lookup k = none := by
        cases q : d.lookup k with
        | none => rfl
        | some v => exact absurd (List.mem_map_of_mem (f := Prod.fst) (mem_of_extLookup d k v q)) h.1
      simp [this, List.lookup]
    · have hb : (k == y) = false := by simpa using e
      have e' : ¬ y = k := fun h => e h.symm
      simp [List.lookup, hb, e']

/-- C109, from the statements of the module to what the generated program hands to the object: Python
reads the text behind `extensions=` as a value in which, for each extension of the modules of interest,
there is the argument of the node's last statement of it, and nothing else; it is `None` if the node has
none. -/
theorem C109_program_partial (interested : List Str) (hi : ∀ m ∈ interested, 2 ≤ m.length) (ss : List SubStmt)
    (names : Str → Option Char) (printable : Char → Bool) (c : Char) (hc : c ∈ [',', ')', ']', '}']) (rest : Str) :
    ∃ v : Lit, (∃ n, ∀ f ≥ n, readVal names f (srcNewlines ((extLit (objExtensions interested ss)).repr printable ++ c :: rest)) = some (v, srcNewlines (c :: rest))) ∧
      (v = .none ↔ ∀ s ∈ ss, ∀ m n, s.keyword = .ext m n → m ∉ interested) ∧
      ∀ m n, (v.get m).bind (Lit.get n) =
        if m ∈ interested then ((argsOf m n ss).getLast?).map (fun a => a.elim Lit.none Lit.str) else none := by
  refine ⟨extLit (objExtensions interested ss), C90_values names printable _ c hc rest, ?_, fun m n => ?_⟩
  · rw [← C109_none_partial interested hi]
    cases objExtensions interested ss <;> simp [extLit]
  · have h : (if m ∈ interested then ((argsOf m n ss).getLast?).map (fun a => a.elim Lit.none Lit.str) else none) =
        (extArg interested ss m n).map fun a => a.elim Lit.none Lit.str := by
      rw [C109_last_partial interested hi]
      split <;> rfl
    rw [h, extArg]
    cases q : objExtensions interested ss with
    | none => simp [extLit, Lit.get]
    | some d =>
      have hd : ExtApart d := by
        unfold objExtensions at q
        split at q
        · simp at q
        · rw [← Option.some.inj q]; exact extApart_collect interested ss
      simp only [extLit, Lit.get, litPairs_get _ d hd.1, Option.bind_some]
      cases q' : d.lookup m with
      | none => rfl
      | some e =>
        simp only [Option.map_some, Option.bind_some, Lit.get, litPairs_get _ e (hd.2 _ (mem_of_extLookup d m e q'))]
        congr 1
        funext a
        cases a <;> rfl

/-- C109 is false for an extension that a node has more than once: of all its statements only the last
is kept. -/
theorem C109_repeated_refuted (interested : List Str) (m n : Str) (hm : m ∈ interested) (hi : ∀ m ∈ interested, 2 ≤ m.length) (a b : Option Str)
    (ss : List SubStmt) (h : argsOf m n ss = [a, b]) : extArg interested ss m n = some b := by
  rw [C109_last_partial interested hi, if_pos hm, h]; rfl

/-- C109 is false with a module of interest whose name is one letter: statements of YANG itself that
start with it are taken for its extensions, `leaf one` for `l:e "one"`. -/
theorem C109_letter_refuted (c d : Char) (rest : Str) (a : Option Str) (ss : List SubStmt)
    (h : ∀ s ∈ ss, s.keyword.fst ≠ [c]) : extArg [[c]] (⟨.core (c :: d :: rest), a⟩ :: ss) [c] [d] = some a := by
  rw [extArg_look, collectExts, List.foldl_cons]
  have gen : ∀ (ss : List SubStmt) (x : ExtDict), (∀ s ∈ ss, s.keyword.fst ≠ [c]) → ss.foldl (addExt [[c]]) x = x := by
    intro ss
    induction ss with
    | nil => intro x _; rfl
    | cons s ss ih =>
      intro x h
      have : addExt [[c]] x s = x := by
        unfold addExt
        rw [if_neg (by simpa using h s (by simp))]
      rw [List.foldl_cons, this]
      exact ih x fun s hs => h s (by simp [hs])
  rw [gen ss _ h, addExt_look, if_pos (by simp [Keyword.fst, Keyword.snd])]

/-! The leaf of docs/usage.md:78-86, with a statement of another module and one without an argument
added. -/

def extLeaf : List SubStmt :=
  [⟨.ext py!"example-extension" py!"descr-flag", some py!"d"⟩, ⟨.ext py!"example-extension" py!"descr-order", some py!"100"⟩,
   ⟨.core py!"type", some py!"string"⟩, ⟨.ext py!"other" py!"descr-flag", some py!"two"⟩, ⟨.ext py!"example-extension" py!"hidden", none⟩]

example : (∀ m ∈ [py!"example-extension"], 2 ≤ m.length) ∧ argsOf py!"example-extension" py!"descr-flag" extLeaf = [some py!"d"] ∧
    objExtensions [py!"example-extension"] extLeaf =
      some [(py!"example-extension", [(py!"descr-flag", some py!"d"), (py!"descr-order", some py!"100"), (py!"hidden", none)])] ∧
    extArg [py!"example-extension"] extLeaf py!"other" py!"descr-flag" = none ∧ objExtensions [py!"absent"] extLeaf = none := by decide

example : ',' ∈ [',', ')', ']', '}'] ∧ (extLit (objExtensions [py!"example-extension"] extLeaf)).repr (fun _ => true) =
    py!"{'example-extension': {'descr-flag': 'd', 'descr-order': '100', 'hidden': None}}" := by decide

/-- A leaf with two statements of one extension. -/
example : argsOf py!"ext" py!"tag" [⟨.ext py!"ext" py!"tag", some py!"a"⟩, ⟨.core py!"type", some py!"string"⟩, ⟨.ext py!"ext" py!"tag", some py!"b"⟩] =
    [some py!"a", some py!"b"] := by decide

/-- A container with the one leaf `one`, and a module of interest named `l`. -/
example : (∀ s ∈ [(⟨.core py!"description", some py!"x"⟩ : SubStmt)], s.keyword.fst ≠ ['l']) ∧
    extArg [py!"l"] [⟨.core py!"leaf", some py!"one"⟩, ⟨.core py!"description", some py!"x"⟩] py!"l" py!"e" = some (some py!"one") := by decide

end Pyb
