import Verif.Lemmas.Collect

/-! # C92 -/

namespace Pyb
open Py Spec

/-- C92.  For modules whose imports do not run in circles, the collection ends, and the
definitions collected are those of the modules needed: whatever a needed module or its
submodules can name with a prefix has an entry under that name, and every entry is a
definition of that name in a module that prefix stands for. -/
theorem C92_collected (r : Repo) (d : StmKw) (roots : List Str) (hok : ModsOk r d roots) (hac : Acyclic r) :
    ∃ f ds, (∀ g, gather r d (f + g) roots = some (.ok ds))
      ∧ (∀ n p x m s, Needed r roots n → Sees r n p x → r x = some m → DeclaresNA d m.body s → (ds.get? (p ++ ':' :: s.arg)).isSome = true)
      ∧ ∀ k s, ds.get? k = some s → ∃ n p x m, Needed r roots n ∧ Sees r n p x ∧ r x = some m ∧ DeclaresNA d m.body s ∧ k = p ++ ':' :: s.arg := by
  obtain ⟨rank, hr⟩ := hac
  obtain ⟨b, hb⟩ : ∃ b, ∀ n ∈ roots, rank n < b := by
    clear hok
    induction roots with
    | nil => exact ⟨0, by simp⟩
    | cons n rs ih =>
      obtain ⟨b, hb⟩ := ih
      refine ⟨rank n + b + 1, ?_⟩
      intro k hk
      rcases List.mem_cons.1 hk with h | h
      · subst h; omega
      · have := hb k h; omega
  have hpfx : ∀ n m, r n = some m → ∃ p, m.localPrefix = .ok p := fun n m h =>
    (hok.pfx n m h).imp fun p hp => (localPrefix_iff m p).2 hp
  obtain ⟨f, l, hrun, hl⟩ := gatherLoop_done hpfx hr b roots [] hb hok.found
  have hneed : ∀ n, Needed r roots n → ∃ m q, r n = some m ∧ m.localPrefix = .ok q := by
    intro n hn
    have : (r n).isSome = true := by
      cases hn with
      | root _ h => exact hok.found _ h
      | imported _ _ _ _ _ _ hi => exact hi.choose_spec.2.2
    obtain ⟨m, hm⟩ := Option.isSome_iff_exists.1 this
    obtain ⟨q, hq⟩ := hpfx n m hm
    exact ⟨m, q, hm, hq⟩
  have hargs : ∀ x m, r x = some m → ∀ s ∈ meet d m.body, ':' ∉ s.arg := fun x m hx s hs =>
    hok.names x m s hx (declares_of_meet hs).declares
  refine ⟨f, defsFrom r d (dropSame l), ?_, ?_, ?_⟩
  · intro g
    have := gatherLoop_mono f roots [] _ hrun g
    rw [gather, this, List.nil_append]
    rfl
  · intro n p x m s hn hs hx hd
    rw [Option.isSome_iff_exists, defsFrom_eq]
    obtain ⟨mn, q, hmn, hq⟩ := hneed n hn
    refine defsFold_has _ _ _ (Or.inr ⟨p, x, m, ?_, hx, findDefs_has (hargs x m hx) hd⟩)
    rw [mem_dropSame, hl]
    exact ⟨n, hn, (mem_outs hmn hq).2 hs⟩
  · intro k s hk
    rw [defsFrom_eq] at hk
    rcases defsFold_sound _ _ _ _ hk with h | ⟨p, x, m, h1, h2, h3⟩
    · simp at h
    · rw [mem_dropSame, hl] at h1
      obtain ⟨n, hn, hy⟩ := h1
      obtain ⟨mn, q, hmn, hq⟩ := hneed n hn
      obtain ⟨h4, h5⟩ := findDefs_sound (hargs x m h2) h3
      exact ⟨n, p, x, m, hn, (mem_outs hmn hq).1 hy, h2, h4, h5⟩

/-- C92, in part.  If moreover a qualified name means one definition, each is found under
every name that a needed module has for it.  What is missing: definitions inside an
`action`, names defined in two scopes of one module, prefixes that stand for different
modules in different places, and submodules included only by other submodules
(`C92_action_refuted`, `C92_scope_refuted`, `C92_prefix_refuted`, `C92_nested_refuted`). -/
theorem C92_definitions_partial (r : Repo) (d : StmKw) (roots : List Str) (hok : ModsOk r d roots) (hac : Acyclic r)
    (hone : PrefixOnce r d roots) :
    ∃ f ds, (∀ g, gather r d (f + g) roots = some (.ok ds))
      ∧ ∀ n p x m s, Needed r roots n → Sees r n p x → r x = some m → DeclaresNA d m.body s → ds.get? (p ++ ':' :: s.arg) = some s := by
  obtain ⟨f, ds, h1, h2, h3⟩ := C92_collected r d roots hok hac
  refine ⟨f, ds, h1, ?_⟩
  intro n p x m s hn hs hx hd
  obtain ⟨t, ht⟩ := Option.isSome_iff_exists.1 (h2 n p x m s hn hs hx hd)
  obtain ⟨n', p', x', m', hn', hs', hx', hd', hk⟩ := h3 _ _ ht
  obtain ⟨e1, e2⟩ := defKey_inj (hok.plain _ _ _ hs) (hok.plain _ _ _ hs') hk
  subst e1
  rw [ht, hone n n' p x x' m m' s t hn hn' hs hs' hx hx' hd hd' e2]

/-! ## Modules for the examples -/

namespace CollectEx

def td (n : Str) (subs : List Stm) : Stm := .mk .typedef_ n false subs
def ty (n : Str) : Stm := .mk .other n false []

/-- Module `a` (prefix `a`) has a submodule `as`, which imports `b` as `x`; `b` has the
prefix `b` and a typedef in a container. -/
def modA : Mod := ⟨some py!"a", none, [], [py!"as"], [td py!"t" [ty py!"string"]]⟩
def modAs : Mod := ⟨none, some py!"a", [(py!"x", py!"b")], [], [td py!"u" [ty py!"string"]]⟩
def modB : Mod := ⟨some py!"b", none, [], [], [.mk .container_ py!"c" true [td py!"t" [ty py!"int8"]]]⟩
def repo : Repo := fun n => if n = py!"a" then some modA else if n = py!"as" then some modAs else if n = py!"b" then some modB else none

theorem repo_cases {n : Str} {m : Mod} (h : repo n = some m) : (n = py!"a" ∧ m = modA) ∨ (n = py!"as" ∧ m = modAs) ∨ (n = py!"b" ∧ m = modB) := by
  unfold repo at h
  by_cases h1 : n = py!"a"
  · rw [if_pos h1] at h; cases h; exact Or.inl ⟨h1, rfl⟩
  · rw [if_neg h1] at h
    by_cases h2 : n = py!"as"
    · rw [if_pos h2] at h; cases h; exact Or.inr (Or.inl ⟨h2, rfl⟩)
    · rw [if_neg h2] at h
      by_cases h3 : n = py!"b"
      · rw [if_pos h3] at h; cases h; exact Or.inr (Or.inr ⟨h3, rfl⟩)
      · rw [if_neg h3] at h; simp at h

theorem imports_cases {s p x : Str} (h : Imports repo s p x) : s = py!"as" ∧ p = py!"x" ∧ x = py!"b" := by
  obtain ⟨m, hm, hp, _⟩ := h
  rcases repo_cases hm with ⟨_, rfl⟩ | ⟨hs, rfl⟩ | ⟨_, rfl⟩
  · simp [modA] at hp
  · simp [modAs] at hp
    exact ⟨hs, hp.1, hp.2⟩
  · simp [modB] at hp

theorem part_cases {n s : Str} (h : PartOf repo n s) : s = n ∨ (n = py!"a" ∧ s = py!"as") := by
  rcases h with h | ⟨m, hm, hs, _⟩
  · exact Or.inl h
  · rcases repo_cases hm with ⟨hn, rfl⟩ | ⟨_, rfl⟩ | ⟨_, rfl⟩
    · simp [modA] at hs; exact Or.inr ⟨hn, hs⟩
    · simp [modAs] at hs
    · simp [modB] at hs

theorem acyclic : Acyclic repo := by
  refine ⟨fun n => if n = py!"b" then 0 else 1, ?_⟩
  intro n s p x hs hi
  obtain ⟨h1, _, h3⟩ := imports_cases hi
  subst h3
  have : n ≠ py!"b" := by
    rcases part_cases hs with h | ⟨h, _⟩
    · rw [← h, h1]; decide
    · rw [h]; decide
  simp [this]

theorem declares_top {d : StmKw} {s : Stm} {l : List Stm} (h : Declares d l s) (hl : ∀ x ∈ l, x.subs.length ≤ 1 ∧ ¬ ScopeKw x.kw) : s ∈ l := by
  cases h with
  | here _ _ hs _ => exact hs
  | inside _ x _ hx hk _ _ => exact absurd hk (hl x hx).2

theorem declares_mem {n : Str} {m : Mod} {s : Stm} (hm : repo n = some m) (h : Declares .typedef_ m.body s) :
    (n = py!"a" ∧ s = td py!"t" [ty py!"string"]) ∨ (n = py!"as" ∧ s = td py!"u" [ty py!"string"])
      ∨ (n = py!"b" ∧ s = td py!"t" [ty py!"int8"]) := by
  rcases repo_cases hm with ⟨hn, rfl⟩ | ⟨hn, rfl⟩ | ⟨hn, rfl⟩
  · have := declares_top h (by intro x hx; simp [modA] at hx; subst hx; simp [td, Stm.subs, Stm.kw, ScopeKw])
    simp [modA] at this
    exact Or.inl ⟨hn, this⟩
  · have := declares_top h (by intro x hx; simp [modAs] at hx; subst hx; simp [td, Stm.subs, Stm.kw, ScopeKw])
    simp [modAs] at this
    exact Or.inr (Or.inl ⟨hn, this⟩)
  · cases h with
    | here _ _ hs hk =>
      simp [modB] at hs
      subst hs
      simp [Stm.kw] at hk
    | inside _ x _ hx _ _ h =>
      simp [modB] at hx
      subst hx
      have := declares_top h (by intro x hx; simp [Stm.subs] at hx; subst hx; simp [td, Stm.subs, Stm.kw, ScopeKw])
      simp [Stm.subs] at this
      exact Or.inr (Or.inr ⟨hn, this⟩)

theorem sees_cases {n p x : Str} (h : Sees repo n p x) :
    (p = py!"a" ∧ (x = py!"a" ∨ x = py!"as")) ∨ (p = py!"x" ∧ x = py!"b") ∨ (p = py!"b" ∧ x = py!"b") := by
  rcases h with ⟨m, hm, hp, hx⟩ | ⟨s, _, hi⟩
  · rw [← localPrefix_iff] at hp
    rcases repo_cases hm with ⟨hn, rfl⟩ | ⟨hn, rfl⟩ | ⟨hn, rfl⟩
    · cases hp
      rcases part_cases hx with h | ⟨_, h⟩
      · exact Or.inl ⟨rfl, Or.inl (h.trans hn)⟩
      · exact Or.inl ⟨rfl, Or.inr h⟩
    · cases hp
      rcases part_cases hx with h | ⟨_, h⟩
      · exact Or.inl ⟨rfl, Or.inr (h.trans hn)⟩
      · exact Or.inl ⟨rfl, Or.inr h⟩
    · cases hp
      rcases part_cases hx with h | ⟨h, _⟩
      · exact Or.inr (Or.inr ⟨rfl, h.trans hn⟩)
      · rw [hn] at h
        exact absurd h (by decide)
  · obtain ⟨_, h2, h3⟩ := imports_cases hi
    exact Or.inr (Or.inl ⟨h2, h3⟩)

theorem modsOk : ModsOk repo .typedef_ [py!"a"] where
  found := by intro n hn; simp at hn; subst hn; decide
  pfx := by
    intro n m hm
    rcases repo_cases hm with ⟨_, rfl⟩ | ⟨_, rfl⟩ | ⟨_, rfl⟩
    · exact ⟨_, Or.inl rfl⟩
    · exact ⟨_, Or.inr ⟨rfl, rfl⟩⟩
    · exact ⟨_, Or.inl rfl⟩
  plain := by
    intro n p x h
    rcases sees_cases h with ⟨h, _⟩ | ⟨h, _⟩ | ⟨h, _⟩ <;> rw [h] <;> decide
  names := by
    intro n m s hm h
    rcases declares_mem hm h with ⟨_, h⟩ | ⟨_, h⟩ | ⟨_, h⟩ <;> rw [h] <;> simp [td, Stm.arg]

theorem prefixOnce : PrefixOnce repo .typedef_ [py!"a"] := by
  intro n n' p x x' m m' s t _ _ hs hs' hx hx' hd hd' he
  have e1 : py!"a" ≠ py!"x" := by decide
  have e2 : py!"a" ≠ py!"b" := by decide
  have e3 : py!"x" ≠ py!"b" := by decide
  have e4 : py!"as" ≠ py!"b" := by decide
  have e5 : py!"t" ≠ py!"u" := by decide
  rcases declares_mem hx hd.declares with ⟨a1, a2⟩ | ⟨a1, a2⟩ | ⟨a1, a2⟩ <;>
  rcases declares_mem hx' hd'.declares with ⟨b1, b2⟩ | ⟨b1, b2⟩ | ⟨b1, b2⟩ <;>
  subst a1 <;> subst a2 <;> subst b1 <;> subst b2 <;>
  first
    | rfl
    | (simp [td, Stm.arg] at he; done)
    | (rcases sees_cases hs with ⟨u1, u2⟩ | ⟨u1, u2⟩ | ⟨u1, u2⟩ <;>
       rcases sees_cases hs' with ⟨v1, v2⟩ | ⟨v1, v2⟩ | ⟨v1, v2⟩ <;>
       simp_all)

end CollectEx

/-- The hypotheses of `C92_collected` and `C92_definitions_partial` are met, and the
typedef in the container of `b` is found under the prefix that the submodule has for
`b`. -/
example : ∃ f ds, (∀ g, gather CollectEx.repo .typedef_ (f + g) [py!"a"] = some (.ok ds))
    ∧ ds.get? py!"x:t" = some (CollectEx.td py!"t" [CollectEx.ty py!"int8"]) := by
  obtain ⟨f, ds, h1, h2⟩ := C92_definitions_partial CollectEx.repo .typedef_ [py!"a"] CollectEx.modsOk CollectEx.acyclic CollectEx.prefixOnce
  refine ⟨f, ds, h1, ?_⟩
  refine h2 py!"a" py!"x" py!"b" CollectEx.modB (CollectEx.td py!"t" [CollectEx.ty py!"int8"]) (.root _ (by simp)) (Or.inr ⟨py!"as", Or.inr ⟨CollectEx.modA, rfl, by simp [CollectEx.modA], rfl⟩, ⟨CollectEx.modAs, rfl, by simp [CollectEx.modAs], rfl⟩⟩) rfl ?_
  exact .inside _ (.mk .container_ py!"c" true [CollectEx.td py!"t" [CollectEx.ty py!"int8"]]) _ (by simp [CollectEx.modB]) (by simp [ScopeKw, Stm.kw]) (by simp [Stm.kw]) rfl
    (.here _ _ (by simp [Stm.subs]) rfl)

/-! ## Where definitions are lost or confused -/

/-- Typedefs of the same name in two containers are two types (RFC 7950, 5.5), but the last
one takes the place of the first. -/
theorem C92_scope_refuted (d : StmKw) (p name : Str) (hp : ':' ∉ name) (c1 c2 : Str) (a b : List Stm) (hd : d ∉ possibleParents) :
    (findDefinitions d p [.mk .container_ c1 true [.mk d name false a], .mk .container_ c2 true [.mk d name false b]]).get? (p ++ ':' :: name)
      = some (.mk d name false b) := by
  have hm : meet d [.mk .container_ c1 true [.mk d name false a], .mk .container_ c2 true [.mk d name false b]]
      = [.mk d name false a, .mk d name false b] := by
    cases d <;> first | rfl | (exact absurd (by simp [possibleParents]) hd)
  rw [findDefinitions, hm]
  simp only [List.foldl_cons, List.foldl_nil]
  rw [noteDef_eq (s := .mk d name false a) (fun k v h => by simp at h) hp]
  rw [noteDef_eq (s := .mk d name false b) (ColonKeys.set (fun k v h => by simp at h)) hp]
  exact Dict.get?_set_self _ _ _

/-- A typedef inside an `action` is not found at all. -/
theorem C92_action_refuted : ∃ body s, Declares .typedef_ body s ∧ ∀ p, (findDefinitions .typedef_ p body).get? (p ++ ':' :: s.arg) = none := by
  refine ⟨[.mk .container_ py!"c" true [.mk .action_ py!"reset" true [.mk .typedef_ py!"t" false []]]], .mk .typedef_ py!"t" false [], ?_, ?_⟩
  · exact .inside _ _ _ List.mem_cons_self (by simp [ScopeKw, Stm.kw]) rfl
      (.inside _ _ _ List.mem_cons_self (by simp [ScopeKw, Stm.kw]) rfl (.here _ _ List.mem_cons_self rfl))
  · intro p
    rfl

namespace CollectEx

/-- `m` imports `x` under the prefix `y` and `y` under the prefix `yy`; the prefix of the
module `y` is `y`. -/
def modM : Mod := ⟨some py!"m", none, [(py!"y", py!"x"), (py!"yy", py!"y")], [], []⟩
def modX : Mod := ⟨some py!"x", none, [], [], [td py!"id" [ty py!"int8"]]⟩
def modY : Mod := ⟨some py!"y", none, [], [], [td py!"id" [ty py!"string"]]⟩
def repoP : Repo := fun n => if n = py!"m" then some modM else if n = py!"x" then some modX else if n = py!"y" then some modY else none

/-- `n` includes `s1`, which includes `s2`. -/
def modN : Mod := ⟨some py!"n", none, [], [py!"s1"], []⟩
def modS1 : Mod := ⟨none, some py!"n", [], [py!"s2"], []⟩
def modS2 : Mod := ⟨none, some py!"n", [], [], [td py!"t" []]⟩
def repoN : Repo := fun n => if n = py!"n" then some modN else if n = py!"s1" then some modS1 else if n = py!"s2" then some modS2 else none

/-- `p` and `q` import each other. -/
def modP : Mod := ⟨some py!"p", none, [(py!"q", py!"q")], [], []⟩
def modQ : Mod := ⟨some py!"q", none, [(py!"p", py!"p")], [], []⟩
def repoC : Repo := fun n => if n = py!"p" then some modP else if n = py!"q" then some modQ else none

end CollectEx

/-- A prefix that one module gives to an import and that is another module's own: the
definitions of the second module are lost.  Here the type `y:id` of the module `y` is that of
the module `x`. -/
theorem C92_prefix_refuted : ∃ f ds, (∀ g, gather CollectEx.repoP .typedef_ (f + g) [py!"m"] = some (.ok ds))
    ∧ OwnPrefix CollectEx.modY py!"y" ∧ CollectEx.td py!"id" [CollectEx.ty py!"string"] ∈ CollectEx.modY.body
    ∧ ds.get? py!"y:id" = some (CollectEx.td py!"id" [CollectEx.ty py!"int8"]) := by
  refine ⟨3, [(py!"y:id", CollectEx.td py!"id" [CollectEx.ty py!"int8"]), (py!"yy:id", CollectEx.td py!"id" [CollectEx.ty py!"string"]), (py!"x:id", CollectEx.td py!"id" [CollectEx.ty py!"int8"])], ?_, Or.inl rfl, by simp [CollectEx.modY], rfl⟩
  intro g
  have := gatherLoop_mono (r := CollectEx.repoP) 3 [py!"m"] [] _ rfl g
  rw [gather, this]
  rfl

/-- A submodule that only another submodule includes (as YANG 1.0 allows) is not looked
at: its typedefs are not found. -/
theorem C92_nested_refuted : Includes CollectEx.repoN py!"n" py!"s1" ∧ Includes CollectEx.repoN py!"s1" py!"s2"
    ∧ CollectEx.repoN py!"s2" = some CollectEx.modS2 ∧ DeclaresNA .typedef_ CollectEx.modS2.body (CollectEx.td py!"t" [])
    ∧ ∃ f, ∀ g, gather CollectEx.repoN .typedef_ (f + g) [py!"n"] = some (.ok []) := by
  refine ⟨⟨CollectEx.modN, rfl, by simp [CollectEx.modN], rfl⟩, ⟨CollectEx.modS1, rfl, by simp [CollectEx.modS1], rfl⟩, rfl,
    .here _ _ (by simp [CollectEx.modS2]) rfl, 1, ?_⟩
  intro g
  have := gatherLoop_mono (r := CollectEx.repoN) 1 [py!"n"] [] _ rfl g
  rw [gather, this]
  rfl

/-- Modules that import each other are gone through without end; that pyang refuses them
is needed. -/
theorem C92_circular_refuted (d : StmKw) (f : Nat) : gather CollectEx.repoC d f [py!"p"] = none := by
  have : ∀ (f : Nat) (acc : List (Str × Str)), gatherLoop CollectEx.repoC f [py!"p"] acc = none ∧ gatherLoop CollectEx.repoC f [py!"q"] acc = none := by
    intro f
    induction f with
    | zero => intro acc; exact ⟨rfl, rfl⟩
    | succ f ih =>
      intro acc
      refine ⟨?_, ?_⟩
      · exact (ih _).2
      · exact (ih _).1
  rw [gather, (this f []).1]
  rfl

/-! ## What is written -/

theorem mem_calledMods (l : List Str) (x : Str) : x ∈ calledMods l ↔ x ∈ l := by
  have : ∀ (l acc : List Str), x ∈ l.foldl (fun acc x => if x ∈ acc then acc else acc ++ [x]) acc ↔ x ∈ acc ∨ x ∈ l := by
    intro l
    induction l with
    | nil => intro acc; simp
    | cons y l ih =>
      intro acc
      rw [List.foldl_cons, ih]
      by_cases hy : y ∈ acc
      · rw [if_pos hy, List.mem_cons]
        constructor
        · rintro (h | h)
          · exact Or.inl h
          · exact Or.inr (Or.inr h)
        · rintro (h | h | h)
          · exact Or.inl h
          · exact Or.inl (h ▸ hy)
          · exact Or.inr h
      · rw [if_neg hy, List.mem_append, List.mem_singleton, List.mem_cons, or_assoc]
  rw [calledMods, this]
  simp

/-- C92.  Classes for data are written for the modules given and their submodules, with all
the data nodes of the module, and for no other module. -/
theorem C92_written (r : Repo) (o : TopOpts) (safe : Str → Str) (roots : List Str) (ch x path : Str) :
    (⟨.other, ch, x, path⟩ : TopCall) ∈ topCalls r o safe roots ↔ ch ∈ roots ∧ (r ch).isSome = true ∧ PartOf r ch x ∧ path = [] := by
  rw [topCalls, List.mem_flatMap]
  constructor
  · rintro ⟨n, hn, h⟩
    rw [mem_calledMods] at hn
    cases hr : r n with
    | none => rw [hr] at h; simp at h
    | some m =>
      simp only [hr, topCallsOf, List.mem_flatMap, List.mem_cons, List.mem_append] at h
      obtain ⟨y, hy, h⟩ := h
      have hx : ch = n ∧ x = y ∧ path = [] := by
        rcases h with h | h | h
        · simpa using h
        · split at h <;> simp at h
        · split at h <;> simp at h
      obtain ⟨rfl, rfl, rfl⟩ := hx
      refine ⟨hn, by rw [hr]; rfl, ?_, rfl⟩
      rcases hy with hy | hy
      · exact Or.inl hy
      · obtain ⟨s, hs, rfl⟩ := List.mem_map.1 hy
        obtain ⟨h1, h2⟩ := mem_foundSubs.1 hs
        exact Or.inr ⟨m, hr, h1, by rw [h2]; rfl⟩
  · rintro ⟨hch, hs, hp, rfl⟩
    obtain ⟨m, hr⟩ := Option.isSome_iff_exists.1 hs
    refine ⟨ch, (mem_calledMods _ _).2 hch, ?_⟩
    simp only [hr, topCallsOf, List.mem_flatMap, List.mem_cons, List.mem_append]
    refine ⟨x, ?_, Or.inl rfl⟩
    rcases hp with hp | ⟨m', h1, h2, h3⟩
    · exact Or.inl hp
    · rw [hr] at h1
      cases h1
      obtain ⟨ms, hms⟩ := Option.isSome_iff_exists.1 h3
      exact Or.inr (List.mem_map.2 ⟨(x, ms), mem_foundSubs.2 ⟨h2, hms⟩, rfl⟩)

/-- C92.  RPCs are written only when asked for, for the modules given that have them, under
`/<module>_rpc`; and notifications likewise. -/
theorem C92_written_rpcs (r : Repo) (o : TopOpts) (safe : Str → Str) (roots : List Str) (ch x path : Str) :
    ((⟨.rpc_, ch, x, path⟩ : TopCall) ∈ topCalls r o safe roots
        ↔ o.rpcs = true ∧ o.hasRpcs ch = true ∧ ch ∈ roots ∧ (r ch).isSome = true ∧ x = ch ∧ path = '/' :: (safe ch ++ py!"_rpc"))
      ∧ ((⟨.notification_, ch, x, path⟩ : TopCall) ∈ topCalls r o safe roots
        ↔ o.notifications = true ∧ o.hasNotifs ch = true ∧ ch ∈ roots ∧ (r ch).isSome = true ∧ x = ch ∧ path = '/' :: (safe ch ++ py!"_notification")) := by
  constructor
  · rw [topCalls, List.mem_flatMap]
    constructor
    · rintro ⟨n, hn, h⟩
      rw [mem_calledMods] at hn
      cases hr : r n with
      | none => rw [hr] at h; simp at h
      | some m =>
        simp only [hr, topCallsOf, List.mem_flatMap, List.mem_cons, List.mem_append] at h
        obtain ⟨y, hy, h⟩ := h
        rcases h with h | h | h
        · simp at h
        · split at h
          · rename_i ho
            rw [Bool.and_eq_true] at ho
            simp only [List.mem_singleton, TopCall.mk.injEq, true_and] at h
            obtain ⟨rfl, rfl, rfl⟩ := h
            exact ⟨ho.1, ho.2, hn, by rw [hr]; rfl, rfl, rfl⟩
          · simp at h
        · split at h <;> simp at h
    · rintro ⟨h1, h2, h3, h4, rfl, rfl⟩
      obtain ⟨m, hr⟩ := Option.isSome_iff_exists.1 h4
      refine ⟨x, (mem_calledMods _ _).2 h3, ?_⟩
      simp only [hr, topCallsOf, List.mem_flatMap, List.mem_cons, List.mem_append]
      exact ⟨x, Or.inl rfl, Or.inr (Or.inl (by rw [h1, h2]; simp))⟩
  · rw [topCalls, List.mem_flatMap]
    constructor
    · rintro ⟨n, hn, h⟩
      rw [mem_calledMods] at hn
      cases hr : r n with
      | none => rw [hr] at h; simp at h
      | some m =>
        simp only [hr, topCallsOf, List.mem_flatMap, List.mem_cons, List.mem_append] at h
        obtain ⟨y, hy, h⟩ := h
        rcases h with h | h | h
        · simp at h
        · split at h <;> simp at h
        · split at h
          · rename_i ho
            rw [Bool.and_eq_true] at ho
            simp only [List.mem_singleton, TopCall.mk.injEq, true_and] at h
            obtain ⟨rfl, rfl, rfl⟩ := h
            exact ⟨ho.1, ho.2, hn, by rw [hr]; rfl, rfl, rfl⟩
          · simp at h
    · rintro ⟨h1, h2, h3, h4, rfl, rfl⟩
      obtain ⟨m, hr⟩ := Option.isSome_iff_exists.1 h4
      refine ⟨x, (mem_calledMods _ _).2 h3, ?_⟩
      simp only [hr, topCallsOf, List.mem_flatMap, List.mem_cons, List.mem_append]
      exact ⟨x, Or.inl rfl, Or.inr (Or.inr (by rw [h1, h2]; simp))⟩

/-- C92.  A binding is built exactly when pyang has found no errors but unused imports and
patterns it cannot compile. -/
theorem C92_errors (errs : List Str) : errorsPass errs = true ↔ ∀ e ∈ errs, e = py!"UNUSED_IMPORT" ∨ e = py!"PATTERN_ERROR" := by
  simp [errorsPass, List.all_eq_true]

example : errorsPass [py!"UNUSED_IMPORT"] = true ∧ errorsPass [py!"UNUSED_IMPORT", py!"MODULE_NOT_FOUND"] = false := ⟨rfl, rfl⟩

end Pyb
