import Verif.Spec.Split
import Verif.Lemmas.Names

namespace Pyb
open Py Spec

/-! ## Names -/

theorem safeName_pyName (n : Str) : safeName n = if pyName n ∈ reservedName then pyName n ++ py!"_" else pyName n := by
  have : replaceChar '.' '_' (replaceChar '-' '_' n) = pyName n := by
    simp only [replaceChar, pyName, List.map_map]
    apply List.map_congr_left
    intro c _
    simp only [Function.comp]
    by_cases h : c = '-'
    · simp [h]
    · simp [h]
  simp only [safeName, this]

theorem safeName_plain {n : Str} (h : PlainName n) : safeName n = pyName n := by
  rw [safeName_pyName, if_neg h.not_reserved]

theorem pyName_append (a b : Str) : pyName (a ++ b) = pyName a ++ pyName b := by simp [pyName]

theorem pyName_idem (a : Str) : pyName (pyName a) = pyName a := by
  simp only [pyName, List.map_map]
  apply List.map_congr_left
  intro c _
  simp only [Function.comp]
  by_cases h : c = '-' ∨ c = '.'
  · simp [h]
  · simp [h]

theorem reserved_tail : ∀ r ∈ reservedName, r.getLast? ≠ some '_' := by decide

theorem safeName_tail {n : Str} : safeName (n ++ py!"_") = pyName n ++ py!"_" := by
  rw [safeName_pyName, pyName_append]
  have e : pyName py!"_" = py!"_" := rfl
  rw [e, if_neg]
  intro h
  exact reserved_tail _ h (by simp)

/-- The name of the directory of a child. -/
def kidDir (parent n : Str) : Str := if n = parent then pyName n ++ py!"_" else pyName n

theorem importName_plain {parent n : Str} (h : PlainName n) : importName parent n = kidDir parent n := by
  unfold importName kidDir
  by_cases e : n = parent
  · rw [if_pos e, if_pos e, safeName_tail]
  · rw [if_neg e, if_neg e, safeName_plain h]

theorem refOf_plain {parent n : Str} (h : PlainName n) : refOf parent n = (n, kidDir parent n, pyName n) := by
  unfold refOf kidDir
  rw [safeName_plain h]

theorem kidDir_tail {parent n : Str} (h : PlainName n) : (kidDir parent n).getLast? = some '_' ↔ n = parent := by
  unfold kidDir
  by_cases e : n = parent
  · simp [e]
  · simp [e, h.no_tail]

theorem kidDir_inj {parent a b : Str} (ha : PlainName a) (hb : PlainName b) (h : kidDir parent a = kidDir parent b) : pyName a = pyName b := by
  have h1 : a = parent ↔ b = parent := by rw [← kidDir_tail ha, ← kidDir_tail hb, h]
  unfold kidDir at h
  by_cases e : a = parent
  · have e' := h1.1 e
    rw [e, e']
  · have e' : ¬ b = parent := fun h => e (h1.2 h)
    rwa [if_neg e, if_neg e'] at h

theorem header_imported {x : Str} (h : x ∉ importedNames) : x ∉ headerNames := by
  have hx : ∀ x ∈ headerNames, x ∈ importedNames := by decide
  exact fun hm => h (hx _ hm)

theorem kidDir_header {parent n : Str} (h : PlainName n) : kidDir parent n ∉ headerNames := by
  unfold kidDir
  split
  · intro hm
    have hx : ∀ x ∈ headerNames, x.getLast? = some '_' → x.dropLast.getLast? = some '_' := by decide
    have h1 := hx _ hm (by simp)
    rw [List.dropLast_concat] at h1
    exact h.no_tail h1
  · exact header_imported h.not_header

theorem kidDir_ne_parent {parent n : Str} (h : PlainName n) (hp : PlainName parent) (up : pyName n = pyName parent → n = parent) :
    kidDir parent n ≠ pyName parent := by
  intro e
  by_cases e1 : n = parent
  · have := (kidDir_tail (parent := parent) h).2 e1
    rw [e] at this
    exact hp.no_tail this
  · rw [kidDir, if_neg e1] at e
    exact e1 (up e)

theorem kidDir_ne {parent n m : Str} (h : PlainName n) (hm : PlainName m) (hne : pyName n ≠ pyName m) : kidDir parent n ≠ pyName m := by
  intro e
  by_cases e1 : n = parent
  · have := (kidDir_tail (parent := parent) h).2 e1
    rw [e] at this
    exact hm.no_tail this
  · rw [kidDir, if_neg e1] at e
    exact hne e

/-! ## Directories -/

theorem splitElements_cons (module : Str) (path : List Str) (n : Str) (ks rest : Holders) :
    splitElements module path (.cons (.mk n ks) rest) = splitChildren module n (path ++ [n]) ks ++ splitElements module path rest := by
  rw [splitElements]; rfl

/-- The directory of a child of the node at a path. -/
def nextDir (module : Str) (path : List Str) (n : Str) : Str := dirName path.isEmpty module (path.getLastD []) n

theorem dirParts_snoc (module : Str) : ∀ (path : List Str) (first : Bool) (before n : Str),
    dirParts module first before (path ++ [n]) =
      dirParts module first before path ++ [if path = [] then dirName first module before n else dirName false module (path.getLastD []) n]
  | [], first, before, n => by simp [dirParts]
  | [p], first, before, n => by simp [dirParts]
  | p :: q :: path, first, before, n => by
    have ih := dirParts_snoc module (q :: path) false p n
    have e : dirParts module first before (p :: q :: path) = dirName first module before p :: dirParts module false p (q :: path) := rfl
    rw [List.cons_append, dirParts, ih, e]
    simp

theorem splitDir_snoc (module : Str) (path : List Str) (n : Str) : splitDir module (path ++ [n]) = splitDir module path ++ [nextDir module path n] := by
  unfold splitDir nextDir
  rw [dirParts_snoc]
  cases path with
  | nil => rfl
  | cons p path => simp

theorem dirParts_append (module : Str) (q : List Str) : ∀ (path : List Str) (first : Bool) (before : Str),
    ∃ r, dirParts module first before (path ++ q) = dirParts module first before path ++ r ∧ r.length = q.length
  | [], first, before => by
    refine ⟨dirParts module first before q, by simp [dirParts], ?_⟩
    have : ∀ (q : List Str) first before, (dirParts module first before q).length = q.length := by
      intro q
      induction q with
      | nil => intros; rfl
      | cons a q ih => intros; simp [dirParts, ih]
    exact this q first before
  | p :: path, first, before => by
    obtain ⟨r, h, hl⟩ := dirParts_append module q path false p
    exact ⟨r, by simp [dirParts, h], hl⟩

theorem splitDir_append (module : Str) (path q : List Str) : ∃ r, splitDir module (path ++ q) = splitDir module path ++ r ∧ r.length = q.length :=
  dirParts_append module q path true []

mutual
theorem splitChildren_dir (module parent : Str) (path : List Str) : ∀ (kids : Holders), ∀ c ∈ splitChildren module parent path kids,
    c.dir = splitDir module c.node.2 ∧ c.node.1 = module ∧ ∃ q, c.node.2 = path ++ q
  | kids, c, hc => by
    rw [splitChildren, List.mem_append, List.mem_singleton] at hc
    rcases hc with hc | rfl
    · obtain ⟨h1, h2, k, -, q, h3⟩ := splitElements_dir module path kids c hc
      exact ⟨h1, h2, _, h3⟩
    · exact ⟨rfl, rfl, [], by simp [ownChunk]⟩
theorem splitElements_dir (module : Str) (path : List Str) : ∀ (kids : Holders), ∀ c ∈ splitElements module path kids,
    c.dir = splitDir module c.node.2 ∧ c.node.1 = module ∧ ∃ k ∈ kids.toList, ∃ q, c.node.2 = path ++ k.name :: q
  | .nil, c, hc => by simp [splitElements] at hc
  | .cons (.mk n ks) rest, c, hc => by
    rw [splitElements_cons, List.mem_append] at hc
    rcases hc with hc | hc
    · obtain ⟨h1, h2, q, h3⟩ := splitChildren_dir module n (path ++ [n]) ks c hc
      exact ⟨h1, h2, .mk n ks, by simp [Holders.toList], q, by rw [h3]; simp [Holder.name]⟩
    · obtain ⟨h1, h2, k, hk, q, h3⟩ := splitElements_dir module path rest c hc
      exact ⟨h1, h2, k, by simp [Holders.toList, hk], q, h3⟩
end

theorem elements_dir {module : Str} {path : List Str} {kids : Holders} {c : Chunk} (h : c ∈ splitElements module path kids) :
    ∃ k ∈ kids.toList, ∃ r, c.dir = splitDir module path ++ nextDir module path k.name :: r := by
  obtain ⟨h1, -, k, hk, q, h3⟩ := splitElements_dir module path kids c h
  obtain ⟨r, hr, -⟩ := splitDir_append module (path ++ [k.name]) q
  refine ⟨k, hk, r, ?_⟩
  rw [h1, h3, show path ++ k.name :: q = path ++ [k.name] ++ q by simp, hr, splitDir_snoc]
  simp

/-! ## Calls of `get_children` -/

structure CallOk (module parent : Str) (path : List Str) (kids : Holders) : Prop where
  tree : SplitOk parent kids
  plain : PlainName parent
  agree : ∀ k ∈ kids.toList, nextDir module path k.name = kidDir parent k.name

theorem _root_.Spec.SplitOk.kid {parent : Str} {kids : Holders} (h : SplitOk parent kids) {k : Holder} (hk : k ∈ kids.toList) :
    PlainName k.name ∧ SplitOk k.name k.kids ∧ (pyName k.name = pyName parent → k.name = parent) := by
  cases h with
  | mk names siblings up below => exact ⟨names k hk, below k hk, up k hk⟩

theorem _root_.Spec.SplitOk.tail {parent : Str} {k : Holder} {kids : Holders} (h : SplitOk parent (.cons k kids)) :
    SplitOk parent kids ∧ ∀ k' ∈ kids.toList, pyName k.name ≠ pyName k'.name := by
  cases h with
  | mk names siblings up below =>
    rw [Holders.toList, List.pairwise_cons] at siblings
    exact ⟨.mk (fun k hk => names k (by simp [Holders.toList, hk])) siblings.2 (fun k hk => up k (by simp [Holders.toList, hk]))
      (fun k hk => below k (by simp [Holders.toList, hk])), siblings.1⟩

theorem CallOk.kid {module parent : Str} {path : List Str} {kids : Holders} (h : CallOk module parent path kids) {k : Holder}
    (hk : k ∈ kids.toList) : CallOk module k.name (path ++ [k.name]) k.kids := by
  obtain ⟨h1, h2, -⟩ := h.tree.kid hk
  refine ⟨h2, h1, fun k' hk' => ?_⟩
  have h3 := (h2.kid hk').1
  simp [nextDir, dirName, kidDir, safeName_plain h3]

theorem CallOk.tail {module parent : Str} {path : List Str} {k : Holder} {kids : Holders} (h : CallOk module parent path (.cons k kids)) :
    CallOk module parent path kids :=
  ⟨h.tree.tail.1, h.plain, fun k' hk' => h.agree k' (by simp [Holders.toList, hk'])⟩

mutual
theorem children_unique {module parent : Str} {path : List Str} : ∀ (kids : Holders), CallOk module parent path kids →
    ∀ c ∈ splitChildren module parent path kids, ∀ c' ∈ splitChildren module parent path kids, c.dir = c'.dir → c = c'
  | kids, h, c, hc, c', hc', e => by
    rw [splitChildren, List.mem_append, List.mem_singleton] at hc hc'
    rcases hc with hc | rfl <;> rcases hc' with hc' | rfl
    · exact elements_unique kids h c hc c' hc' e
    · obtain ⟨k, -, r, hr⟩ := elements_dir hc
      rw [hr] at e
      simp [ownChunk] at e
    · obtain ⟨k, -, r, hr⟩ := elements_dir hc'
      rw [hr] at e
      simp [ownChunk] at e
    · rfl
theorem elements_unique {module parent : Str} {path : List Str} : ∀ (kids : Holders), CallOk module parent path kids →
    ∀ c ∈ splitElements module path kids, ∀ c' ∈ splitElements module path kids, c.dir = c'.dir → c = c'
  | .nil, _, c, hc, _, _, _ => by simp [splitElements] at hc
  | .cons (.mk n ks) rest, h, c, hc, c', hc', e => by
    have cross : ∀ c c' : Chunk, c ∈ splitChildren module n (path ++ [n]) ks → c' ∈ splitElements module path rest → c.dir ≠ c'.dir := by
      intro c c' hc hc' e
      obtain ⟨h1, -, q, h3⟩ := splitChildren_dir module n (path ++ [n]) ks c hc
      obtain ⟨r, hr, -⟩ := splitDir_append module (path ++ [n]) q
      obtain ⟨k', hk', r', hr'⟩ := elements_dir hc'
      rw [h1, h3, hr, hr', splitDir_snoc, List.append_assoc] at e
      have e := List.append_cancel_left e
      simp only [List.singleton_append, List.cons.injEq] at e
      have g1 := h.agree (.mk n ks) (by simp [Holders.toList])
      have g2 := h.agree k' (by simp [Holders.toList, hk'])
      rw [Holder.name] at g1
      rw [g1, g2] at e
      have p1 := (h.tree.kid (k := .mk n ks) (by simp [Holders.toList])).1
      have p2 := (h.tree.kid (k := k') (by simp [Holders.toList, hk'])).1
      exact h.tree.tail.2 k' hk' (kidDir_inj p1 p2 e.1)
    rw [splitElements_cons, List.mem_append] at hc hc'
    rcases hc with hc | hc <;> rcases hc' with hc' | hc'
    · exact children_unique ks (h.kid (k := .mk n ks) (by simp [Holders.toList])) c hc c' hc' e
    · exact absurd e (cross c c' hc hc')
    · exact absurd e.symm (cross c' c hc' hc)
    · exact elements_unique rest h.tail c hc c' hc' e
end

/-- What a chunk needs: the classes it names are there, and no name is bound twice. -/
structure ChunkOk (files : List Chunk) (c : Chunk) : Prop where
  ref : ∀ r ∈ c.refs, r.2.1 ∈ c.imports ∧ ∃ c2 ∈ files, c2.dir = c.dir ++ [r.2.1] ∧ c2.cls = r.2.2 ∧ c2.node = (c.node.1, c.node.2 ++ [r.1])
  imp : ∀ x ∈ c.imports, x ∉ headerNames ∧ x ≠ c.cls ∧ ∃ c2 ∈ files, c2.dir = c.dir ++ [x]
  cls : c.cls ∉ headerNames

theorem ChunkOk.mono {fs gs : List Chunk} {c : Chunk} (h : ChunkOk fs c) (hs : ∀ x ∈ fs, x ∈ gs) : ChunkOk gs c := by
  refine ⟨fun r hr => ?_, fun x hx => ?_, h.cls⟩
  · obtain ⟨h1, c2, h2, h3⟩ := h.ref r hr
    exact ⟨h1, c2, hs _ h2, h3⟩
  · obtain ⟨h1, h2, c2, h3, h4⟩ := h.imp x hx
    exact ⟨h1, h2, c2, hs _ h3, h4⟩

theorem own_mem (module parent : Str) (path : List Str) (kids : Holders) :
    ∃ c ∈ splitChildren module parent path kids, c.dir = splitDir module path ∧ c.cls = safeName parent ∧ c.node = (module, path) := by
  refine ⟨ownChunk module parent path kids, ?_, rfl, rfl, rfl⟩
  rw [splitChildren]
  simp

theorem kid_sub (module : Str) (path : List Str) : ∀ (kids : Holders) (k : Holder), k ∈ kids.toList →
    ∀ c ∈ splitChildren module k.name (path ++ [k.name]) k.kids, c ∈ splitElements module path kids
  | .nil, k, hk, _, _ => by simp [Holders.toList] at hk
  | .cons (.mk n ks) rest, k, hk, c, hc => by
    rw [splitElements_cons, List.mem_append]
    rw [Holders.toList, List.mem_cons] at hk
    rcases hk with rfl | hk
    · exact .inl hc
    · exact .inr (kid_sub module path rest k hk c hc)

mutual
theorem children_ok {module parent : Str} {path : List Str} : ∀ (kids : Holders), CallOk module parent path kids →
    ∀ c ∈ splitChildren module parent path kids, ChunkOk (splitChildren module parent path kids) c
  | kids, h, c, hc => by
    have hc0 := hc
    rw [splitChildren, List.mem_append, List.mem_singleton] at hc
    rcases hc with hc | rfl
    · exact (elements_ok kids h c hc).mono fun x hx => by rw [splitChildren, List.mem_append]; exact .inl hx
    · have kid : ∀ k ∈ kids.toList, ∃ c2 ∈ splitChildren module parent path kids,
          c2.dir = splitDir module path ++ [kidDir parent k.name] ∧ c2.cls = pyName k.name ∧ c2.node = (module, path ++ [k.name]) := by
        intro k hk
        obtain ⟨c2, h1, h2, h3, h4⟩ := own_mem module k.name (path ++ [k.name]) k.kids
        refine ⟨c2, by rw [splitChildren, List.mem_append]; exact .inl (kid_sub module path kids k hk c2 h1), ?_, ?_, h4⟩
        · rw [h2, splitDir_snoc, h.agree k hk]
        · rw [h3, safeName_plain (h.tree.kid hk).1]
      refine ⟨fun r hr => ?_, fun x hx => ?_, ?_⟩
      · simp only [ownChunk, List.mem_map] at hr
        obtain ⟨k, hk, rfl⟩ := hr
        obtain ⟨p1, -, -⟩ := h.tree.kid hk
        obtain ⟨c2, h1, h2, h3, h4⟩ := kid k hk
        rw [refOf_plain p1]
        exact ⟨List.mem_map.2 ⟨k, hk, importName_plain p1⟩, c2, h1, h2, h3, h4⟩
      · simp only [ownChunk, List.mem_map] at hx
        obtain ⟨k, hk, rfl⟩ := hx
        obtain ⟨p1, -, p3⟩ := h.tree.kid hk
        obtain ⟨c2, h1, h2, -⟩ := kid k hk
        rw [importName_plain p1]
        refine ⟨kidDir_header p1, ?_, c2, h1, h2⟩
        show _ ≠ safeName parent
        rw [safeName_plain h.plain]
        exact kidDir_ne_parent p1 h.plain p3
      · show safeName parent ∉ headerNames
        rw [safeName_plain h.plain]
        exact header_imported h.plain.not_header
theorem elements_ok {module parent : Str} {path : List Str} : ∀ (kids : Holders), CallOk module parent path kids →
    ∀ c ∈ splitElements module path kids, ChunkOk (splitElements module path kids) c
  | .nil, _, c, hc => by simp [splitElements] at hc
  | .cons (.mk n ks) rest, h, c, hc => by
    rw [splitElements_cons, List.mem_append] at hc
    rcases hc with hc | hc
    · exact (children_ok ks (h.kid (k := .mk n ks) (by simp [Holders.toList])) c hc).mono fun x hx => by
        rw [splitElements_cons, List.mem_append]; exact .inl hx
    · exact (elements_ok rest h.tail c hc).mono fun x hx => by rw [splitElements_cons, List.mem_append]; exact .inr hx
end

/-! ## Loading -/

/-- What the files bind a name of a package to. -/
def Binds (files : List Chunk) (dir : List Str) (x : Str) (v : Global) : Prop :=
  ∃ c ∈ files, c.dir = dir ∧ ((x ∈ c.imports ∧ v = .package (dir ++ [x])) ∨ (x = c.cls ∧ v = .cls c.node))

theorem look_cons (g : Globals) (x y : Str) (v : Global) : Globals.look ((x, v) :: g) y = if y = x then some v else g.look y := by
  unfold Globals.look
  rw [List.lookup_cons]
  by_cases h : y = x
  · simp [h]
  · have : (y == x) = false := by simpa using h
    simp [h, this]

theorem importAll_ok (files : List Chunk) (dir : List Str) (R : Str → Global → Prop) (hR : ∀ x v v', R x v → R x v' → v = v') :
    ∀ (xs : List Str) (g : Globals), (∀ x ∈ xs, R x (.package (dir ++ [x])) ∧ ∃ c ∈ files, c.dir = dir ++ [x]) →
      (∀ x v, g.look x = some v → (∃ w, R x w) → R x v) →
      ∃ g', importAll files dir g xs = some g' ∧ (∀ x v, g'.look x = some v → (∃ w, R x w) → R x v) ∧
        (∀ x v, g.look x = some v → g'.look x = some v) ∧ ∀ x ∈ xs, g'.look x = some (.package (dir ++ [x]))
  | [], g, _, hg => ⟨g, rfl, hg, fun _ _ h => h, by simp⟩
  | x :: xs, g, hx, hg => by
    obtain ⟨hx1, c, hc, hcd⟩ := hx x (by simp)
    have step : ∃ g1, importStep files dir g x = some g1 ∧ (∀ y v, g1.look y = some v → (∃ w, R y w) → R y v) ∧
        (∀ y v, g.look y = some v → g1.look y = some v) ∧ g1.look x = some (.package (dir ++ [x])) := by
      unfold importStep
      cases hl : g.look x with
      | some v =>
        refine ⟨g, rfl, hg, fun _ _ h => h, ?_⟩
        rw [hl, hR x _ _ (hg x v hl ⟨_, hx1⟩) hx1]
      | none =>
        have : (files.any fun c => decide (c.dir = dir ++ [x])) = true := List.any_eq_true.2 ⟨c, hc, by simpa using hcd⟩
        refine ⟨(x, .package (dir ++ [x])) :: g, by simp [this], ?_, ?_, by rw [look_cons]; simp⟩
        · intro y v hv hw
          rw [look_cons] at hv
          by_cases e : y = x
          · rw [if_pos e, Option.some.injEq] at hv
            rw [e, ← hv]; exact hx1
          · rw [if_neg e] at hv
            exact hg y v hv hw
        · intro y v hv
          rw [look_cons]
          by_cases e : y = x
          · rw [e, hl] at hv; cases hv
          · rw [if_neg e, hv]
    obtain ⟨g1, h1, h2, h3, h4⟩ := step
    obtain ⟨g', i1, i2, i3, i4⟩ := importAll_ok files dir R hR xs g1 (fun y hy => hx y (by simp [hy])) h2
    refine ⟨g', by rw [importAll, h1]; exact i1, i2, fun y v h => i3 y v (h3 y v h), fun y hy => ?_⟩
    rcases List.mem_cons.1 hy with rfl | hy
    · exact i3 _ _ h4
    · exact i4 y hy

theorem loadChunks_ok (files : List Chunk) (dir : List Str) (hfun : ∀ x v v', Binds files dir x v → Binds files dir x v' → v = v') :
    ∀ (cs : List Chunk) (g : Globals), (∀ c ∈ cs, c ∈ files ∧ c.dir = dir ∧ ChunkOk files c) →
      (∀ x v, g.look x = some v → (∃ w, Binds files dir x w) → Binds files dir x v) →
      ∃ g', loadChunks files g cs = some g' ∧ (∀ x v, g'.look x = some v → (∃ w, Binds files dir x w) → Binds files dir x v) ∧
        (∀ x v, Binds files dir x v → g.look x = some v → g'.look x = some v) ∧
        ∀ c ∈ cs, ∀ x v, ((x ∈ c.imports ∧ v = .package (dir ++ [x])) ∨ (x = c.cls ∧ v = .cls c.node)) → g'.look x = some v
  | [], g, _, hg => ⟨g, rfl, hg, fun _ _ _ h => h, by simp⟩
  | c :: cs, g, hcs, hg => by
    obtain ⟨hc, hd, hok⟩ := hcs c (by simp)
    subst hd
    obtain ⟨g1, h1, h2, h3, h4⟩ := importAll_ok files c.dir (Binds files c.dir) hfun c.imports g
      (fun x hx => ⟨⟨c, hc, rfl, .inl ⟨hx, rfl⟩⟩, (hok.imp x hx).2.2⟩) hg
    have hb : Binds files c.dir c.cls (.cls c.node) := ⟨c, hc, rfl, .inr ⟨rfl, rfl⟩⟩
    have hg2 : ∀ x v, Globals.look ((c.cls, Global.cls c.node) :: g1) x = some v → (∃ w, Binds files c.dir x w) → Binds files c.dir x v := by
      intro x v hv hw
      rw [look_cons] at hv
      by_cases e : x = c.cls
      · rw [if_pos e, Option.some.injEq] at hv
        rw [e, ← hv]; exact hb
      · rw [if_neg e] at hv
        exact h2 x v hv hw
    obtain ⟨g', i1, i2, i3, i4⟩ := loadChunks_ok files c.dir hfun cs _ (fun c' hc' => hcs c' (by simp [hc'])) hg2
    have keep : ∀ x v, Binds files c.dir x v → g1.look x = some v → Globals.look ((c.cls, Global.cls c.node) :: g1) x = some v := by
      intro x v hb' hv
      rw [look_cons]
      by_cases e : x = c.cls
      · rw [if_pos e]
        subst e
        rw [hfun _ _ _ hb hb']
      · rw [if_neg e, hv]
    refine ⟨g', ?_, i2, fun x v hb' hv => i3 x v hb' (keep x v hb' (h3 x v hv)), ?_⟩
    · rw [loadChunks, loadChunk, h1]
      exact i1
    · intro c' hc' x v hx
      rcases List.mem_cons.1 hc' with rfl | hc'
      · have hb' : Binds files c'.dir x v := ⟨c', hc, rfl, hx⟩
        refine i3 x v hb' ?_
        rcases hx with ⟨hx, rfl⟩ | ⟨rfl, rfl⟩
        · exact keep x _ hb' (h4 x hx)
        · rw [look_cons, if_pos rfl]
      · exact i4 c' hc' x v hx

theorem header_look {x : Str} {v : Global} (h : Globals.look (headerNames.map fun n => (n, Global.lib)) x = some v) : x ∈ headerNames := by
  have : ∀ ns : List Str, Globals.look (ns.map fun n => (n, Global.lib)) x = some v → x ∈ ns := by
    intro ns
    induction ns with
    | nil => intro h; simp [Globals.look] at h
    | cons n ns ih =>
      intro h
      rw [List.map_cons, look_cons] at h
      by_cases e : x = n
      · simp [e]
      · rw [if_neg e] at h
        simp [ih h]
  exact this _ h

theorem loadDir_ok (files : List Chunk) (hok : ∀ c ∈ files, ChunkOk files c) (dir : List Str)
    (hfun : ∀ x v v', Binds files dir x v → Binds files dir x v' → v = v') :
    ∃ g, loadDir files dir = some g ∧ ∀ x v, Binds files dir x v → g.look x = some v := by
  have hh : ∀ x w, Binds files dir x w → x ∉ headerNames := by
    rintro x w ⟨c, hc, rfl, ⟨hx, -⟩ | ⟨rfl, -⟩⟩
    · exact ((hok c hc).imp x hx).1
    · exact (hok c hc).cls
  obtain ⟨g, h1, -, -, h4⟩ := loadChunks_ok files dir hfun (files.filter fun c => c.dir = dir) (headerNames.map fun n => (n, .lib))
    (fun c hc => by
      obtain ⟨h1, h2⟩ := List.mem_filter.1 hc
      exact ⟨h1, by simpa using h2, hok c h1⟩)
    (fun x v hv hw => absurd (header_look hv) (hh x _ hw.choose_spec))
  refine ⟨g, h1, ?_⟩
  rintro x v ⟨c, hc, hd, hx⟩
  exact h4 c (List.mem_filter.2 ⟨hc, by simpa using hd⟩) x v hx

/-- All packages load, and all classes are found. -/
theorem classOf_ok (files : List Chunk) (hok : ∀ c ∈ files, ChunkOk files c)
    (hfun : ∀ dir x v v', Binds files dir x v → Binds files dir x v' → v = v') (c : Chunk) (hc : c ∈ files) :
    (∃ g, loadDir files c.dir = some g ∧ g.look c.cls = some (.cls c.node)) ∧
      ∀ r ∈ c.refs, classOf files c.dir r.2.1 r.2.2 = some (.cls (c.node.1, c.node.2 ++ [r.1])) := by
  obtain ⟨g, h1, h2⟩ := loadDir_ok files hok c.dir (hfun c.dir)
  refine ⟨⟨g, h1, h2 _ _ ⟨c, hc, rfl, .inr ⟨rfl, rfl⟩⟩⟩, fun r hr => ?_⟩
  obtain ⟨hi, c2, k1, k2, k3, k4⟩ := (hok c hc).ref r hr
  obtain ⟨g', h3, h4⟩ := loadDir_ok files hok c2.dir (hfun c2.dir)
  have h5 := h2 r.2.1 (.package (c.dir ++ [r.2.1])) ⟨c, hc, rfl, .inl ⟨hi, rfl⟩⟩
  have h6 := h4 c2.cls (.cls c2.node) ⟨c2, k1, rfl, .inr ⟨rfl, rfl⟩⟩
  unfold classOf
  rw [h1]
  simp only [Option.bind_some]
  rw [h5]
  simp only [Option.bind_some]
  rw [← k2, h3]
  simp only [Option.bind_some]
  rw [← k3, h6, k4]

end Pyb
