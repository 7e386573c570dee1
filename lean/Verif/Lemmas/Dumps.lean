import Verif.Spec.Dumps
import Verif.Lemmas.Get
import Verif.Lemmas.LeafInv
import Verif.Lemmas.Str
import Verif.Lemmas.Identity
import Verif.Lemmas.IetfList

namespace Pyb
open Py Spec

/-! # `skip_subtrees` -/

theorem partAt_nil (t : PTree) : partAt t [] = some (part t) := by cases t <;> rfl

theorem find_erased {l r : List (PyVal × PTree)} {p : PyVal × PTree} {k k' : PyVal} (hp : pyEq p.1 k = true)
    (hr : ∀ q ∈ l ++ r, pyEq q.1 p.1 = false) :
    (l ++ r).find? (fun x => pyEq x.1 k') =
      if pyEq k k' then none else (l ++ p :: r).find? fun x => pyEq x.1 k' := by
  by_cases h : pyEq k k' = true
  · rw [if_pos h, List.find?_eq_none]
    intro x hx
    have := hr x hx
    rw [pyEq_symm, pyEq_trans hp, pyEq_trans h, pyEq_symm] at this
    simp [this]
  · rw [if_neg h, List.find?_append, List.find?_append, List.find?_cons]
    have : pyEq p.1 k' = false := by rw [pyEq_trans hp]; simpa using h
    rw [this]

theorem pd_mid {l r : List (PyVal × PTree)} {p : PyVal × PTree} (h : PD ((l ++ p :: r).map Prod.fst)) :
    ∀ q ∈ l ++ r, pyEq q.1 p.1 = false := by
  simp only [List.map_append, List.map_cons, PD, List.pairwise_append, List.pairwise_cons, List.mem_map, List.mem_cons] at h
  obtain ⟨_, ⟨h2, _⟩, h3⟩ := h
  intro q hq
  rcases List.mem_append.1 hq with hq | hq
  · exact h3 q.1 ⟨q, hq, rfl⟩ p.1 (.inl rfl)
  · rw [pyEq_symm]; exact h2 q.1 ⟨q, hq, rfl⟩

theorem find_stored {items : List (PyVal × PTree)} {k k' : PyVal} {t : PTree} (hm : mem items k = true) :
    ((store items k t).find? fun x => pyEq x.1 k').map Prod.snd =
      if pyEq k k' then some t else (items.find? fun x => pyEq x.1 k').map Prod.snd := by
  obtain ⟨l, p, r, h1, h2, h3, h4⟩ := store_old (e := t) hm
  rw [h4, h1, List.find?_append, List.find?_append, List.find?_cons, List.find?_cons]
  simp only
  by_cases h : pyEq k k' = true
  · have hl : l.find? (fun x => pyEq x.1 k') = none := by
      rw [List.find?_eq_none]
      intro x hx
      have := h3 x hx
      rw [pyEq_symm, pyEq_trans h, pyEq_symm] at this
      simp [this]
    have hp : pyEq p.1 k' = true := by rw [pyEq_trans h2]; exact h
    simp [hl, hp, h]
  · have hp : pyEq p.1 k' = false := by rw [pyEq_trans h2]; simpa using h
    simp only [hp, h, Bool.false_eq_true, if_false]

theorem partAt_dict (items : List (PyVal × PTree)) (p : Str) (ps : List Str) :
    partAt (.dict items) (p :: ps) = ((items.find? fun x => pyEq x.1 (.str p)).map Prod.snd).bind fun t => partAt t ps := by
  conv => lhs; unfold partAt
  cases items.find? fun x => pyEq x.1 (.str p) <;> rfl

theorem str_eq (a b : Str) : pyEq (.str a) (.str b) = decide (a = b) := by
  by_cases h : a = b
  · subst h; simp [pyEq_refl]
  · cases he : pyEq (.str a) (.str b) with
    | true =>
      have := pyEq_str he
      simp at this
      exact absurd this.symm h
    | false => simp [h]

theorem prefix_cons {a b : Str} {p q : List Str} : a :: p <+: b :: q ↔ a = b ∧ p <+: q := List.cons_prefix_cons

/-- `remove_path` takes away what is at the path, and nothing else. -/
theorem removePath_at : ∀ (p : List Str) (t t' : PTree), Apart t → removePath t p = .ok t' →
    Apart t' ∧ ∀ q, (p <+: q → partAt t' q = none) ∧ (¬ p <+: q → partAt t' q = partAt t q) := by
  intro p
  induction p with
  | nil => intro t t' _ h; cases t <;> simp [removePath] at h
  | cons a p ih =>
    intro t t' ha h
    cases ha with
    | leaf v => cases p <;> simp [removePath] at h
    | vals v => cases p <;> simp [removePath] at h
    | arr v => cases p <;> simp [removePath] at h
    | dict items hd hk =>
      cases p with
      | nil =>
        simp only [removePath] at h
        cases he : erase items (.str a) with
        | error e =>
          simp only [he, Except.ok.injEq] at h
          subst h
          refine ⟨.dict _ hd hk, fun q => ⟨?_, fun _ => rfl⟩⟩
          intro hq
          cases q with
          | nil => simp at hq
          | cons b q =>
            obtain ⟨rfl, _⟩ := prefix_cons.1 hq
            rw [partAt_dict]
            have : items.find? (fun x => pyEq x.1 (.str a)) = none := by
              rw [List.find?_eq_none]
              intro x hx hx'
              obtain ⟨_, hm⟩ := erase_present (mem_true.2 ⟨x, hx, hx'⟩)
              rw [he] at hm
              simp at hm
            rw [this]; rfl
        | ok items' =>
          simp only [he, Except.ok.injEq] at h
          subst h
          obtain ⟨l, x, r, h1, h2, h3, h4⟩ := erase_ok he
          have hpd : PD (items'.map Prod.fst) := pd_erase hd he
          subst h1; subst h4
          refine ⟨.dict _ hpd fun y hy => hk y (by
            rcases List.mem_append.1 hy with hy | hy <;> simp [hy]), fun q => ⟨?_, ?_⟩⟩
          · intro hq
            cases q with
            | nil => simp at hq
            | cons b q =>
              obtain ⟨rfl, _⟩ := prefix_cons.1 hq
              rw [partAt_dict, find_erased h2 (pd_mid hd), if_pos (pyEq_refl _)]; rfl
          · intro hq
            cases q with
            | nil => rfl
            | cons b q =>
              have hab : a ≠ b := fun e => hq (prefix_cons.2 ⟨e, List.nil_prefix⟩)
              rw [partAt_dict, partAt_dict, find_erased h2 (pd_mid hd), if_neg (by simp [str_eq, hab])]
      | cons b p =>
        simp only [removePath] at h
        cases hf : items.find? fun x => pyEq x.1 (.str a) with
        | none =>
          simp only [hf, Except.ok.injEq] at h
          subst h
          refine ⟨.dict _ hd hk, fun q => ⟨?_, fun _ => rfl⟩⟩
          intro hq
          cases q with
          | nil => simp at hq
          | cons c q =>
            obtain ⟨rfl, _⟩ := prefix_cons.1 hq
            rw [partAt_dict, hf]; rfl
        | some x =>
          simp only [hf] at h
          cases hr : removePath x.2 (b :: p) with
          | error e => simp [hr, Except.map] at h
          | ok u =>
            simp only [hr, Except.map, Except.ok.injEq] at h
            subst h
            have hx := List.mem_of_find?_eq_some hf
            have hxa : pyEq x.1 (.str a) = true := by simpa using List.find?_some hf
            have hm : mem items (.str a) = true := mem_true.2 ⟨x, hx, hxa⟩
            obtain ⟨hu1, hu2⟩ := ih x.2 u (hk x hx) hr
            refine ⟨.dict _ (pd_store hd) ?_, fun q => ⟨?_, ?_⟩⟩
            · intro y hy
              rcases store_mem hy with hy | ⟨hy, _⟩
              · exact hk y hy
              · rw [hy]; exact hu1
            · intro hq
              cases q with
              | nil => simp at hq
              | cons c q =>
                obtain ⟨rfl, hq'⟩ := prefix_cons.1 hq
                rw [partAt_dict, find_stored hm, if_pos (pyEq_refl _)]
                exact (hu2 q).1 hq'
            · intro hq
              cases q with
              | nil => rfl
              | cons c q =>
                rw [partAt_dict, partAt_dict, find_stored hm]
                by_cases hac : a = c
                · subst hac
                  rw [if_pos (pyEq_refl _), hf]
                  simp only [Option.map_some, Option.bind_some]
                  exact (hu2 q).2 fun h => hq (prefix_cons.2 ⟨rfl, h⟩)
                · rw [if_neg (by simp [str_eq, hac])]

/-- It raises nothing if it does not have to go below a leaf. -/
theorem removePath_ok : ∀ (p : List Str) (t : PTree), p ≠ [] → Reachable t p → ∃ t', removePath t p = .ok t' := by
  intro p
  induction p with
  | nil => intro t h; exact absurd rfl h
  | cons a p ih =>
    intro t _ hr
    cases t with
    | dict items =>
      cases p with
      | nil =>
        simp only [removePath]
        cases erase items (.str a) <;> exact ⟨_, rfl⟩
      | cons b p =>
        simp only [removePath]
        cases hf : items.find? fun x => pyEq x.1 (.str a) with
        | none => exact ⟨_, rfl⟩
        | some x =>
          obtain ⟨u, hu⟩ := ih x.2 (by simp) (by
            intro r h1 h2
            have := hr (a :: r) (prefix_cons.2 ⟨rfl, h1⟩) (by simpa using h2)
            rw [partAt_dict, hf] at this
            exact this)
          simp [hu, Except.map]
    | _ =>
      have := hr [] List.nil_prefix (by simp)
      rw [partAt_nil] at this
      simp [part] at this

/-! ## Paths -/

theorem splitOn_paths : ∀ (p : List Str), (∀ s ∈ p, '/' ∉ s) → (splitOn '/' (pathText p)).tail = p := by
  intro p
  cases p with
  | nil => intro _; rfl
  | cons a p =>
    intro h
    have : pathText (a :: p) = '/' :: (a ++ pathText p) := by simp [pathText]
    rw [this]
    simp only [splitOn, if_true, List.tail_cons]
    clear this
    induction p generalizing a with
    | nil => simp only [pathText, List.map_nil, List.flatten_nil, List.append_nil]; exact splitOn_of_not_mem (h a (by simp))
    | cons b p ih =>
      have : pathText (b :: p) = '/' :: (b ++ pathText p) := by simp [pathText]
      rw [this, splitOn_append_sep '/' a _ (h a (by simp)), ih b fun s hs => h s (by simp [List.mem_cons.1 hs])]

theorem splitOn_head (c : Char) (s : Str) : (splitOn c s).headD [] = s.takeWhile (· ≠ c) := by
  induction s with
  | nil => rfl
  | cons a s ih =>
    simp only [splitOn]
    by_cases h : a = c
    · simp [h]
    · simp only [h, if_false]
      rw [List.takeWhile_cons]
      simp only [h, ne_eq, not_false_eq_true, decide_true, if_true]
      rw [← ih]
      cases splitOn c s <;> simp

/-- Comparing a path with that of the object. -/
theorem trimPath_spec : ∀ (o p : List Str), o.length < p.length →
    (∃ q qs, trimPath o p = some (q :: qs) ∧ p = o.map bareName ++ q :: qs) ∨
    (trimPath o p = none ∧ ∀ r, ¬ p <+: o.map bareName ++ r) := by
  intro o
  induction o with
  | nil =>
    intro p h
    cases p with
    | nil => simp at h
    | cons q qs => exact .inl ⟨q, qs, rfl, rfl⟩
  | cons i o ih =>
    intro p h
    cases p with
    | nil => simp at h
    | cons j p =>
      simp only [trimPath, splitOn_head]
      by_cases hij : bareName i = j
      · have : List.takeWhile (fun x => decide (x ≠ '[')) i = j := hij
        simp only [this, if_true]
        rcases ih p (by simpa using h) with ⟨q, qs, h1, h2⟩ | ⟨h1, h2⟩
        · exact .inl ⟨q, qs, h1, by rw [List.map_cons, List.cons_append, ← h2, hij]⟩
        · refine .inr ⟨h1, fun r hr => ?_⟩
          rw [List.map_cons, List.cons_append] at hr
          exact h2 r (prefix_cons.1 hr).2
      · have : ¬ List.takeWhile (fun x => decide (x ≠ '[')) i = j := hij
        simp only [this, if_false]
        refine .inr ⟨trivial, fun r hr => ?_⟩
        rw [List.map_cons, List.cons_append] at hr
        exact hij (prefix_cons.1 hr).1.symm

theorem skipOne_at {o : List Str} {p : List Str} (hlen : o.length < p.length) (hp : ∀ s ∈ p, '/' ∉ s) {t t' : PTree} (ha : Apart t)
    (h : skipOne o t (pathText p) = .ok t') :
    Apart t' ∧ ∀ q, (p <+: o.map bareName ++ q → partAt t' q = none) ∧ (¬ p <+: o.map bareName ++ q → partAt t' q = partAt t q) := by
  unfold skipOne at h
  rw [splitOn_paths p hp] at h
  rcases trimPath_spec o p hlen with ⟨a, as, h1, h2⟩ | ⟨h1, h2⟩
  · rw [h1] at h
    simp only at h
    obtain ⟨e1, e2⟩ := removePath_at _ _ _ ha h
    refine ⟨e1, fun q => ?_⟩
    rw [h2, List.prefix_append_right_inj]
    exact e2 q
  · rw [h1] at h
    simp only [Except.ok.injEq] at h
    subst h
    exact ⟨ha, fun q => ⟨fun hq => absurd hq (h2 q), fun _ => rfl⟩⟩

theorem skipAll_at {o : List Str} : ∀ (ps : List (List Str)) {t t' : PTree}, (∀ p ∈ ps, o.length < p.length ∧ ∀ s ∈ p, '/' ∉ s) → Apart t →
    skipAll o t (ps.map pathText) = .ok t' →
    ∀ q, ((∃ p ∈ ps, p <+: o.map bareName ++ q) → partAt t' q = none) ∧
      ((¬ ∃ p ∈ ps, p <+: o.map bareName ++ q) → partAt t' q = partAt t q) := by
  intro ps
  induction ps with
  | nil =>
    intro t t' _ _ h q
    simp only [List.map_nil, skipAll, Except.ok.injEq] at h
    subst h
    exact ⟨by simp, fun _ => rfl⟩
  | cons p ps ih =>
    intro t t' hp ha h q
    simp only [List.map_cons, skipAll] at h
    cases h1 : skipOne o t (pathText p) with
    | error e => simp [h1, Except.bind] at h
    | ok u =>
      simp only [h1, Except.bind] at h
      obtain ⟨e1, e2⟩ := skipOne_at (hp p (by simp)).1 (hp p (by simp)).2 ha h1
      obtain ⟨f1, f2⟩ := ih (fun p hp' => hp p (by simp [hp'])) e1 h q
      constructor
      · rintro ⟨r, hr, hrq⟩
        by_cases hc : ∃ p ∈ ps, p <+: o.map bareName ++ q
        · exact f1 hc
        · rw [f2 hc]
          rcases List.mem_cons.1 hr with rfl | hr
          · exact (e2 q).1 hrq
          · exact absurd ⟨r, hr, hrq⟩ hc
      · intro hc
        rw [f2 fun ⟨r, hr, hrq⟩ => hc ⟨r, by simp [hr], hrq⟩]
        exact (e2 q).2 fun hq => hc ⟨p, by simp, hq⟩

theorem skipAll_ok {o : List Str} : ∀ (ps : List (List Str)) {t : PTree}, (∀ p ∈ ps, o.length < p.length ∧ ∀ s ∈ p, '/' ∉ s) → Apart t →
    (∀ p ∈ ps, ∀ r, p = o.map bareName ++ r → Reachable t r) → ∃ t', skipAll o t (ps.map pathText) = .ok t' := by
  intro ps
  induction ps with
  | nil => intro t _ _ _; exact ⟨t, rfl⟩
  | cons p ps ih =>
    intro t hp ha hr
    have h1 : ∃ u, skipOne o t (pathText p) = .ok u := by
      unfold skipOne
      rw [splitOn_paths p (hp p (by simp)).2]
      rcases trimPath_spec o p (hp p (by simp)).1 with ⟨a, as, h1, h2⟩ | ⟨h1, _⟩
      · rw [h1]
        exact removePath_ok _ _ (by simp) (hr p (by simp) _ h2)
      · rw [h1]; exact ⟨t, rfl⟩
    obtain ⟨u, hu⟩ := h1
    obtain ⟨e1, e2⟩ := skipOne_at (hp p (by simp)).1 (hp p (by simp)).2 ha hu
    obtain ⟨t', ht⟩ := ih (t := u) (fun p hp' => hp p (by simp [hp'])) e1 (by
      intro p' hp' r hpr r' h1 h2
      by_cases hc : p <+: o.map bareName ++ r'
      · exact .inl ((e2 r').1 hc)
      · rw [(e2 r').2 hc]
        exact hr p' (by simp [hp']) r hpr r' h1 h2)
    exact ⟨t', by simp only [List.map_cons, skipAll, hu, Except.bind, ht]⟩

/-! ## The trees of objects -/

theorem treeItems_keys (items : List (Str × DVal)) : (treeItems items).map Prod.fst = items.map fun x => .str x.1 := by
  induction items with
  | nil => simp [treeItems]
  | cons x xs ih => simp [treeItems, ih]

theorem mem_treeItems {items : List (Str × DVal)} {y : PyVal × PTree} (h : y ∈ treeItems items) : ∃ x ∈ items, y = (.str x.1, treeOf x.2) := by
  induction items with
  | nil => simp [treeItems] at h
  | cons x xs ih =>
    simp only [treeItems, List.mem_cons] at h
    rcases h with rfl | h
    · exact ⟨x, by simp, rfl⟩
    · obtain ⟨x', h1, h2⟩ := ih h; exact ⟨x', by simp [h1], h2⟩

theorem treeEntries_keys (items : List (PyVal × DVal)) : (treeEntries items).map Prod.fst = items.map Prod.fst := by
  induction items with
  | nil => simp [treeEntries]
  | cons x xs ih => simp [treeEntries, ih]

theorem mem_treeEntries {items : List (PyVal × DVal)} {y : PyVal × PTree} (h : y ∈ treeEntries items) : ∃ x ∈ items, y = (x.1, treeOf x.2) := by
  induction items with
  | nil => simp [treeEntries] at h
  | cons x xs ih =>
    simp only [treeEntries, List.mem_cons] at h
    rcases h with rfl | h
    · exact ⟨x, by simp, rfl⟩
    · obtain ⟨x', h1, h2⟩ := ih h; exact ⟨x', by simp [h1], h2⟩

theorem getKids_sub {f : Bool} : ∀ (kids : List (Meta × Schema)) (ns : List Inst),
    List.Sublist ((getKids f kids ns).map Prod.fst) (kids.map fun k => k.1.name) := by
  intro kids
  induction kids with
  | nil => intro ns; simp [getKids]
  | cons k ks ih =>
    intro ns
    cases ns with
    | nil => simp [getKids]
    | cons n ns =>
      simp only [getKids]
      split
      · simp only [List.map_cons]; exact (ih ns).cons_cons _
      · simp only [List.map_cons]; exact (ih ns).cons _

theorem mem_getKids {f : Bool} : ∀ {kids : List (Meta × Schema)} {ns : List Inst} {x : Str × DVal}, x ∈ getKids f kids ns →
    ∃ (i : Nat) (k : Meta × Schema) (c : Inst), kids[i]? = some k ∧ ns[i]? = some c ∧ x = (k.1.name, getNode f k.2 c) := by
  intro kids
  induction kids with
  | nil => intro ns x h; simp [getKids] at h
  | cons k ks ih =>
    intro ns x h
    cases ns with
    | nil => simp [getKids] at h
    | cons n ns =>
      simp only [getKids] at h
      split at h
      · rcases List.mem_cons.1 h with rfl | h
        · exact ⟨0, k, n, rfl, rfl, rfl⟩
        · obtain ⟨i, k', c, h1, h2, h3⟩ := ih h; exact ⟨i + 1, k', c, h1, h2, h3⟩
      · obtain ⟨i, k', c, h1, h2, h3⟩ := ih h; exact ⟨i + 1, k', c, h1, h2, h3⟩

theorem nodup_strs {xs : List Str} (h : xs.Nodup) : PD (xs.map PyVal.str) := by
  unfold PD
  rw [List.pairwise_map]
  exact h.imp fun hab => by simp [str_eq, hab]

theorem getKids_apart {f : Bool} {pres : Bool} {kids : List (Meta × Schema)} (hd : DistinctNames (.cont pres kids)) {ns : List Inst}
    (h : ∀ (i : Nat) k c, kids[i]? = some k → ns[i]? = some c → Apart (treeOf (getNode f k.2 c))) :
    Apart (treeOf (.dict (getKids f kids ns))) := by
  simp only [treeOf]
  refine .dict _ ?_ ?_
  · rw [treeItems_keys]
    have : (getKids f kids ns).map (fun x => PyVal.str x.1) = ((getKids f kids ns).map Prod.fst).map PyVal.str := by simp
    rw [this]
    exact nodup_strs ((getKids_sub kids ns).nodup (hd [] pres kids (by cases kids <;> rfl)))
  · intro y hy
    obtain ⟨x, hx, rfl⟩ := mem_treeItems hy
    obtain ⟨i, k, c, h1, h2, rfl⟩ := mem_getKids hx
    exact h i k c h1 h2

theorem get_apart {P : LInv} {f : Bool} : ∀ (S : Schema) (n : Inst), DistinctNames S → ObjInv P S n → Apart (treeOf (getNode f S n)) := by
  intro S
  induction S using Schema.ind with
  | hleaf L => intro n _ h; cases h; simp only [getNode, treeOf]; exact .leaf _
  | hll L => intro n _ h; cases h; simp only [getNode, treeOf]; exact .vals _
  | hcont pres kids ih =>
    intro n hd h
    cases h with
    | cont _ _ ch pr ns h1 h2 =>
      simp only [getNode, Inst.kids]
      refine getKids_apart hd ?_
      intro i k c hk hc
      exact ih k (List.mem_of_getElem? hk) c (distinct_kid hd hk) (h2 i k c hk hc)
  | hlist info kids ih =>
    intro n hd h
    cases h with
    | list _ _ ch es h1 h2 =>
      simp only [getNode, treeOf]
      refine .dict _ ?_ ?_
      · rw [treeEntries_keys, List.map_map]
        exact h2
      · intro y hy
        obtain ⟨x, hx, rfl⟩ := mem_treeEntries hy
        obtain ⟨q, hq, rfl⟩ := List.mem_map.1 hx
        have := h1 q hq
        refine getKids_apart (distinct_entry hd) ?_
        intro i k c hk hc
        cases hq2 : q.2 with
        | cont ch' pr' ns' =>
          rw [hq2] at this hc
          cases this with
          | cont _ _ _ _ _ _ h3 => exact ih k (List.mem_of_getElem? hk) c (distinct_kid (distinct_entry hd) hk) (h3 i k c hk hc)
        | _ => rw [hq2] at this; cases this

theorem root_apart {f : Bool} {kids : List (Meta × Schema)} (hd : DistinctNames (.cont false kids)) (ops : List (Path × Op)) :
    Apart (treeOf (getRoot f kids (history kids (freshKids kids) ops))) := by
  have := history_obj fromClass_stable (ops := ops) (rootObj_fresh fromClass_stable kids)
  exact getKids_apart hd fun i k c hk hc => get_apart _ _ (distinct_kid hd hk) (this.2 i k c hk hc)

theorem obj_at {P : LInv} : ∀ {p : Path} {S T : Schema} {n m : Inst}, ObjInv P S n → schemaAt S p = some T → nodeAt n p = some m →
    ObjInv P T m := by
  intro p
  induction p with
  | nil => intro S T n m h hS hn; simp at hS hn; subst hS; subst hn; exact h
  | cons s p ih =>
    intro S T n m h hS hn
    cases h with
    | leaf => simp [nodeAt_leaf] at hn
    | leafList => simp [nodeAt_leafList] at hn
    | cont pres kids ch pr ns h1 h2 =>
      cases s with
      | key k => simp [nodeAt_cont_key] at hn
      | field i =>
        rw [nodeAt_cont] at hn
        rw [schemaAt_cont] at hS
        cases hc : ns[i]? with
        | none => simp [hc] at hn
        | some c =>
          cases hk : kids[i]? with
          | none => simp [hk] at hS
          | some k =>
            simp only [hc, hk, Option.bind_some] at hn hS
            exact ih (h2 i k c hk hc) hS hn
    | list info kids ch es h1 h2 =>
      cases s with
      | field k => simp [nodeAt_list_field] at hn
      | key k =>
        simp only [schemaAt] at hS
        simp only [nodeAt] at hn
        cases hf : es.find? fun q => pyEq q.1 k with
        | none => simp [hf] at hn
        | some q =>
          simp only [hf] at hn
          exact ih (h1 q (List.mem_of_find?_eq_some hf)) hS hn

/-! # `select` -/

theorem find_unique {α : Type} {l : List (Str × α)} (h : (l.map Prod.fst).Nodup) {x : Str × α} (hx : x ∈ l) :
    l.find? (fun y => y.1 == x.1) = some x := by
  induction l with
  | nil => simp at hx
  | cons y l ih =>
    simp only [List.map_cons, List.nodup_cons] at h
    rw [List.find?_cons]
    rcases List.mem_cons.1 hx with rfl | hx
    · simp
    · have : (y.1 == x.1) = false := by
        simp only [beq_eq_false_iff_ne]
        intro e
        exact h.1 (List.mem_map.2 ⟨x, hx, e.symm⟩)
      rw [this]; exact ih h.2 hx

theorem bareFind_mem {l : List (Str × PTree)} (h : (l.map Prod.fst).Nodup) {x : Str × PTree} (hx : x ∈ l) : bareFind l x.1 = some x.2 := by
  unfold bareFind
  rw [find_unique (l := l.reverse) (by rw [List.map_reverse]; exact List.pairwise_reverse.2 (h.imp fun hab => Ne.symm hab)) (by simpa using hx)]
  rfl

theorem bareFind_none {l : List (Str × PTree)} {k : Str} (h : ∀ x ∈ l, x.1 ≠ k) : bareFind l k = none := by
  unfold bareFind
  rw [List.find?_eq_none.2]
  · rfl
  · intro x hx; simpa using h x (by simpa using hx)

theorem bareDict_plain {items : List (Str × DVal)} (h : ∀ x ∈ items, ':' ∉ x.1) :
    bareDict (treeItems items) = .ok (items.map fun x => (x.1, treeOf x.2)) := by
  induction items with
  | nil => simp [treeItems, bareDict]
  | cons x xs ih =>
    simp only [treeItems, bareDict, bareKey, h x (by simp), if_false, Except.bind, ih fun y hy => h y (by simp [hy]), Except.map,
      List.map_cons]

theorem plain_kid {pres : Bool} {kids : List (Meta × Schema)} (h : PlainNames (.cont pres kids)) {i : Nat}
    {k : Meta × Schema} (hk : kids[i]? = some k) : PlainNames k.2 := by
  intro p pres' kids' hs
  exact h (.field i :: p) pres' kids' (by rw [schemaAt_cont, hk]; exact hs)

theorem plain_entry {info : ListInfo} {kids : List (Meta × Schema)} (h : PlainNames (.list info kids)) :
    PlainNames (.cont false kids) := by
  intro p pres' kids' hs
  exact h (.key .none :: p) pres' kids' hs

theorem treeItems_map (items : List (Str × DVal)) : treeItems items = items.map fun x => (.str x.1, treeOf x.2) := by
  induction items with
  | nil => simp [treeItems]
  | cons x xs ih => simp [treeItems, ih]

theorem treeEntries_map (items : List (PyVal × DVal)) : treeEntries items = items.map fun x => (x.1, treeOf x.2) := by
  induction items with
  | nil => simp [treeEntries]
  | cons x xs ih => simp [treeEntries, ih]

theorem treeItems_find {items : List (Str × DVal)} (h : (items.map Prod.fst).Nodup) {x : Str × DVal} (hx : x ∈ items) :
    (treeItems items).find? (fun y => pyEq y.1 (.str x.1)) = some (.str x.1, treeOf x.2) := by
  rw [treeItems_map, List.find?_map]
  have : ((fun y : PyVal × PTree => pyEq y.1 (.str x.1)) ∘ fun x : Str × DVal => (PyVal.str x.1, treeOf x.2)) = fun y => y.1 == x.1 := by
    funext y
    simp only [Function.comp, str_eq]
    by_cases e : y.1 = x.1 <;> simp [e]
  rw [this, find_unique h hx]
  rfl

/-- Looking a set leaf up. -/
theorem lookup_leaf {f : Bool} {P : LInv} : ∀ {p : Path} {pres : Bool} {kids : List (Meta × Schema)} {ch pr : Bool} {ns : List Inst} {names : List Str} {L : LeafCls} {v : PyVal},
    DistinctNames (.cont pres kids) → PlainNames (.cont pres kids) → ObjInv P (.cont pres kids) (.cont ch pr ns) →
    namesTo (.cont pres kids) p = some names → schemaAt (.cont pres kids) p = some (.leaf L) → nodeAt (.cont ch pr ns) p = some (.leaf v true) →
    lookupSub (.dict (treeItems (getKids f kids ns))) names = .ok (.leaf v) := by
  intro p
  induction p with
  | nil => intro _ _ _ _ _ _ _ _ _ _ _ _ h; simp at h
  | cons s p ih =>
    intro pres kids ch pr ns names L v hd hp ho hN hS hn
    cases s with
    | key k => simp [nodeAt_cont_key] at hn
    | field i =>
      rw [nodeAt_cont] at hn
      rw [schemaAt_cont] at hS
      cases hc : ns[i]? with
      | none => simp [hc] at hn
      | some c =>
        cases hk : kids[i]? with
        | none => simp [hk] at hS
        | some k =>
          simp only [hc, hk, Option.bind_some] at hn hS
          simp only [namesTo, hk] at hN
          cases hN' : namesTo k.2 p with
          | none => simp [hN'] at hN
          | some rest =>
            simp only [hN', Option.map_some, Option.some.injEq] at hN
            have hkeep : keepItem f k.2 c (getNode f k.2 c) = true := by
              cases f
              · exact keep_all ..
              · exact (keep_iff _ _).2 (visible_above hS hn (.inl .leaf))
            have hnd : (kids.map fun k => k.1.name).Nodup := hd [] pres kids rfl
            have hnd' : ((getKids f kids ns).map Prod.fst).Nodup := (getKids_sub kids ns).nodup hnd
            have hx : (k.1.name, getNode f k.2 c) ∈ getKids f kids ns := by
              have := getKids_find (f := f) hnd hk hc
              rw [if_pos hkeep] at this
              exact List.mem_of_find?_eq_some this
            have hb : bareDict (treeItems (getKids f kids ns)) = .ok ((getKids f kids ns).map fun x => (x.1, treeOf x.2)) := by
              refine bareDict_plain fun x hx => ?_
              obtain ⟨k', hk', e⟩ := getKids_name hx
              rw [e]
              exact hp [] pres kids rfl k' hk'
            have hbf : bareFind ((getKids f kids ns).map fun x => (x.1, treeOf x.2)) k.1.name = some (treeOf (getNode f k.2 c)) :=
              bareFind_mem (x := (k.1.name, treeOf (getNode f k.2 c))) (by rw [List.map_map]; exact hnd') (List.mem_map.2 ⟨_, hx, rfl⟩)
            have hoc : ObjInv P k.2 c := by
              cases ho with
              | cont _ _ _ _ _ h1 h2 => exact h2 i k c hk hc
            obtain ⟨km, kS⟩ := k
            simp only at hoc hN' hS hn hbf hx hN
            cases p with
            | nil =>
              simp at hS hn
              simp only [namesTo, Option.some.injEq] at hN'
              subst hN'; subst hN
              simp only [lookupSub, hb, Except.bind, hbf]
              rw [hS, hn]
              simp [getNode, treeOf]
            | cons s' p' =>
              cases hoc with
              | cont pres' kids' ch' pr' ns' g1 g2 =>
                have hne : ∃ a as, rest = a :: as := by
                  cases rest with
                  | cons a as => exact ⟨a, as, rfl⟩
                  | nil =>
                    cases s' with
                    | key _ => simp [namesTo] at hN'
                    | field j =>
                      simp only [namesTo] at hN'
                      cases hj : kids'[j]? with
                      | none => simp [hj] at hN'
                      | some k2 =>
                        simp only [hj] at hN'
                        cases h3 : namesTo k2.2 p' <;> simp [h3] at hN'
                obtain ⟨a, as, rfl⟩ := hne
                subst hN
                simp only [lookupSub, hb, Except.bind, hbf]
                rw [treeItems_find hnd' hx]
                simp only
                simp only [getNode, Inst.kids, treeOf]
                have hd' := distinct_kid hd hk
                have hp' := plain_kid hp hk
                exact ih hd' hp' (.cont _ _ _ _ _ g1 g2) hN' hS hn
              | leaf => simp [nodeAt_leaf] at hn
              | leafList => simp [nodeAt_leafList] at hn
              | list =>
                simp [namesTo] at hN'

theorem keepEntry_ok {α : Type} {repr : PTree → Str} {key : α → Str} {g : α → PyVal} {t : PTree} : ∀ {sel : List (α × Str)},
    (∀ s ∈ sel, lookupSub t (splitOn '.' (key s.1)) = .ok (.leaf (g s.1))) →
    keepEntry repr (sel.map fun s => (key s.1, s.2)) t = .ok (sel.all fun s => (g s.1).toStr == s.2) := by
  intro sel
  induction sel with
  | nil => intro _; rfl
  | cons s sel ih =>
    intro h
    simp only [List.map_cons, keepEntry, h s (by simp), Except.bind, treeStr, List.all_cons]
    by_cases he : (g s.1).toStr = s.2
    · simp only [he, if_true, beq_self_eq_true, Bool.true_and]
      exact ih fun s hs => h s (by simp [hs])
    · simp [he]

theorem dropKeys_ok {repr : PTree → Str} {sel : List (Str × Str)} {keep : PyVal × PTree → Bool} : ∀ {items : List (PyVal × PTree)},
    (∀ x ∈ items, keepEntry repr sel x.2 = .ok (keep x)) →
    dropKeys repr sel items = .ok ((items.filter fun x => !keep x).map Prod.fst) := by
  intro items
  induction items with
  | nil => intro _; rfl
  | cons x xs ih =>
    intro h
    simp only [dropKeys, h x (by simp), Except.bind, ih fun y hy => h y (by simp [hy]), Except.map, List.filter_cons]
    cases keep x <;> simp

theorem erase_mid {E : Type} {l r : Members E} {x : PyVal × E} (h : ∀ q ∈ l, pyEq q.1 x.1 = false) : erase (l ++ x :: r) x.1 = .ok (l ++ r) := by
  induction l with
  | nil => simp [erase, pyEq_refl]
  | cons y l ih => simp [erase, h y (by simp), ih fun q hq => h q (by simp [hq]), Except.map]

theorem eraseAll_ok {keep : PyVal × PTree → Bool} : ∀ {ys l : List (PyVal × PTree)}, PD ((l ++ ys).map Prod.fst) →
    eraseAll (l ++ ys) ((ys.filter fun x => !keep x).map Prod.fst) = .ok (l ++ ys.filter keep) := by
  intro ys
  induction ys with
  | nil => intro l _; rfl
  | cons y ys ih =>
    intro l h
    by_cases hk : keep y = true
    · have := ih (l := l ++ [y]) (by simpa using h)
      simpa [List.filter_cons, hk] using this
    · simp only [Bool.not_eq_true] at hk
      simp only [List.filter_cons, hk, Bool.not_false, if_true, List.map_cons, eraseAll, Bool.false_eq_true, if_false]
      have hm := pd_mid h
      rw [erase_mid fun q hq => hm q (by simp [hq])]
      simp only [Except.bind]
      refine ih ?_
      refine List.Pairwise.sublist ?_ h
      exact (((List.sublist_cons_self y ys).append_left l).map _)

theorem dropElems_ok {repr : PTree → Str} {sel : List (Str × Str)} {keep : PTree → Bool} : ∀ {xs : List PTree},
    (∀ x ∈ xs, keepEntry repr sel x = .ok (keep x)) → dropElems repr sel xs = .ok (xs.filter fun x => !keep x) := by
  intro xs
  induction xs with
  | nil => intro _; rfl
  | cons x xs ih =>
    intro h
    simp only [dropElems, h x (by simp), Except.bind, ih fun y hy => h y (by simp [hy]), Except.map, List.filter_cons]
    cases keep x <;> simp

theorem removeElem_mid {eq : PTree → PTree → Bool} {l r : List PTree} {x : PTree} (h : ∀ q ∈ l, eq q x = false) (hx : eq x x = true) :
    removeElem eq (l ++ x :: r) x = .ok (l ++ r) := by
  induction l with
  | nil => simp [removeElem, hx]
  | cons y l ih => simp [removeElem, h y (by simp), ih fun q hq => h q (by simp [hq]), Except.map]

theorem removeAll_ok {eq : PTree → PTree → Bool} {keep : PTree → Bool} : ∀ {ys l : List PTree}, (∀ x ∈ ys, eq x x = true) →
    (∀ x ∈ l ++ ys, ∀ y ∈ ys, eq x y = true → keep x = keep y) → (∀ x ∈ l, keep x = true) →
    removeAll eq (l ++ ys) (ys.filter fun x => !keep x) = .ok (l ++ ys.filter keep) := by
  intro ys
  induction ys with
  | nil => intro l _ _ _; rfl
  | cons y ys ih =>
    intro l h1 h2 h3
    by_cases hk : keep y = true
    · have := ih (l := l ++ [y]) (fun x hx => h1 x (by simp [hx])) (fun x hx z hz => h2 x (by simpa using hx) z (by simp [hz]))
        (fun x hx => by rcases List.mem_append.1 hx with hx | hx; · exact h3 x hx
                        · simp at hx; rw [hx]; exact hk)
      simpa [List.filter_cons, hk] using this
    · simp only [Bool.not_eq_true] at hk
      simp only [List.filter_cons, hk, Bool.not_false, if_true, removeAll, Bool.false_eq_true, if_false]
      rw [removeElem_mid _ (h1 y (by simp))]
      · simp only [Except.bind]
        refine ih (fun x hx => h1 x (by simp [hx])) (fun x hx z hz => h2 x ?_ z (by simp [hz])) h3
        rcases List.mem_append.1 hx with hx | hx <;> simp [hx]
      · intro q hq
        cases he : eq q y with
        | false => rfl
        | true =>
          have := h2 q (by simp [hq]) y (by simp) he
          rw [h3 q hq, hk] at this
          simp at this

theorem dotted_split {S : Schema} {p : Path} {names : List Str} (h : namesTo S p = some names) (hne : names ≠ []) (hd : ∀ s ∈ names, '.' ∉ s) :
    splitOn '.' (dotted S p) = names := by
  unfold dotted
  rw [h]
  exact splitOn_join '.' names hne hd

theorem names_ne_nil {kids : List (Meta × Schema)} {p : Path} {names : List Str} {L : LeafCls} (h : namesTo (.cont false kids) p = some names)
    (hS : schemaAt (.cont false kids) p = some (.leaf L)) : names ≠ [] := by
  cases p with
  | nil => simp at hS
  | cons s p =>
    cases s with
    | key _ => simp [namesTo] at h
    | field i =>
      simp only [namesTo] at h
      cases hk : kids[i]? with
      | none => simp [hk] at h
      | some k =>
        simp only [hk] at h
        cases h3 : namesTo k.2 p with
        | none => simp [h3] at h
        | some r => simp only [h3, Option.map_some, Option.some.injEq] at h; subst h; simp

/-! # The tree that remains -/

mutual
theorem without_nil : ∀ t : PTree, without [] t = t
  | .leaf v => rfl
  | .vals v => rfl
  | .arr v => rfl
  | .dict items => by rw [without, withoutItems_nil items]
theorem withoutItems_nil : ∀ items : List (PyVal × PTree), withoutItems [] items = items
  | [] => by rw [withoutItems]
  | x :: xs => by
    have h : below [] x.1 = [] := rfl
    rw [withoutItems, h, without_nil x.2, withoutItems_nil xs]
    rfl
end

theorem below_append (ps qs : List (List Str)) (k : PyVal) : below (ps ++ qs) k = below ps k ++ below qs k := List.filterMap_append

mutual
theorem without_without : ∀ (ps qs : List (List Str)) (t : PTree), without qs (without ps t) = without (ps ++ qs) t
  | _, _, .leaf v => rfl
  | _, _, .vals v => rfl
  | _, _, .arr v => rfl
  | ps, qs, .dict items => by rw [without, without, without, withoutItems_twice ps qs items]
theorem withoutItems_twice : ∀ (ps qs : List (List Str)) (items : List (PyVal × PTree)),
    withoutItems qs (withoutItems ps items) = withoutItems (ps ++ qs) items
  | _, _, [] => by simp [withoutItems]
  | ps, qs, x :: xs => by
    have ih := withoutItems_twice ps qs xs
    have ih2 := without_without (below ps x.1) (below qs x.1) x.2
    rw [withoutItems, withoutItems, below_append]
    by_cases h1 : [] ∈ below ps x.1
    · rw [if_pos h1, if_pos (List.mem_append_left _ h1), ih]
    · rw [if_neg h1, withoutItems]
      by_cases h2 : [] ∈ below qs x.1
      · rw [if_pos h2, if_pos (List.mem_append_right _ h2), ih]
      · rw [if_neg h2, if_neg (by simp [h1, h2]), ih, ih2]
end

theorem withoutItems_append (ps : List (List Str)) (l r : List (PyVal × PTree)) : withoutItems ps (l ++ r) = withoutItems ps l ++ withoutItems ps r := by
  induction l with
  | nil => simp [withoutItems]
  | cons x l ih =>
    simp only [List.cons_append, withoutItems, ih]
    split <;> simp

theorem withoutItems_other {a : Str} {p : List Str} : ∀ {items : List (PyVal × PTree)}, (∀ x ∈ items, pyEq x.1 (.str a) = false) →
    withoutItems [a :: p] items = items := by
  intro items
  induction items with
  | nil => intro _; simp [withoutItems]
  | cons x xs ih =>
    intro h
    have hb : below [a :: p] x.1 = [] := by simp [below, h x (by simp)]
    rw [withoutItems, hb, ih fun y hy => h y (by simp [hy]), without_nil]
    rfl

theorem removePath_without : ∀ (p : List Str) (t t' : PTree), Apart t → removePath t p = .ok t' → t' = without [p] t := by
  intro p
  induction p with
  | nil => intro t t' _ h; cases t <;> simp [removePath] at h
  | cons a p ih =>
    intro t t' ha h
    cases ha with
    | leaf v => cases p <;> simp [removePath] at h
    | vals v => cases p <;> simp [removePath] at h
    | arr v => cases p <;> simp [removePath] at h
    | dict items hd hk =>
      cases p with
      | nil =>
        simp only [removePath] at h
        cases he : erase items (.str a) with
        | error e =>
          simp only [he, Except.ok.injEq] at h
          subst h
          rw [without, withoutItems_other]
          intro x hx
          cases hx' : pyEq x.1 (.str a) with
          | false => rfl
          | true =>
            obtain ⟨_, hm⟩ := erase_present (mem_true.2 ⟨x, hx, hx'⟩)
            rw [he] at hm
            simp at hm
        | ok items' =>
          simp only [he, Except.ok.injEq] at h
          subst h
          obtain ⟨l, x, r, h1, h2, h3, h4⟩ := erase_ok he
          subst h1; subst h4
          have hm := pd_mid hd
          rw [without, withoutItems_append, withoutItems_other h3, withoutItems]
          rw [if_pos (by simp [below, h2]), withoutItems_other]
          intro y hy
          have := hm y (by simp [hy])
          rw [pyEq_symm, pyEq_trans h2, pyEq_symm] at this
          exact this
      | cons b p =>
        simp only [removePath] at h
        cases hf : items.find? fun x => pyEq x.1 (.str a) with
        | none =>
          simp only [hf, Except.ok.injEq] at h
          subst h
          rw [without, withoutItems_other]
          intro x hx
          simpa using List.find?_eq_none.1 hf x hx
        | some x =>
          simp only [hf] at h
          cases hr : removePath x.2 (b :: p) with
          | error e => simp [hr, Except.map] at h
          | ok u =>
            simp only [hr, Except.map, Except.ok.injEq] at h
            subst h
            have hx := List.mem_of_find?_eq_some hf
            have hxa : pyEq x.1 (.str a) = true := by simpa using List.find?_some hf
            have hm : mem items (.str a) = true := mem_true.2 ⟨x, hx, hxa⟩
            have hu := ih x.2 u (hk x hx) hr
            obtain ⟨l, y, r, h1, h2, h3, h4⟩ := store_old (e := u) hm
            subst h1
            have hxy : x = y := by
              have : (l ++ y :: r).find? (fun x => pyEq x.1 (.str a)) = some y := by
                rw [List.find?_append, List.find?_eq_none.2 (fun q hq => by simp [h3 q hq]), List.find?_cons, h2]
                rfl
              rw [this] at hf
              simpa using hf.symm
            subst hxy
            have hmid := pd_mid hd
            rw [h4, without, withoutItems_append, withoutItems_other h3, withoutItems]
            have hb : below [a :: b :: p] x.1 = [b :: p] := by simp [below, h2]
            rw [hb, if_neg (by simp), withoutItems_other, hu]
            intro y hy
            have := hmid y (by simp [hy])
            rw [pyEq_symm, pyEq_trans h2, pyEq_symm] at this
            exact this

theorem skipAll_without {o : List Str} : ∀ (ps : List (List Str)) {t t' : PTree}, (∀ p ∈ ps, o.length < p.length ∧ ∀ s ∈ p, '/' ∉ s) → Apart t →
    skipAll o t (ps.map pathText) = .ok t' → t' = without (ps.filterMap (relTo (o.map bareName))) t := by
  intro ps
  induction ps with
  | nil =>
    intro t t' _ _ h
    simp only [List.map_nil, skipAll, Except.ok.injEq] at h
    rw [List.filterMap_nil, without_nil]
    exact h.symm
  | cons p ps ih =>
    intro t t' hp ha h
    simp only [List.map_cons, skipAll] at h
    cases h1 : skipOne o t (pathText p) with
    | error e => simp [h1, Except.bind] at h
    | ok u =>
      simp only [h1, Except.bind] at h
      obtain ⟨e1, _⟩ := skipOne_at (hp p (by simp)).1 (hp p (by simp)).2 ha h1
      rw [ih (fun p hp' => hp p (by simp [hp'])) e1 h]
      unfold skipOne at h1
      rw [splitOn_paths p (hp p (by simp)).2] at h1
      rcases trimPath_spec o p (hp p (by simp)).1 with ⟨a, as, h2, h3⟩ | ⟨h2, h3⟩
      · rw [h2] at h1
        have hr : relTo (o.map bareName) p = some (a :: as) := by
          rw [h3, relTo, if_pos (List.prefix_append _ _)]
          simp
        rw [List.filterMap_cons, hr]
        simp only
        rw [removePath_without _ _ _ ha h1, without_without]
        rfl
      · rw [h2] at h1
        simp only [Except.ok.injEq] at h1
        subst h1
        have hr : relTo (o.map bareName) p = none := by
          rw [relTo, if_neg]
          rintro ⟨r, hr⟩
          exact h3 r (by rw [hr]; exact List.prefix_refl _)
        rw [List.filterMap_cons, hr]

/-! # Objects of a history, and IETF trees -/

theorem history_at {kids : List (Meta × Schema)} {ops : List (Path × Op)} {p : Path} {T : Schema} {m : Inst}
    (hS : schemaAt (.cont false kids) p = some T) (hn : nodeAt (.cont false false (history kids (freshKids kids) ops)) p = some m) :
    ObjInv fromClass T m := by
  have := history_obj fromClass_stable (ops := ops) (rootObj_fresh fromClass_stable kids)
  exact obj_at (.cont false kids false false _ this.1 this.2) hS hn

theorem distinct_at : ∀ {p : Path} {S T : Schema}, DistinctNames S → schemaAt S p = some T → DistinctNames T := by
  intro p
  induction p with
  | nil => intro S T h hS; simp at hS; subst hS; exact h
  | cons s p ih =>
    intro S T h hS
    cases S with
    | cont pres kids =>
      cases s with
      | key _ => simp [schemaAt] at hS
      | field i =>
        rw [schemaAt_cont] at hS
        cases hk : kids[i]? with
        | none => simp [hk] at hS
        | some k => simp only [hk, Option.bind_some] at hS; exact ih (distinct_kid h hk) hS
    | list info kids =>
      cases s with
      | field _ => simp [schemaAt] at hS
      | key _ => exact ih (distinct_entry h) hS
    | _ => simp [schemaAt] at hS

theorem plain_at : ∀ {p : Path} {S T : Schema}, PlainNames S → schemaAt S p = some T → PlainNames T := by
  intro p
  induction p with
  | nil => intro S T h hS; simp at hS; subst hS; exact h
  | cons s p ih =>
    intro S T h hS
    cases S with
    | cont pres kids =>
      cases s with
      | key _ => simp [schemaAt] at hS
      | field i =>
        rw [schemaAt_cont] at hS
        cases hk : kids[i]? with
        | none => simp [hk] at hS
        | some k => simp only [hk, Option.bind_some] at hS; exact ih (plain_kid h hk) hS
    | list info kids =>
      cases s with
      | field _ => simp [schemaAt] at hS
      | key _ => exact ih (plain_entry h) hS
    | _ => simp [schemaAt] at hS

theorem mem_ietfItems {o : DumpOpt} {pns : Option Str} : ∀ {kids : List (Meta × Schema)} {ns : List Inst} {x : PyVal × PTree}, x ∈ ietfItems o pns kids ns →
    ∃ (i : Nat) (k : Meta × Schema) (c : Inst), kids[i]? = some k ∧ ns[i]? = some c ∧ x.1 = .str (ietfName pns k.1) ∧ ietfTree o k.1 k.2 c = some x.2 := by
  intro kids
  induction kids with
  | nil => intro ns x h; simp [ietfItems] at h
  | cons k ks ih =>
    intro ns x h
    cases ns with
    | nil => simp [ietfItems] at h
    | cons n ns =>
      simp only [ietfItems] at h
      cases ht : ietfTree o k.1 k.2 n with
      | none =>
        simp only [ht] at h
        obtain ⟨i, k', c, h1, h2, h3⟩ := ih h
        exact ⟨i + 1, k', c, h1, h2, h3⟩
      | some t =>
        simp only [ht] at h
        rcases List.mem_cons.1 h with rfl | h
        · exact ⟨0, k, n, rfl, rfl, rfl, ht⟩
        · obtain ⟨i, k', c, h1, h2, h3⟩ := ih h
          exact ⟨i + 1, k', c, h1, h2, h3⟩

theorem ietfItems_sub {o : DumpOpt} {pns : Option Str} : ∀ {kids : List (Meta × Schema)} {ns : List Inst},
    ((ietfItems o pns kids ns).map Prod.fst).Sublist (kids.map fun k => .str (ietfName pns k.1)) := by
  intro kids
  induction kids with
  | nil => intro ns; simp [ietfItems]
  | cons k ks ih =>
    intro ns
    cases ns with
    | nil => simp [ietfItems]
    | cons n ns =>
      simp only [ietfItems]
      cases ht : ietfTree o k.1 k.2 n with
      | none => simp only [List.map_cons]; exact ih.cons _
      | some t => simp only [List.map_cons]; exact ih.cons_cons _

theorem ietf_distinct {pns : Option Str} {kids : List (Meta × Schema)} (hp : ∀ k ∈ kids, ':' ∉ k.1.name) (hd : (kids.map fun k => k.1.name).Nodup) :
    (kids.map fun k => ietfName pns k.1).Nodup := by
  have h2 : (kids.map fun k => localKey (ietfName pns k.1)).Nodup := by
    have : (kids.map fun k => localKey (ietfName pns k.1)) = kids.map fun k => k.1.name :=
      List.map_congr_left fun k hk => localKey_name (hp k hk)
    rw [this]; exact hd
  have e : (kids.map fun k => localKey (ietfName pns k.1)) = (kids.map fun k => ietfName pns k.1).map localKey := by simp
  rw [e] at h2
  exact List.Pairwise.of_map localKey (fun a b h e => h (by rw [e])) h2

theorem ietf_apart {o : DumpOpt} {pres : Bool} : ∀ (S : Schema) (m : Meta) (n : Inst) (t : PTree), DistinctNames S → PlainNames S → ietfTree o m S n = some t → Apart t := by
  intro S
  induction S using Schema.ind with
  | hleaf L =>
    intro m n t _ _ h
    cases n <;> simp [ietfTree] at h
    obtain ⟨_, rfl⟩ := h; exact .leaf _
  | hll L =>
    intro m n t _ _ h
    cases n <;> simp [ietfTree] at h
    obtain ⟨_, rfl⟩ := h; exact .vals _
  | hlist info kids ih =>
    intro m n t _ _ h
    cases n <;> simp [ietfTree] at h
    obtain ⟨_, rfl⟩ := h; exact .arr _
  | hcont pres kids ih =>
    intro m n t hd hp h
    cases n with
    | cont ch pr ns =>
      simp only [ietfTree] at h
      split at h
      · simp at h
      · simp only [Option.some.injEq] at h
        subst h
        refine .dict _ ?_ ?_
        · refine List.Pairwise.sublist ietfItems_sub ?_
          have := nodup_strs (ietf_distinct (pns := some m.ns) (hp [] pres kids rfl) (hd [] pres kids rfl))
          unfold PD at this
          rwa [List.map_map] at this
        · intro x hx
          obtain ⟨i, k, c, h1, h2, _, h4⟩ := mem_ietfItems hx
          exact ih k (List.mem_of_getElem? h1) k.1 c x.2 (distinct_kid hd h1) (plain_kid hp h1) h4
    | _ => simp [ietfTree] at h

theorem ietfItems_apart {o : DumpOpt} {pns : Option Str} {pres : Bool} {kids : List (Meta × Schema)} (hd : DistinctNames (.cont pres kids)) (hp : PlainNames (.cont pres kids))
    (ns : List Inst) : Apart (.dict (ietfItems o pns kids ns)) := by
  refine .dict _ ?_ ?_
  · refine List.Pairwise.sublist ietfItems_sub ?_
    have := nodup_strs (ietf_distinct (pns := pns) (hp [] pres kids rfl) (hd [] pres kids rfl))
    unfold PD at this
    rwa [List.map_map] at this
  · intro x hx
    obtain ⟨i, k, c, h1, h2, _, h4⟩ := mem_ietfItems hx
    exact ietf_apart (pres := pres) k.2 k.1 c x.2 (distinct_kid hd h1) (plain_kid hp h1) h4

theorem bareKey_ietf {m : Meta} (hn : ':' ∉ m.name) (hm : ':' ∉ m.module_) : bareKey (.str (ietfName none m)) = .ok m.name := by
  have : ietfName none m = m.module_ ++ ':' :: m.name := by simp [ietfName]
  simp only [bareKey, this]
  rw [if_pos (by simp), splitOn_two hm hn]
  rfl

theorem ietf_bare {o : DumpOpt} : ∀ {kids : List (Meta × Schema)} {ns : List Inst}, (∀ k ∈ kids, ':' ∉ k.1.name ∧ ':' ∉ k.1.module_) →
    ∃ l, bareDict (ietfItems o none kids ns) = .ok l ∧ (l.map Prod.fst).Sublist (kids.map fun k => k.1.name) ∧
      ∀ (i : Nat) (k : Meta × Schema) c t, kids[i]? = some k → ns[i]? = some c → ietfTree o k.1 k.2 c = some t → (k.1.name, t) ∈ l := by
  intro kids
  induction kids with
  | nil => intro ns _; exact ⟨[], by simp [ietfItems, bareDict], by simp, by simp⟩
  | cons k ks ih =>
    intro ns h
    cases ns with
    | nil => exact ⟨[], by simp [ietfItems, bareDict], by simp, by simp⟩
    | cons n ns =>
      obtain ⟨l, h1, h2, h3⟩ := ih (ns := ns) fun k hk => h k (by simp [hk])
      cases ht : ietfTree o k.1 k.2 n with
      | none =>
        refine ⟨l, by simp only [ietfItems, ht, h1], by simp only [List.map_cons]; exact h2.cons _, ?_⟩
        intro i k' c t e1 e2 e3
        cases i with
        | zero => simp at e1 e2; subst e1; subst e2; rw [ht] at e3; simp at e3
        | succ i => exact h3 i k' c t e1 e2 e3
      | some t =>
        refine ⟨(k.1.name, t) :: l, ?_, by simp only [List.map_cons]; exact h2.cons_cons _, ?_⟩
        · simp only [ietfItems, ht, bareDict, bareKey_ietf (h k (by simp)).1 (h k (by simp)).2, Except.bind, h1, Except.map]
        · intro i k' c t' e1 e2 e3
          cases i with
          | zero => simp at e1 e2; subst e1; subst e2; rw [ht] at e3; simp at e3; simp [e3]
          | succ i => exact List.mem_cons_of_mem _ (h3 i k' c t' e1 e2 e3)

end Pyb
