import Verif.Spec.Typedef
import Verif.Lemmas.Str

namespace Pyb
open Py Spec

theorem splitOn_qual {p n : Str} (hp : ':' ∉ p) (hn : ':' ∉ n) : splitOn ':' (p ++ ':' :: n) = [p, n] := by
  rw [splitOn_append_sep ':' p n hp, splitOn_of_not_mem hn]

theorem typeName_of_names {base : List Str} {d : TypeDef} {a k : Str} (h : Names base d a k) : typeName base d a = .ok k := by
  cases h with
  | known a h1 h2 => simp [typeName, h1, h2]
  | sameModule a h1 h2 => simp [typeName, h1, h2]
  | own n h1 h2 =>
    have hm : ':' ∈ d.local_ ++ ':' :: n := by simp
    simp only [typeName, hm, if_true, splitOn_qual h1 h2, realPrefix, List.headD_cons]
    by_cases h : d.local_ = [] <;> simp [h]
  | imported p n r h1 h2 h3 h4 h5 =>
    have hm : ':' ∈ p ++ ':' :: n := by simp
    simp [typeName, hm, splitOn_qual h1 h2, realPrefix, h3, h4, h5]

theorem names_unique {base : List Str} {d : TypeDef} {a k k' : Str} (h : Names base d a k) (h' : Names base d a k') : k = k' := by
  have := (typeName_of_names h).symm.trans (typeName_of_names h')
  simpa using this

theorem mem_subtypes {t : TypeS} (hn : ¬ NestedUnion t) (a : Str) : a ∈ t.subtypes ↔ Mentions t a := by
  cases t with
  | plain b r =>
    simp only [TypeS.subtypes, List.mem_singleton]
    exact ⟨fun h => h ▸ .plain _ _, fun h => by cases h; rfl⟩
  | identityref b =>
    simp only [TypeS.subtypes, List.mem_singleton]
    exact ⟨fun h => h ▸ .identityref _, fun h => by cases h; rfl⟩
  | union ms =>
    simp only [TypeS.subtypes, List.mem_map]
    constructor
    · rintro ⟨t, ht, rfl⟩
      refine .member ms t _ ht ?_
      cases t with
      | plain b r => exact .plain _ _
      | identityref b => exact .identityref _
      | union ms' => exact absurd ⟨ms', ht⟩ hn
    · intro h
      cases h with
      | member _ t _ ht hm =>
        refine ⟨t, ht, ?_⟩
        cases t with
        | plain b r => cases hm; rfl
        | identityref b => cases hm; rfl
        | union ms' => exact absurd ⟨ms', ht⟩ hn

/-- All types a definition needs are known. -/
def Ready (base known : List Str) (d : TypeDef) : Prop := ∀ k, Needs base d k → k ∈ known

theorem anyUnknown_spec (base known : List Str) (d : TypeDef) (as : List Str) (h : ∀ a ∈ as, ∃ k, Names base d a k) :
    ∃ u, anyUnknown base known d as = .ok u ∧ (u = false ↔ ∀ a ∈ as, ∀ k, Names base d a k → k ∈ known) := by
  induction as with
  | nil => exact ⟨false, rfl, by simp⟩
  | cons a as ih =>
    obtain ⟨k, hk⟩ := h a (by simp)
    obtain ⟨u, h1, h2⟩ := ih fun b hb => h b (List.mem_cons_of_mem _ hb)
    refine ⟨u || !known.contains k, by simp [anyUnknown, typeName_of_names hk, h1], ?_⟩
    rw [Bool.or_eq_false_iff, h2]
    simp only [Bool.not_eq_false', List.contains_iff_mem, List.mem_cons, forall_eq_or_imp]
    constructor
    · rintro ⟨h3, h4⟩
      exact ⟨fun k' hk' => names_unique hk hk' ▸ h4, h3⟩
    · rintro ⟨h3, h4⟩
      exact ⟨h4, h3 k hk⟩

theorem unknown_iff {base known : List Str} {d : TypeDef} (hn : ¬ NestedUnion d.type) (h : ∀ a, Mentions d.type a → ∃ k, Names base d a k) :
    (anyUnknown base known d d.type.subtypes = .ok false ∧ Ready base known d) ∨
    (anyUnknown base known d d.type.subtypes = .ok true ∧ ¬ Ready base known d) := by
  obtain ⟨u, h1, h2⟩ := anyUnknown_spec base known d d.type.subtypes fun a ha => h a ((mem_subtypes hn a).1 ha)
  have hr : (u = false ↔ Ready base known d) := by
    rw [h2]
    constructor
    · rintro h3 k ⟨a, ha, hk⟩
      exact h3 a ((mem_subtypes hn a).2 ha) k hk
    · intro h3 a ha k hk
      exact h3 k ⟨a, (mem_subtypes hn a).1 ha, hk⟩
  cases u with
  | false => exact .inl ⟨h1, hr.1 rfl⟩
  | true => exact .inr ⟨h1, fun h3 => by simpa using hr.2 h3⟩

/-- More turns do not change a result. -/
theorem tdLoop_mono (base : List Str) (f : Nat) : ∀ q known order errs r, tdLoop base f q known order errs = some r →
    ∀ g, f ≤ g → tdLoop base g q known order errs = some r := by
  induction f with
  | zero =>
    intro q known order errs r h g _
    cases q with
    | nil => simpa [tdLoop] using h
    | cons => simp [tdLoop] at h
  | succ f ih =>
    intro q known order errs r h g hg
    cases q with
    | nil => simpa [tdLoop] using h
    | cons x q =>
      obtain ⟨g, rfl⟩ : ∃ g', g = g' + 1 := ⟨g - 1, by omega⟩
      simp only [tdLoop] at h ⊢
      cases hu : anyUnknown base known x.1 x.1.type.subtypes with
      | error e => rw [hu] at h; simpa using h
      | ok u =>
        rw [hu] at h
        cases u with
        | false => exact ih _ _ _ _ _ h g (by omega)
        | true =>
          simp only at h ⊢
          by_cases hc : x.2 + 1 > 1000
          · simp only [hc, if_true] at h ⊢
            exact ih _ _ _ _ _ h g (by omega)
          · simp only [hc, if_false] at h ⊢
            exact ih _ _ _ _ _ h g (by omega)

section
variable {base : List Str} {defs : List TypeDef}

/-- Everything built so far was ready when it was built. -/
def GoodOrder (base : List Str) (order : List TypeDef) : Prop :=
  ∀ pre d post, order = pre ++ d :: post → Ready base (base ++ pre.map TypeDef.key) d

theorem goodOrder_snoc {order : List TypeDef} {d : TypeDef} (h : GoodOrder base order)
    (hd : Ready base (base ++ order.map TypeDef.key) d) : GoodOrder base (order ++ [d]) := by
  intro pre e post heq
  rcases List.append_eq_append_iff.1 heq with ⟨as, h1, h2⟩ | ⟨bs, h1, h2⟩
  · cases as with
    | nil =>
      simp at h1 h2
      obtain ⟨rfl, _⟩ := h2
      subst h1
      exact hd
    | cons a as =>
      simp at h2
  · cases bs with
    | nil =>
      simp at h1 h2
      obtain ⟨rfl, _⟩ := h2
      subst h1
      exact hd
    | cons b bs =>
      simp at h2
      obtain ⟨rfl, h2⟩ := h2
      exact h pre e bs h1

theorem exists_readyT {q order : List TypeDef} (hp : ∀ d ∈ defs, d ∈ order ∨ d ∈ q) {k : Str} (hg : TGrounded base defs k)
    (hk : k ∉ base ++ order.map TypeDef.key) : ∃ d ∈ q, Ready base (base ++ order.map TypeDef.key) d := by
  induction hg with
  | known k h => exact absurd (List.mem_append.2 (.inl h)) hk
  | typedef d hd h ih =>
    rcases hp d hd with ho | hq
    · exact absurd (List.mem_append.2 (.inr (List.mem_map_of_mem (f := TypeDef.key) ho))) hk
    · by_cases hr : Ready base (base ++ order.map TypeDef.key) d
      · exact ⟨d, hq, hr⟩
      · simp only [Ready, Classical.not_forall] at hr
        obtain ⟨k, hn, hk'⟩ := hr
        exact ih k hn hk'

/-- The loop succeeds: `A` are the definitions still to be visited in this round, `B` the
ones put back in it. -/
theorem tdLoop_ok (hn : ∀ d ∈ defs, ¬ NestedUnion d.type) (hok : NamesOk base defs)
    (hg : ∀ d ∈ defs, ∀ k, Needs base d k → TGrounded base defs k) (hlen : defs.length ≤ 1001) :
    ∀ (n : Nat) (A B : List (TypeDef × Nat)) (c : Nat) (order : List TypeDef), A.length + B.length = n →
      (∀ x ∈ A, x.2 = c) → (∀ x ∈ B, x.2 = c + 1) → (order ++ (A ++ B).map Prod.fst).Perm defs → c ≤ order.length →
      (c + 1 ≤ order.length ∨ ∃ x ∈ A, Ready base (base ++ order.map TypeDef.key) x.1) → GoodOrder base order →
      ∃ f order', tdLoop base f (A ++ B) (base ++ order.map TypeDef.key) order [] = some (.ok order') ∧
        order'.Perm defs ∧ GoodOrder base order' := by
  intro n
  induction n with
  | zero =>
    intro A B c order hl _ _ hp _ _ hgo
    have hA : A = [] := List.length_eq_zero_iff.1 (by omega)
    have hB : B = [] := List.length_eq_zero_iff.1 (by omega)
    subst hA; subst hB
    refine ⟨0, order, by simp [tdLoop], by simpa using hp, hgo⟩
  | succ n ih =>
    -- one turn at a definition that is ready
    have good : ∀ (x : TypeDef × Nat) (A B : List (TypeDef × Nat)) (c : Nat) (order : List TypeDef), (x :: A).length + B.length = n + 1 →
        (∀ y ∈ x :: A, y.2 = c) → (∀ y ∈ B, y.2 = c + 1) → (order ++ (x :: A ++ B).map Prod.fst).Perm defs → c ≤ order.length →
        Ready base (base ++ order.map TypeDef.key) x.1 → GoodOrder base order →
        ∃ f order', tdLoop base f (x :: A ++ B) (base ++ order.map TypeDef.key) order [] = some (.ok order') ∧
          order'.Perm defs ∧ GoodOrder base order' := by
      intro x A B c order hl hA hB hp hc hr hgo
      have hx : x.1 ∈ defs := hp.subset (by simp)
      have hu : anyUnknown base (base ++ order.map TypeDef.key) x.1 x.1.type.subtypes = .ok false := by
        rcases unknown_iff (hn _ hx) (hok _ hx) with h | h
        · exact h.1
        · exact absurd hr h.2
      obtain ⟨f, o', h1, h2, h3⟩ := ih A B c (order ++ [x.1]) (by simp at hl; omega) (fun y hy => hA y (List.mem_cons_of_mem _ hy)) hB
        (by simpa using hp) (by simp; omega) (.inl (by simp; omega)) (goodOrder_snoc hgo hr)
      refine ⟨f + 1, o', ?_, h2, h3⟩
      simp only [List.cons_append, tdLoop, hu]
      simpa using h1
    -- a turn at one that is not
    have bad : ∀ (x : TypeDef × Nat) (A B : List (TypeDef × Nat)) (c : Nat) (order : List TypeDef),
        (∀ y ∈ x :: A, y.2 = c) → (order ++ (x :: A ++ B).map Prod.fst).Perm defs → c ≤ order.length →
        ¬ Ready base (base ++ order.map TypeDef.key) x.1 → ∀ f,
        tdLoop base (f + 1) (x :: A ++ B) (base ++ order.map TypeDef.key) order [] =
          tdLoop base f (A ++ (B ++ [(x.1, c + 1)])) (base ++ order.map TypeDef.key) order [] := by
      intro x A B c order hA hp hc hr f
      have hx : x.1 ∈ defs := hp.subset (by simp)
      have hu : anyUnknown base (base ++ order.map TypeDef.key) x.1 x.1.type.subtypes = .ok true := by
        rcases unknown_iff (hn _ hx) (hok _ hx) with h | h
        · exact absurd h.2 hr
        · exact h.1
      -- another one is waiting
      have h2 : 1 ≤ (A ++ B).length := by
        have hr' := hr
        simp only [Ready, Classical.not_forall] at hr'
        obtain ⟨k, hk, hk'⟩ := hr'
        have hgk := hg x.1 hx k hk
        obtain ⟨d, hd, hdr⟩ := exists_readyT (q := (x :: A ++ B).map Prod.fst) (order := order)
          (fun d hd => List.mem_append.1 (hp.symm.subset hd)) hgk hk'
        simp only [List.cons_append, List.map_cons, List.mem_cons] at hd
        rcases hd with rfl | hd
        · exact absurd hdr hr
        · have := List.length_pos_of_mem hd
          rw [List.length_map] at this
          exact this
      have hlen' := hp.length_eq
      have hc2 : ¬ (x.2 + 1 > 1000) := by
        rw [hA x (by simp)]
        simp at hlen' h2
        omega
      simp only [List.cons_append, tdLoop, hu, hc2, if_false]
      rw [hA x (by simp), List.append_assoc]
    -- a ready one in this round
    have claim1 : ∀ (A B : List (TypeDef × Nat)) (c : Nat) (order : List TypeDef), A.length + B.length = n + 1 →
        (∀ x ∈ A, x.2 = c) → (∀ x ∈ B, x.2 = c + 1) → (order ++ (A ++ B).map Prod.fst).Perm defs → c ≤ order.length →
        (∃ x ∈ A, Ready base (base ++ order.map TypeDef.key) x.1) → GoodOrder base order →
        ∃ f order', tdLoop base f (A ++ B) (base ++ order.map TypeDef.key) order [] = some (.ok order') ∧
          order'.Perm defs ∧ GoodOrder base order' := by
      intro A
      induction A with
      | nil => intro B c order _ _ _ _ _ h; simp at h
      | cons x A ihA =>
        intro B c order hl hA hB hp hc hex hgo
        by_cases hr : Ready base (base ++ order.map TypeDef.key) x.1
        · exact good x A B c order hl hA hB hp hc hr hgo
        · have hex' : ∃ y ∈ A, Ready base (base ++ order.map TypeDef.key) y.1 := by
            obtain ⟨y, hy, hyr⟩ := hex
            rcases List.mem_cons.1 hy with rfl | hy
            · exact absurd hyr hr
            · exact ⟨y, hy, hyr⟩
          obtain ⟨f, o', h1, h2, h3⟩ := ihA (B ++ [(x.1, c + 1)]) c order (by simp at hl ⊢; omega)
            (fun y hy => hA y (List.mem_cons_of_mem _ hy))
            (by
              intro y hy
              rcases List.mem_append.1 hy with hy | hy
              · exact hB y hy
              · simp at hy; rw [hy])
            (by
              refine List.Perm.trans ?_ hp
              refine List.Perm.append_left _ ?_
              simp only [List.map_append, List.map_cons, List.map_nil, List.cons_append]
              rw [← List.append_assoc]
              exact List.perm_append_singleton _ _)
            hc hex' hgo
          exact ⟨f + 1, o', by rw [bad x A B c order hA hp hc hr f]; exact h1, h2, h3⟩
    have claim2 : ∀ (A B : List (TypeDef × Nat)) (c : Nat) (order : List TypeDef), A.length + B.length = n + 1 →
        (∀ x ∈ A, x.2 = c) → (∀ x ∈ B, x.2 = c + 1) → (order ++ (A ++ B).map Prod.fst).Perm defs → c + 1 ≤ order.length →
        GoodOrder base order →
        ∃ f order', tdLoop base f (A ++ B) (base ++ order.map TypeDef.key) order [] = some (.ok order') ∧
          order'.Perm defs ∧ GoodOrder base order' := by
      intro A
      induction A with
      | nil =>
        intro B c order hl _ hB hp hc hgo
        have := claim1 B [] (c + 1) order (by simpa using hl) hB (by simp) (by simpa using hp) hc (by
          cases B with
          | nil => simp at hl
          | cons x B =>
            by_cases hr : Ready base (base ++ order.map TypeDef.key) x.1
            · exact ⟨x, by simp, hr⟩
            · have hr' := hr
              simp only [Ready, Classical.not_forall] at hr'
              obtain ⟨k, hk, hk'⟩ := hr'
              have hx : x.1 ∈ defs := hp.subset (by simp)
              obtain ⟨d, hd, hdr⟩ := exists_readyT (q := (x :: B).map Prod.fst) (order := order)
                (fun d hd => List.mem_append.1 (by simpa using hp.symm.subset hd)) (hg x.1 hx k hk) hk'
              obtain ⟨y, hy, rfl⟩ := List.mem_map.1 hd
              exact ⟨y, hy, hdr⟩) hgo
        simpa using this
      | cons x A ihA =>
        intro B c order hl hA hB hp hc hgo
        by_cases hr : Ready base (base ++ order.map TypeDef.key) x.1
        · exact good x A B c order hl hA hB hp (by omega) hr hgo
        · obtain ⟨f, o', h1, h2, h3⟩ := ihA (B ++ [(x.1, c + 1)]) c order (by simp at hl ⊢; omega)
            (fun y hy => hA y (List.mem_cons_of_mem _ hy))
            (by
              intro y hy
              rcases List.mem_append.1 hy with hy | hy
              · exact hB y hy
              · simp at hy; rw [hy])
            (by
              refine List.Perm.trans ?_ hp
              refine List.Perm.append_left _ ?_
              simp only [List.map_append, List.map_cons, List.map_nil, List.cons_append]
              rw [← List.append_assoc]
              exact List.perm_append_singleton _ _)
            hc hgo
          exact ⟨f + 1, o', by rw [bad x A B c order hA hp (by omega) hr f]; exact h1, h2, h3⟩
    intro A B c order hl hA hB hp hc hor hgo
    rcases hor with h | h
    · exact claim2 A B c order hl hA hB hp h hgo
    · exact claim1 A B c order hl hA hB hp hc h hgo

/-- Something that does not come down to known types ends in an error. -/
theorem tdLoop_error (hn : ∀ d ∈ defs, ¬ NestedUnion d.type) (hok : NamesOk base defs) :
    ∀ (m : Nat) (q : List (TypeDef × Nat)) (order : List TypeDef) (errs : List Str), (q.map fun x => 1001 - x.2).sum = m →
      (∀ x ∈ q, x.2 ≤ 1000 ∧ x.1 ∈ defs) → (∀ k ∈ base ++ order.map TypeDef.key, TGrounded base defs k) →
      (errs ≠ [] ∨ ∃ x ∈ q, ∃ k, Needs base x.1 k ∧ ¬ TGrounded base defs k) →
      ∃ f, tdLoop base f q (base ++ order.map TypeDef.key) order errs = some (.error .typeError) := by
  intro m
  induction m using Nat.strongRecOn with
  | ind m ih =>
    intro q order errs hm hq hk hor
    cases q with
    | nil =>
      have : errs ≠ [] := by
        rcases hor with h | h
        · exact h
        · simp at h
      exact ⟨0, by cases errs with | nil => exact absurd rfl this | cons => simp [tdLoop]⟩
    | cons x q =>
      obtain ⟨hx1, hx2⟩ := hq x (by simp)
      have hq' : ∀ y ∈ q, y.2 ≤ 1000 ∧ y.1 ∈ defs := fun y hy => hq y (List.mem_cons_of_mem _ hy)
      simp only [List.map_cons, List.sum_cons] at hm
      rcases unknown_iff (hn _ hx2) (hok _ hx2) (known := base ++ order.map TypeDef.key) with ⟨hu, hr⟩ | ⟨hu, hr⟩
      · obtain ⟨f, hf⟩ := ih _ (by omega) q (order ++ [x.1]) errs rfl hq'
          (by
            intro k hk'
            simp only [List.map_append, List.map_cons, List.map_nil, ← List.append_assoc, List.mem_append, List.mem_singleton] at hk'
            rcases hk' with (hk' | hk') | rfl
            · exact hk k (List.mem_append.2 (.inl hk'))
            · exact hk k (List.mem_append.2 (.inr hk'))
            · exact .typedef x.1 hx2 fun k hk' => hk k (hr k hk'))
          (by
            rcases hor with h | ⟨y, hy, k, h1, h2⟩
            · exact .inl h
            · rcases List.mem_cons.1 hy with rfl | hy
              · exact absurd (hk k (hr k h1)) h2
              · exact .inr ⟨y, hy, k, h1, h2⟩)
        refine ⟨f + 1, ?_⟩
        simp only [tdLoop, hu]
        simpa using hf
      · by_cases hc : x.2 + 1 > 1000
        · obtain ⟨f, hf⟩ := ih _ (by omega) q order (errs ++ [x.1.key]) rfl hq' hk (.inl (by simp))
          exact ⟨f + 1, by simp only [tdLoop, hu, hc, if_true]; exact hf⟩
        · obtain ⟨f, hf⟩ := ih ((q ++ [(x.1, x.2 + 1)]).map fun x => 1001 - x.2).sum
            (by simp only [List.map_append, List.map_cons, List.map_nil, List.sum_append, List.sum_cons, List.sum_nil]; omega)
            (q ++ [(x.1, x.2 + 1)]) order errs rfl
            (by
              intro y hy
              rcases List.mem_append.1 hy with hy | hy
              · exact hq' y hy
              · simp at hy
                subst hy
                exact ⟨by simp; omega, hx2⟩) hk
            (by
              rcases hor with h | ⟨y, hy, k, h1, h2⟩
              · exact .inl h
              · rcases List.mem_cons.1 hy with rfl | hy
                · exact .inr ⟨(y.1, y.2 + 1), by simp, k, h1, h2⟩
                · exact .inr ⟨y, by simp [hy], k, h1, h2⟩)
          exact ⟨f + 1, by simp only [tdLoop, hu, hc, if_false]; exact hf⟩

end
end Pyb
