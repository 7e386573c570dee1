import Verif.Lemmas.Inherit
import Verif.Props.Scalar

/-! # Identities: C57, C58, C59, C65 -/

namespace Pyb
open Py Spec

/-- Module `a` (prefix `a`): `identity Z { base b:Y; }`.  Module `b` (prefix `pb`,
imported by `a` as `b`): `identity Y { base X; }`, `identity X;`, `identity W { base X;
base Y; }`. -/
def exDefs : List IdDef :=
  let b := fun n bs => { mod := py!"b", name := n, ns := py!"urn:b", prefix_ := py!"pb", bases := bs, imports := [] }
  [{ mod := py!"a", name := py!"Z", ns := py!"urn:a", prefix_ := py!"a", bases := [py!"b:Y"], imports := [(py!"b", py!"b")] },
   b py!"Y" [py!"X"], b py!"X" [], b py!"W" [py!"pb:X", py!"Y"]]

def exMods : List (List (Str × Str)) := [[(py!"b", py!"b")], []]

theorem exDefs_one : OneEach exDefs := by
  intro d hd d' hd' h1 h2
  simp only [exDefs, List.mem_cons, List.not_mem_nil, or_false] at hd hd'
  rcases hd with rfl | rfl | rfl | rfl <;> rcases hd' with rfl | rfl | rfl | rfl <;> first | rfl | simp at h1 h2

theorem exDefs_bases : BasesOk exDefs := by
  intro d hd b hb
  simp only [exDefs, List.mem_cons, List.not_mem_nil, or_false] at hd
  rcases hd with rfl | rfl | rfl | rfl <;> simp at hb
  · subst hb; exact ⟨_, .imported py!"b" py!"b" py!"Y" (by decide) (by decide) (by decide) (by decide) (by decide)⟩
  · subst hb; exact ⟨_, .plain _ (by decide)⟩
  · rcases hb with rfl | rfl
    · exact ⟨_, .own py!"X" (by decide) (by decide)⟩
    · exact ⟨_, .plain _ (by decide)⟩

/-- The store the definitions of the example lead to, after eight turns. -/
def exStore : IdStore := match buildStore 8 exMods exDefs with
  | some (.ok t) => t
  | _ => []

example : exStore.map (fun i => (i.name, i.children.map (·.2))) =
    [(py!"X", [py!"Y", py!"W", py!"Z", py!"W"]), (py!"Y", [py!"W", py!"Z"]), (py!"W", []), (py!"Z", [])] := by decide

/-! ## C57 -/

/-- **C57.**  When the store is built, it has every identity exactly once, and the
identities listed under one are exactly those derived from it, directly or through
others. -/
theorem C57_closure (fuel : Nat) (mods : List (List (Str × Str))) (defs : List IdDef) (ho : OneEach defs) (hb : BasesOk defs)
    (r : Except Err IdStore) (h : buildStore fuel mods defs = some r) :
    ∃ t, r = .ok t ∧ (t.map fun i => (i.mod, i.name)).Nodup ∧
      (∀ m n, (∃ i ∈ t, i.mod = m ∧ i.name = n) ↔ ∃ d ∈ defs, d.mod = m ∧ d.name = n) ∧
      ∀ i ∈ t, ∀ m n, (m, n) ∈ i.children ↔ DerivedFrom defs (m, n) (i.mod, i.name) := by
  obtain ⟨t, h1, h2, h3, h4, h5⟩ := buildStore_spec ho hb h
  refine ⟨t, h1, h2, ?_, fun i hi m n => h5 i hi (m, n)⟩
  intro m n
  constructor
  · rintro ⟨i, hi, rfl, rfl⟩
    obtain ⟨d, hd, h6, _⟩ := h4 i hi
    exact ⟨d, hd, congrArg Prod.fst h6, congrArg Prod.snd h6⟩
  · rintro ⟨d, hd, rfl, rfl⟩
    obtain ⟨i, hi, h6⟩ := List.mem_map.1 (h3 d hd)
    exact ⟨i, hi, congrArg Prod.fst h6, congrArg Prod.snd h6⟩

example : ∃ t, (Except.ok exStore : Except Err IdStore) = .ok t ∧ (t.map fun i => (i.mod, i.name)).Nodup ∧
      (∀ m n, (∃ i ∈ t, i.mod = m ∧ i.name = n) ↔ ∃ d ∈ exDefs, d.mod = m ∧ d.name = n) ∧
      ∀ i ∈ t, ∀ m n, (m, n) ∈ i.children ↔ DerivedFrom exDefs (m, n) (i.mod, i.name) :=
  C57_closure 8 exMods exDefs exDefs_one exDefs_bases _ rfl

/-- **C57.**  The order of the definitions, and repetitions, do not matter. -/
theorem C57_order (fuel fuel' : Nat) (mods : List (List (Str × Str))) (defs defs' : List IdDef) (hperm : ∀ d, d ∈ defs ↔ d ∈ defs')
    (ho : OneEach defs) (hb : BasesOk defs) (t t' : IdStore)
    (h : buildStore fuel mods defs = some (.ok t)) (h' : buildStore fuel' mods defs' = some (.ok t')) :
    ∀ i ∈ t, ∃ j ∈ t', j.mod = i.mod ∧ j.name = i.name ∧ ∀ c, c ∈ i.children ↔ c ∈ j.children := by
  have e : Derives defs = Derives defs' := by
    funext c p
    simp only [Derives, hperm]
  have ho' : OneEach defs' := fun d hd d' hd' => ho d ((hperm d).2 hd) d' ((hperm d').2 hd')
  have hb' : BasesOk defs' := fun d hd => hb d ((hperm d).2 hd)
  obtain ⟨_, hr, _, h3, h4, h5⟩ := buildStore_spec ho hb h
  cases hr
  obtain ⟨_, hr, _, h3', h4', h5'⟩ := buildStore_spec ho' hb' h'
  cases hr
  intro i hi
  obtain ⟨d, hd, h6, _⟩ := h4 i hi
  obtain ⟨j, hj, h7⟩ := List.mem_map.1 (h3' d ((hperm d).1 hd))
  have h8 : j.ref = i.ref := h7.trans h6
  refine ⟨j, hj, congrArg Prod.fst h8, congrArg Prod.snd h8, ?_⟩
  intro c
  rw [h5 i hi c, h5' j hj c, h8]
  simp only [DerivedFrom, e]

example : ∃ t', buildStore 9 exMods exDefs.reverse = some (.ok t') ∧
    ∀ i ∈ exStore, ∃ j ∈ t', j.mod = i.mod ∧ j.name = i.name ∧ ∀ c, c ∈ i.children ↔ c ∈ j.children :=
  ⟨_, rfl, C57_order 8 9 exMods exDefs exDefs.reverse (by simp) exDefs_one exDefs_bases _ _ rfl rfl⟩

/-! ## C58 -/

/-- **C58.**  Building the store ends (after some number of turns) iff all chains of
bases end within the definitions. -/
theorem C58_terminates (mods : List (List (Str × Str))) (defs : List IdDef) (hb : BasesOk defs) :
    (∃ fuel t, buildStore fuel mods defs = some (.ok t)) ↔ ∀ d ∈ defs, Grounded defs (d.mod, d.name) := by
  constructor
  · rintro ⟨fuel, t, h⟩
    refine Classical.byContradiction fun hn => ?_
    simp only [Classical.not_forall] at hn
    obtain ⟨d, hd, hg⟩ := hn
    have := idLoop_stuck (mrp := importPrefixes mods) hb fuel defs [] (inv_init _ _) ⟨d, hd, hg⟩
    simp [buildStore, this] at h
  · intro hg
    obtain ⟨f, hf⟩ := idLoop_terminates (mrp := importPrefixes mods) hb hg defs.length defs [] rfl (inv_init _ _)
    obtain ⟨r, hr⟩ := Option.isSome_iff_exists.1 hf
    obtain ⟨s, rfl, hi⟩ := idLoop_invB hb f defs [] r (inv_init _ _) hr
    exact ⟨f, s.map (closeId s), by simp [buildStore, hr, buildInheritance_eq hi.nodup hi.ord]⟩

/-- **C58.**  Two identities based on each other, or a base that is defined nowhere:
the loop never ends. -/
theorem C58_cycle (mods : List (List (Str × Str))) (defs : List IdDef) (ho : OneEach defs) (hb : BasesOk defs) (r : Str × Str)
    (hr : ∃ d ∈ defs, (d.mod, d.name) = r) (hc : DerivedFrom defs r r) (fuel : Nat) : buildStore fuel mods defs = none := by
  have key : ∀ x, Grounded defs x → ¬ Relation.TransGen (Derives defs) x x := by
    intro x hg
    induction hg with
    | mk d hd h ih =>
      intro hx
      -- the first step goes to a base of `d`, and that base is derived from itself too
      have first : ∀ {y z}, Relation.TransGen (Derives defs) y z → ∃ w, Derives defs y w ∧
          (w = z ∨ Relation.TransGen (Derives defs) w z) := by
        intro y z hyz
        induction hyz with
        | single h => exact ⟨_, h, .inl rfl⟩
        | tail _ h2 ih =>
          obtain ⟨w, h3, h4⟩ := ih
          refine ⟨w, h3, .inr ?_⟩
          rcases h4 with rfl | h4
          · exact .single h2
          · exact .tail h4 h2
      obtain ⟨w, h3, h4⟩ := first hx
      have h3' := h3
      obtain ⟨e, he, h5, b, hb', hr'⟩ := h3'
      have := ho e he d hd (congrArg Prod.fst h5) (congrArg Prod.snd h5)
      subst this
      refine ih b hb' w hr' ?_
      rcases h4 with rfl | h4
      · exact .single h3
      · exact .tail h4 h3
  obtain ⟨d, hd, rfl⟩ := hr
  have hg : ¬ Grounded defs (d.mod, d.name) := fun hg => key _ hg hc
  have := idLoop_stuck (mrp := importPrefixes mods) hb fuel defs [] (inv_init _ _) ⟨d, hd, hg⟩
  simp [buildStore, this]

/-- `identity A { base B; }`, `identity B { base A; }`. -/
def cycDefs : List IdDef :=
  [{ mod := py!"m", name := py!"A", ns := py!"u", prefix_ := py!"m", bases := [py!"B"], imports := [] },
   { mod := py!"m", name := py!"B", ns := py!"u", prefix_ := py!"m", bases := [py!"A"], imports := [] }]

example : (∃ fuel t, buildStore fuel exMods exDefs = some (.ok t)) := ⟨8, exStore, rfl⟩
example (fuel : Nat) : buildStore fuel [] cycDefs = none := by
  refine C58_cycle [] cycDefs ?_ ?_ (py!"m", py!"A") ⟨_, .head _, rfl⟩ ?_ fuel
  · intro d hd d' hd' h1 h2
    simp only [cycDefs, List.mem_cons, List.not_mem_nil, or_false] at hd hd'
    rcases hd with rfl | rfl <;> rcases hd' with rfl | rfl <;> first | rfl | simp at h1 h2
  · intro d hd b hb
    simp only [cycDefs, List.mem_cons, List.not_mem_nil, or_false] at hd
    rcases hd with rfl | rfl <;> simp at hb <;> subst hb <;> exact ⟨_, .plain _ (by decide)⟩
  · refine .tail (b := (py!"m", py!"B")) (.single ?_) ?_
    · exact ⟨_, .head _, rfl, py!"B", .head _, .plain _ (by decide)⟩
    · exact ⟨_, .tail _ (.head _), rfl, py!"A", .head _, .plain _ (by decide)⟩

/-! ## C59 -/

theorem qual_inj {p q n m : Str} (hn : ':' ∉ n) (hm : ':' ∉ m) (h : qual p n = qual q m) : p = q ∧ n = m := by
  have h' : n.reverse ++ ':' :: p.reverse = m.reverse ++ ':' :: q.reverse := by
    have := congrArg List.reverse h
    simpa [qual] using this
  have hn' : ':' ∉ n.reverse := by simpa using hn
  have hm' : ':' ∉ m.reverse := by simpa using hm
  have s1 := splitOn_append_sep ':' n.reverse p.reverse hn'
  have s2 := splitOn_append_sep ':' m.reverse q.reverse hm'
  rw [h', s2] at s1
  have hnm : n.reverse = m.reverse := by simpa using (List.cons.inj s1).1.symm
  rw [hnm] at h'
  have := List.append_cancel_left h'
  simp at this
  exact ⟨this, by have := congrArg List.reverse hnm; simpa using this⟩

section
variable {mods : List (List (Str × Str))} {defs : List IdDef} {fuel : Nat} {t : IdStore}

theorem keyOf_spelling {i : Ident} {d : IdDef} (h1 : d.ref = i.ref)
    (h2 : i.prefixes = (newIdent (importPrefixes mods) d).prefixes) (x : Str) : KeyOf i x ↔ Spelling mods d x := by
  have hn : i.name = d.name := congrArg Prod.snd h1.symm
  simp only [KeyOf, Spelling, hn, h2, newIdent_known]
  rfl

/-- The entry of a key written by one identity only. -/
theorem dict_entry (ho : OneEach defs) (hb : BasesOk defs) (h : buildStore fuel mods defs = some (.ok t)) {d : IdDef} (hd : d ∈ defs)
    {x : Str} (hx : Spelling mods d x) (hu : ∀ d' ∈ defs, Spelling mods d' x → d'.mod = d.mod ∧ d'.name = d.name) :
    ∃ e, (identityDict t).get? x = some e ∧
      ∀ y, e.has y = true ↔ ∃ c ∈ defs, DerivedFrom defs (c.mod, c.name) (d.mod, d.name) ∧ Spelling mods c y := by
  obtain ⟨_, hr, hn, h3, h4, h5⟩ := buildStore_spec ho hb h
  cases hr
  obtain ⟨i, hi, hir⟩ := List.mem_map.1 (h3 d hd)
  have hpi : ∀ j ∈ t, j.prefixes ≠ [] := by
    intro j hj
    obtain ⟨e, he, _, h6, _⟩ := h4 j hj
    intro hnil
    have := (newIdent_known mods e e.mod).2 (.inl rfl)
    rw [← h6, hnil] at this
    simp at this
  have same : ∀ j ∈ t, ∀ e ∈ defs, e.ref = j.ref → j.prefixes = (newIdent (importPrefixes mods) e).prefixes := by
    intro j hj e he hej
    obtain ⟨e', he', h6, h7, _⟩ := h4 j hj
    have := ho e' he' e he (congrArg Prod.fst (h6.trans hej.symm)) (congrArg Prod.snd (h6.trans hej.symm))
    exact this ▸ h7
  refine ⟨spells t i, ?_, ?_⟩
  · refine identityDict_get t hpi i hi x ((keyOf_spelling hir.symm (same i hi d hd hir.symm) x).2 hx) ?_
    intro j hj hne hk
    obtain ⟨e, he, h6, h7, _⟩ := h4 j hj
    have h8 := hu e he ((keyOf_spelling h6 h7 x).1 hk)
    have hji : j.ref = i.ref := by rw [← h6, hir]; exact Prod.ext h8.1 h8.2
    have a := findId_mem hn hj
    have b := findId_mem hn hi
    rw [hji, b] at a
    cases a
    exact hne rfl
  · intro y
    rw [spells_has]
    constructor
    · rintro ⟨c, hc, ch, h6, h7⟩
      obtain ⟨hch, rfl⟩ := findId_some h6
      obtain ⟨e, he, h8, h9, _⟩ := h4 ch hch
      refine ⟨e, he, ?_, (keyOf_spelling h8 h9 y).1 h7⟩
      have := (h5 i hi ch.ref).1 hc
      rw [hir, ← h8] at this
      exact this
    · rintro ⟨c, hc, h6, h7⟩
      obtain ⟨ch, hch, hcr⟩ := List.mem_map.1 (h3 c hc)
      refine ⟨ch.ref, (h5 i hi _).2 ?_, ch, findId_mem hn hch, (keyOf_spelling hcr.symm (same ch hch c hc hcr.symm) y).2 h7⟩
      rw [hcr, hir]
      exact h6

/-- **C59.**  For the base written `p:name`, the spellings accepted are exactly those of
the identities derived from it.  Missing: bases whose spelling `p:name` is also one of
another identity (see `C59_prefix_refuted`). -/
theorem C59_qualified_partial (ho : OneEach defs) (hb : BasesOk defs) (h : buildStore fuel mods defs = some (.ok t))
    (hname : ∀ d ∈ defs, ':' ∉ d.name) (d : IdDef) (hd : d ∈ defs) (p : Str) (hp : KnownPrefix mods d p)
    (hu : ∀ d' ∈ defs, d'.name = d.name → KnownPrefix mods d' p → d'.mod = d.mod) :
    ∃ e, (identityDict t).get? (p ++ ':' :: d.name) = some e ∧
      ∀ y, e.has y = true ↔ ∃ c ∈ defs, DerivedFrom defs (c.mod, c.name) (d.mod, d.name) ∧ Spelling mods c y := by
  refine dict_entry ho hb h hd (.inr ⟨p, hp, rfl⟩) ?_
  intro d' hd' hx
  rcases hx with hx | ⟨q, hq, hx⟩
  · exact absurd (by rw [← hx]; simp) (hname d' hd')
  · obtain ⟨rfl, h2⟩ := qual_inj (hname d hd) (hname d' hd') hx
    exact ⟨hu d' hd' h2.symm hq, h2.symm⟩

/-- **C59.**  The same for a base written without prefix.  Missing: bases whose name is
also the name of another module's identity (see `C59_same_name_refuted`). -/
theorem C59_bare_partial (ho : OneEach defs) (hb : BasesOk defs) (h : buildStore fuel mods defs = some (.ok t))
    (hname : ∀ d ∈ defs, ':' ∉ d.name) (d : IdDef) (hd : d ∈ defs)
    (hu : ∀ d' ∈ defs, d'.name = d.name → d'.mod = d.mod) :
    ∃ e, (identityDict t).get? d.name = some e ∧
      ∀ y, e.has y = true ↔ ∃ c ∈ defs, DerivedFrom defs (c.mod, c.name) (d.mod, d.name) ∧ Spelling mods c y := by
  refine dict_entry ho hb h hd (.inl rfl) ?_
  intro d' hd' hx
  rcases hx with hx | ⟨q, hq, hx⟩
  · exact ⟨hu d' hd' hx.symm, hx.symm⟩
  · exact absurd (by rw [hx]; simp) (hname d hd)

/-- **C59.**  A leaf with that identityref type takes exactly the spellings, as texts. -/
theorem C59_value_partial (rx : Str → Str → Bool) (ho : OneEach defs) (hb : BasesOk defs) (h : buildStore fuel mods defs = some (.ok t))
    (hname : ∀ d ∈ defs, ':' ∉ d.name) (hat : ∀ d ∈ defs, ∀ x, Spelling mods d x → startsWith x py!"@" = false)
    (d : IdDef) (hd : d ∈ defs) (p : Str) (hp : KnownPrefix mods d p)
    (hu : ∀ d' ∈ defs, d'.name = d.name → KnownPrefix mods d' p → d'.mod = d.mod) :
    ∃ e, (identityDict t).get? (p ++ ':' :: d.name) = some e ∧ ∀ v w, setLeaf rx (enumTy (e.map (·.1))) v = .ok w ↔
      w = .str v.toStr ∧ ∃ c ∈ defs, DerivedFrom defs (c.mod, c.name) (d.mod, d.name) ∧ Spelling mods c v.toStr := by
  obtain ⟨e, h1, h2⟩ := C59_qualified_partial ho hb h hname d hd p hp hu
  refine ⟨e, h1, ?_⟩
  intro v w
  rw [C15_members_exact rx _ (by
    intro n hn
    obtain ⟨c, hc, _, h3⟩ := (h2 n).1 ((Dict.has_iff e n).2 hn)
    exact hat c hc n h3)]
  rw [← h2, Dict.has_iff]
  by_cases hm : v.toStr ∈ e.map (·.1)
  · simp [hm, eq_comm]
  · simp [hm]

end

theorem exDefs_noColon : ∀ d ∈ exDefs, ':' ∉ d.name := by
  intro d hd
  simp only [exDefs, List.mem_cons, List.not_mem_nil, or_false] at hd
  rcases hd with rfl | rfl | rfl | rfl <;> decide

theorem exDefs_unique (n m : Str) : ∀ d ∈ exDefs, d.name = n → ∀ d' ∈ exDefs, d'.name = n → d'.mod = d.mod := by
  intro d hd h d' hd' h'
  subst h
  simp only [exDefs, List.mem_cons, List.not_mem_nil, or_false] at hd hd'
  rcases hd with rfl | rfl | rfl | rfl <;> rcases hd' with rfl | rfl | rfl | rfl <;> first | rfl | simp at h'

example : ∃ e, (identityDict exStore).get? py!"b:X" = some e ∧
    ∀ y, e.has y = true ↔ ∃ c ∈ exDefs, DerivedFrom exDefs (c.mod, c.name) (py!"b", py!"X") ∧ Spelling exMods c y :=
  C59_qualified_partial (fuel := 8) (mods := exMods) exDefs_one exDefs_bases rfl exDefs_noColon
    { mod := py!"b", name := py!"X", ns := py!"urn:b", prefix_ := py!"pb", bases := [], imports := [] } (by simp [exDefs]) py!"b"
    (.inl rfl) (fun d' hd' h' _ => exDefs_unique py!"X" [] _ (by simp [exDefs]) rfl d' hd' h')

set_option maxRecDepth 4000 in
example : ((identityDict exStore).get? py!"b:X").map (fun e => e.map (·.1)) =
    some [py!"Y", py!"b:Y", py!"pb:Y", py!"W", py!"b:W", py!"pb:W", py!"Z", py!"a:Z"] := by decide
set_option maxRecDepth 4000 in
example : ((identityDict exStore).get? py!"Y").map (fun e => e.map (·.1)) =
    some [py!"W", py!"b:W", py!"pb:W", py!"Z", py!"a:Z"] := by decide

/-- Modules `a` and `b`, both with an `identity X`; `Y` is derived from `a`'s.  Both
modules use the prefix `p` for themselves, which YANG allows. -/
def clashDefs : List IdDef :=
  [{ mod := py!"a", name := py!"X", ns := py!"urn:a", prefix_ := py!"p", bases := [], imports := [] },
   { mod := py!"a", name := py!"Y", ns := py!"urn:a", prefix_ := py!"p", bases := [py!"X"], imports := [] },
   { mod := py!"b", name := py!"X", ns := py!"urn:b", prefix_ := py!"p", bases := [], imports := [] }]

/-- **C59** fails for the bare name of a base when two modules define that name: the
entry is overwritten, and `Y` is not accepted. -/
theorem C59_same_name_refuted : ∃ t e, buildStore 3 [] clashDefs = some (.ok t) ∧
    DerivedFrom clashDefs (py!"a", py!"Y") (py!"a", py!"X") ∧
    (identityDict t).get? py!"X" = some e ∧ e.has py!"Y" = false :=
  ⟨_, _, rfl, .single ⟨_, .tail _ (.head _), rfl, py!"X", .head _, .plain _ (by decide)⟩, rfl, rfl⟩

/-- **C59** fails for a prefixed base when two modules with the same prefix define the
name. -/
theorem C59_prefix_refuted : ∃ t e, buildStore 3 [] clashDefs = some (.ok t) ∧
    DerivedFrom clashDefs (py!"a", py!"Y") (py!"a", py!"X") ∧
    (identityDict t).get? py!"p:X" = some e ∧ e.has py!"Y" = false :=
  ⟨_, _, rfl, .single ⟨_, .tail _ (.head _), rfl, py!"X", .head _, .plain _ (by decide)⟩, rfl, rfl⟩

/-! ## C65 -/

theorem identityDict_nodup (s : IdStore) : ((identityDict s).map (·.1)).Nodup := by
  have fold : ∀ {α : Type} (f : Dict (Dict IdInfo) → α → Dict (Dict IdInfo)),
      (∀ D y, (D.map (·.1)).Nodup → ((f D y).map (·.1)).Nodup) → ∀ (l : List α) D, (D.map (·.1)).Nodup →
      ((l.foldl f D).map (·.1)).Nodup := by
    intro α f hf l
    induction l with
    | nil => intro D h; exact h
    | cons y l ih => intro D h; exact ih _ (hf D y h)
  refine fold _ ?_ _ _ (by simp)
  intro D i hD
  have : ((i.prefixes.foldl (spellPrefix s i) D).map (·.1)).Nodup := by
    refine fold _ ?_ _ _ hD
    intro D p hD
    refine fold _ ?_ _ _ (Dict.nodup_set (Dict.nodup_set hD _ _) _ _)
    intro D ch hD
    refine fold _ ?_ _ _ hD
    intro D q hD
    simp only [spellOne, setIn]
    exact Dict.nodup_set (Dict.nodup_set (Dict.nodup_set (Dict.nodup_set hD _ _) _ _) _ _) _ _
  simp only [spellIdent]
  split
  · exact this
  · exact Dict.nodup_set this _ _

theorem identityDict_none (s : IdStore) (hp : ∀ i ∈ s, i.prefixes ≠ []) (x : Str) (hx : ∀ i ∈ s, ¬ KeyOf i x) :
    (identityDict s).get? x = none := by
  have key : ∀ (l : List Ident) (D : Dict (Dict IdInfo)), (∀ j ∈ l, j ∈ s) → D.get? x = none →
      (l.foldl (spellIdent s) D).get? x = none := by
    intro l
    induction l with
    | nil => intro D _ h; exact h
    | cons j l ih =>
      intro D hl h
      refine ih _ (fun k hk => hl k (List.mem_cons_of_mem _ hk)) ?_
      rw [(spellIdent_get s j (hp j (hl j (by simp))) D x).2 (hx j (hl j (by simp))), h]
  exact key s [] (fun _ h => h) rfl

/-- **C65.**  What a type name means is not changed by identities, if it is not a
spelling of one.  Missing: names that are (see `C65_builtin_refuted`). -/
theorem C65_types_kept_partial {α : Type} (mods : List (List (Str × Str))) (defs : List IdDef) (fuel : Nat) (t : IdStore)
    (ho : OneEach defs) (hb : BasesOk defs) (h : buildStore fuel mods defs = some (.ok t)) (cm : Dict (ClassEntry α)) (x : Str)
    (hx : ∀ d ∈ defs, ¬ Spelling mods d x) : (addClasses cm (identityDict t)).get? x = cm.get? x := by
  obtain ⟨_, hr, _, _, h4, _⟩ := buildStore_spec ho hb h
  cases hr
  have : (identityDict t).get? x = none := by
    refine identityDict_none t ?_ x ?_
    · intro j hj hnil
      obtain ⟨e, he, _, h6, _⟩ := h4 j hj
      have := (newIdent_known mods e e.mod).2 (.inl rfl)
      rw [← h6, hnil] at this
      simp at this
    · intro j hj hk
      obtain ⟨e, he, h6, h7, _⟩ := h4 j hj
      exact hx e he ((keyOf_spelling h6 h7 x).1 hk)
  rw [addClasses_get _ _ (identityDict_nodup t), this]

example : (addClasses [(py!"string", ClassEntry.old 1)] (identityDict exStore)).get? py!"string" = some (.old 1) := by
  refine C65_types_kept_partial exMods exDefs 8 exStore exDefs_one exDefs_bases rfl [(py!"string", ClassEntry.old 1)] py!"string" ?_
  intro d hd h
  have : py!"string".getLast? = d.name.getLast? := by
    rcases h with h | ⟨q, _, h⟩
    · rw [h]
    · rw [h]
      simp only [exDefs, List.mem_cons, List.not_mem_nil, or_false] at hd
      rcases hd with rfl | rfl | rfl | rfl <;> simp [List.getLast?_append, List.getLast?_cons]
  simp only [exDefs, List.mem_cons, List.not_mem_nil, or_false] at hd
  rcases hd with rfl | rfl | rfl | rfl <;> simp at this

/-- **C65** fails for an identity with the name of a built-in type, which YANG allows:
`identity string;` makes every `type string` an identityref. -/
theorem C65_builtin_refuted : ∃ defs t, buildStore 1 [] defs = some (.ok t) ∧ OneEach defs ∧ BasesOk defs ∧
    (addClasses [(py!"string", ClassEntry.old 1)] (identityDict t)).get? py!"string" = some (.ident []) := by
  refine ⟨[{ mod := py!"m", name := py!"string", ns := py!"u", prefix_ := py!"m", bases := [], imports := [] }], _, rfl, ?_, ?_, rfl⟩
  · intro d hd d' hd' _ _
    simp at hd hd'
    rw [hd, hd']
  · intro d hd b hb
    simp at hd
    subst hd
    simp at hb

end Pyb
