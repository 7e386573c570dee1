import Verif.Spec.ClassNs
import Verif.Props.Names
import Verif.Lemmas.XPathState

/-! # C104: whatever its name, a data node is reached by it -/

namespace Pyb
open Py Spec

/-- An attribute name that does not start with an underscore and does not end in two. -/
def Tame (a : Str) : Prop := (∃ c r, a = c :: r ∧ c ≠ '_') ∧ ∀ x, a ≠ x ++ ['_', '_']

theorem lookup_fun {l : ClassNs} {n : Str} {m : Member} (h : ∀ p ∈ l, p.1 = n → p.2 = m) (hn : n ∈ l.map Prod.fst) : l.lookup n = some m := by
  induction l with
  | nil => simp at hn
  | cons p l ih =>
    rw [List.lookup_cons]
    by_cases e : n = p.1
    · simp only [beq_iff_eq.2 e]
      rw [h p (by simp) e.symm]
    · have : (n == p.1) = false := by simpa using e
      simp only [this]
      refine ih (fun q hq => h q (by simp [hq])) ?_
      simpa [e] using hn

theorem lookup_not {l : ClassNs} {n : Str} (h : ∀ p ∈ l, p.1 ≠ n) : l.lookup n = none := by
  induction l with
  | nil => rfl
  | cons p l ih =>
    rw [List.lookup_cons]
    have : (n == p.1) = false := by simpa using fun e => h p (by simp) e.symm
    simp only [this]
    exact ih fun q hq => h q (by simp [hq])

theorem lookup_app (l l' : ClassNs) (n : Str) : (l ++ l').lookup n = (l.lookup n).or (l'.lookup n) := by
  induction l with
  | nil => simp
  | cons p l ih =>
    rw [List.cons_append, List.lookup_cons, List.lookup_cons, ih]
    cases n == p.1 <;> rfl

theorem tame_noDunder {a : Str} (h : Tame a) : ¬ ['_', '_'] <+: a := by
  rintro ⟨t, rfl⟩
  obtain ⟨c, r, e, hc⟩ := h.1
  exact hc (List.cons.inj e).1.symm

theorem tame_ne_under {a r : Str} (h : Tame a) : a ≠ '_' :: r := by
  obtain ⟨c, s, rfl, hc⟩ := h.1
  intro e
  exact hc (List.cons.inj e).1

theorem mangle_tame {cls a : Str} (h : Tame a) : mangle cls a = a := by
  rw [mangle, if_neg (fun e => tame_noDunder h e.1)]

theorem strip_under {u r : Str} {c : Char} (hu : ∀ x ∈ u, x = '_') (hc : c ≠ '_') : (u ++ c :: r).dropWhile (· == '_') = c :: r := by
  induction u with
  | nil => simp [hc]
  | cons x u ih =>
    rw [List.cons_append, List.dropWhile_cons, if_pos (by simp [hu x (by simp)])]
    exact ih fun y hy => hu y (by simp [hy])

/-- The names of the slots of children have two underscores inside, after another character, and
are no accessors. -/
theorem mangle_slot {cls a : Str} (hc : UsualClass cls) (h : Tame a) :
    ∃ c r, c ≠ '_' ∧ mangle cls (py!"__" ++ a) = '_' :: c :: r ++ '_' :: '_' :: a ∧ ∀ p ∈ [py!"get_", py!"set_", py!"unset_"], ¬ p <+: c :: r := by
  obtain ⟨u, c, r, rfl, hu, hc, hp⟩ := hc
  have hd := strip_under (r := r) hu hc
  have hs : ¬ ['_', '_'] <:+ (py!"__" ++ a) := by
    rintro ⟨t, e⟩
    obtain ⟨c, r, rfl, hr⟩ := h.1
    cases t with
    | nil => simp at e
    | cons x t =>
      cases t with
      | nil =>
        simp only [List.cons_append, List.nil_append, List.cons.injEq] at e
        exact hr e.2.2.1.symm
      | cons y t =>
        simp only [List.cons_append, List.nil_append, List.cons.injEq] at e
        exact h.2 t e.2.2.symm
  refine ⟨c, r, hc, ?_, hp⟩
  rw [mangle, if_pos ⟨⟨a, rfl⟩, hs, by rw [hd]; simp⟩, hd]
  simp

/-- A word with an underscore only at its end. -/
theorem slot_not_accessor {x a b w : Str} (hw : '_' ∉ w) (hx : ¬ (w ++ ['_']) <+: x) (hb : Tame b) :
    x ++ '_' :: '_' :: a ≠ (w ++ ['_']) ++ b := by
  intro e
  rcases List.append_eq_append_iff.1 e with ⟨d, e1, e2⟩ | ⟨d, e1, e2⟩
  · -- the word is longer
    cases d with
    | nil => exact hx ⟨[], by simpa using e1⟩
    | cons y d =>
      have hy : y = '_' := (List.cons.inj e2).1.symm
      subst hy
      have hd : d = [] := by
        cases List.eq_nil_or_concat d with
        | inl h => exact h
        | inr h =>
          obtain ⟨d', z, rfl⟩ := h
          have : w = x ++ '_' :: d' := by
            have e3 : w ++ ['_'] = (x ++ '_' :: d') ++ [z] := by rw [e1]; simp
            exact (List.append_inj' e3 rfl).1
          exact absurd (by rw [this]; simp) hw
      subst hd
      exact tame_ne_under hb (List.cons.inj e2).2.symm
  · exact hx ⟨d, e1.symm⟩

/-- Checked by going along. -/
def hasDD : Str → Bool
  | '_' :: '_' :: _ => true
  | _ :: r => hasDD r
  | [] => false

theorem no_dd_of {pre : Str} (h : hasDD pre = false) : ∀ x y, pre ≠ x ++ '_' :: '_' :: y := by
  intro x
  induction x generalizing pre with
  | nil => rintro y rfl; simp [hasDD] at h
  | cons b x ih =>
    rintro y rfl
    refine ih (pre := x ++ '_' :: '_' :: y) ?_ y rfl
    simp only [List.cons_append] at h
    cases hx : x ++ '_' :: '_' :: y with
    | nil => rfl
    | cons c r =>
      rw [hx] at h
      unfold hasDD at h
      split at h
      · cases h
      · rename_i e
        rw [(List.cons.inj e).2]; exact h
      · rename_i e; cases e

theorem accessor_mem {kids : List (Str × Bool)} {p : Str × Member} (h : p ∈ accessorNs kids) : ∃ k ∈ kids,
    p = (py!"_get_" ++ safeName k.1, Member.getter (safeName k.1)) ∨ p = (py!"_set_" ++ safeName k.1, .setter (safeName k.1)) ∨
    p = (py!"_unset_" ++ safeName k.1, .unsetter (safeName k.1)) := by
  simp only [accessorNs, List.mem_reverse, List.mem_flatMap, List.mem_cons, List.not_mem_nil, or_false] at h
  obtain ⟨k, hk, h⟩ := h
  exact ⟨k, hk, h⟩

theorem accessor_keys {kids : List (Str × Bool)} {k : Str × Bool} (hk : k ∈ kids) :
    py!"_get_" ++ safeName k.1 ∈ (accessorNs kids).map Prod.fst ∧ py!"_set_" ++ safeName k.1 ∈ (accessorNs kids).map Prod.fst ∧
    py!"_unset_" ++ safeName k.1 ∈ (accessorNs kids).map Prod.fst := by
  have mem : ∀ p, p ∈ [(py!"_get_" ++ safeName k.1, Member.getter (safeName k.1)), (py!"_set_" ++ safeName k.1, .setter (safeName k.1)),
    (py!"_unset_" ++ safeName k.1, .unsetter (safeName k.1))] → p ∈ accessorNs kids := by
    intro p hp
    simp only [accessorNs, List.mem_reverse, List.mem_flatMap]
    exact ⟨k, hk, hp⟩
  exact ⟨List.mem_map.2 ⟨(py!"_get_" ++ safeName k.1, .getter (safeName k.1)), mem _ (by simp), rfl⟩,
    List.mem_map.2 ⟨(py!"_set_" ++ safeName k.1, .setter (safeName k.1)), mem _ (by simp), rfl⟩,
    List.mem_map.2 ⟨(py!"_unset_" ++ safeName k.1, .unsetter (safeName k.1)), mem _ (by simp), rfl⟩⟩

theorem accessor_lookup {kids : List (Str × Bool)} {k : Str × Bool} (hk : k ∈ kids) :
    (accessorNs kids).lookup (py!"_get_" ++ safeName k.1) = some (.getter (safeName k.1)) ∧
    (accessorNs kids).lookup (py!"_set_" ++ safeName k.1) = some (.setter (safeName k.1)) ∧
    (accessorNs kids).lookup (py!"_unset_" ++ safeName k.1) = some (.unsetter (safeName k.1)) := by
  obtain ⟨h1, h2, h3⟩ := accessor_keys hk
  refine ⟨lookup_fun ?_ h1, lookup_fun ?_ h2, lookup_fun ?_ h3⟩ <;>
  · intro p hp e
    obtain ⟨q, _, rfl | rfl | rfl⟩ := accessor_mem hp <;> simp at e <;> simp [e]

/-- The properties, in the order of the children. -/
theorem props_fold {cls : Str} (ks : List (Str × Bool)) : ∀ {ns : ClassNs}, (∀ k ∈ ks, Tame (safeName k.1)) → ns.lookup py!"__builtin__" = none →
    (∀ k ∈ ks, ns.lookup (py!"_get_" ++ safeName k.1) = some (.getter (safeName k.1)) ∧ ns.lookup (py!"_set_" ++ safeName k.1) = some (.setter (safeName k.1))) →
    ks.foldlM (propStep cls) ns = .ok ((ks.map fun k => (safeName k.1, childAttr k)).reverse ++ ns) := by
  induction ks with
  | nil => intro ns _ _ _; rfl
  | cons k ks ih =>
    intro ns ht hb ha
    have tk := ht k (by simp)
    obtain ⟨h1, h2⟩ := ha k (by simp)
    have step : propStep cls ns k = .ok ((safeName k.1, childAttr k) :: ns) := by
      simp only [propStep, hb, Option.isSome_none, Bool.false_eq_true, if_false, mangle_tame tk, h1, h2, Option.getD_some, childAttr]
    have other : ∀ r, ((safeName k.1, childAttr k) :: ns).lookup ('_' :: r) = ns.lookup ('_' :: r) := by
      intro r
      have : ('_' :: r == safeName k.1) = false := by simpa using fun e => tame_ne_under tk e.symm
      rw [List.lookup_cons, this]
    rw [List.foldlM_cons, step]
    simp only [bind, Except.bind]
    rw [ih (fun q hq => ht q (by simp [hq])) (by rw [← hb]; exact other _)
      (fun q hq => by
        obtain ⟨h3, h4⟩ := ha q (by simp [hq])
        exact ⟨by rw [← h3]; exact other _, by rw [← h4]; exact other _⟩)]
    simp

/-- The class of such children: its slots, and then the rest. -/
theorem class_loads {cls : Str} (choices : Bool) {kids : List (Str × Bool)} (hc : UsualClass cls) (ht : ∀ k ∈ kids, Tame (safeName k.1))
    (ho : ∀ k ∈ kids, safeName k.1 ≠ py!"OrderedDict") :
    generatedClass cls choices kids = .ok (((slotNames cls kids).map fun s => (s, Member.slot)) ++
      ((py!"_pyangbind_elements", Member.own py!"_pyangbind_elements") ::
        ((if choices then [(py!"__choices__", Member.own py!"__choices__")] else []) ++
          ((kids.map fun k => (safeName k.1, childAttr k)).reverse ++ (accessorNs kids ++ ownNames.map fun n => (n, Member.own n)))))) := by
  have base : ∀ n, (∀ k ∈ kids, n ≠ py!"_get_" ++ safeName k.1 ∧ n ≠ py!"_set_" ++ safeName k.1 ∧ n ≠ py!"_unset_" ++ safeName k.1) → n ∉ ownNames →
      (accessorNs kids ++ ownNames.map fun n => (n, Member.own n)).lookup n = none := by
    intro n h1 h2
    refine lookup_not fun p hp e => ?_
    rcases List.mem_append.1 hp with hp | hp
    · obtain ⟨k, hk, rfl | rfl | rfl⟩ := accessor_mem hp
      · exact (h1 k hk).1 e.symm
      · exact (h1 k hk).2.1 e.symm
      · exact (h1 k hk).2.2 e.symm
    · obtain ⟨m, hm, rfl⟩ := List.mem_map.1 hp
      exact h2 (by rw [← e]; exact hm)
  have fold := props_fold (cls := cls) kids (ns := accessorNs kids ++ ownNames.map fun n => (n, Member.own n)) ht
    (base _ (fun k _ => ⟨by simp, by simp, by simp⟩) (by decide))
    (fun k hk => by
      obtain ⟨h1, h2, _⟩ := accessor_lookup hk
      exact ⟨by rw [lookup_app, h1]; rfl, by rw [lookup_app, h2]; rfl⟩)
  have hprops : ∀ n, (∀ k ∈ kids, n ≠ safeName k.1) → (kids.map fun k => (safeName k.1, childAttr k)).reverse.lookup n = none := by
    intro n h
    refine lookup_not fun p hp e => ?_
    obtain ⟨k, hk, rfl⟩ := List.mem_map.1 (List.mem_reverse.1 hp)
    exact h k hk e.symm
  have hod : ((kids.map fun k => (safeName k.1, childAttr k)).reverse ++ (accessorNs kids ++ ownNames.map fun n => (n, Member.own n))).lookup
      py!"OrderedDict" = none := by
    rw [lookup_app, hprops _ (fun k hk => (ho k hk).symm), base _ (fun k _ => ⟨by simp, by simp, by simp⟩) (by decide)]
    rfl
  -- a slot is none of the other names
  have hslot : ∀ s ∈ slotNames cls kids,
      ((py!"_pyangbind_elements", Member.own py!"_pyangbind_elements") ::
        ((if choices then [(py!"__choices__", Member.own py!"__choices__")] else []) ++
          ((kids.map fun k => (safeName k.1, childAttr k)).reverse ++ (accessorNs kids ++ ownNames.map fun n => (n, Member.own n))))).lookup s = none := by
    intro s hs
    have facts : s ≠ py!"_pyangbind_elements" ∧ s ≠ py!"__choices__" ∧ (∀ k ∈ kids, s ≠ safeName k.1) ∧
        (∀ k ∈ kids, s ≠ py!"_get_" ++ safeName k.1 ∧ s ≠ py!"_set_" ++ safeName k.1 ∧ s ≠ py!"_unset_" ++ safeName k.1) ∧ s ∉ ownNames := by
      simp only [slotNames, List.mem_cons, List.mem_map] at hs
      rcases hs with rfl | rfl | ⟨k, hk, rfl⟩
      · exact ⟨by decide, by decide, fun k hk e => tame_ne_under (ht k hk) e.symm, fun k _ => ⟨by simp, by simp, by simp⟩, by decide⟩
      · exact ⟨by decide, by decide, fun k hk e => tame_ne_under (ht k hk) e.symm, fun k _ => ⟨by simp, by simp, by simp⟩, by decide⟩
      · obtain ⟨c, r, hcr, e, hacc⟩ := mangle_slot hc (ht k hk)
        rw [e]
        refine ⟨?_, ?_, fun q hq e => tame_ne_under (ht q hq) e.symm, fun q hq => ⟨?_, ?_, ?_⟩, ?_⟩
        rotate_left 2
        · exact fun e => slot_not_accessor (w := py!"get") (by decide) (hacc _ (by simp)) (ht q hq) (List.cons.inj e).2
        · exact fun e => slot_not_accessor (w := py!"set") (by decide) (hacc _ (by simp)) (ht q hq) (List.cons.inj e).2
        · exact fun e => slot_not_accessor (w := py!"unset") (by decide) (hacc _ (by simp)) (ht q hq) (List.cons.inj e).2
        rotate_left 1
        · exact fun e => no_dd_of (pre := py!"_pyangbind_elements") rfl _ _ e.symm
        · intro e
          exact hcr (List.cons.inj (List.cons.inj e).2).1
        · intro hm
          simp only [ownNames, List.mem_cons, List.not_mem_nil, or_false] at hm
          rcases hm with e | e | e | e | e | e
          · exact hcr (List.cons.inj (List.cons.inj e).2).1
          · exact no_dd_of (pre := py!"_yang_name") rfl _ _ e.symm
          · exact no_dd_of (pre := py!"_yang_namespace") rfl _ _ e.symm
          · exact no_dd_of (pre := py!"_pybind_generated_by") rfl _ _ e.symm
          · exact hcr (List.cons.inj (List.cons.inj e).2).1
          · exact no_dd_of (pre := py!"_path") rfl _ _ e.symm
    have h1 : (s == py!"_pyangbind_elements") = false := by simpa using facts.1
    rw [List.lookup_cons, h1]
    simp only []
    rw [lookup_app, lookup_app, hprops _ facts.2.2.1, base _ facts.2.2.2.1 facts.2.2.2.2]
    cases choices with
    | false => rfl
    | true =>
      have h2 : (s == py!"__choices__") = false := by simpa using facts.2.1
      simp [List.lookup, h2]
  rw [generatedClass, fold]
  simp only []
  have hch : (if choices = true then (py!"__choices__", Member.own py!"__choices__") ::
        ((kids.map fun k => (safeName k.1, childAttr k)).reverse ++ (accessorNs kids ++ ownNames.map fun n => (n, Member.own n)))
      else ((kids.map fun k => (safeName k.1, childAttr k)).reverse ++ (accessorNs kids ++ ownNames.map fun n => (n, Member.own n)))) =
      (if choices then [(py!"__choices__", Member.own py!"__choices__")] else []) ++
        ((kids.map fun k => (safeName k.1, childAttr k)).reverse ++ (accessorNs kids ++ ownNames.map fun n => (n, Member.own n))) := by
    cases choices <;> rfl
  rw [hch]
  have hod' : ((if choices then [(py!"__choices__", Member.own py!"__choices__")] else []) ++
        ((kids.map fun k => (safeName k.1, childAttr k)).reverse ++ (accessorNs kids ++ ownNames.map fun n => (n, Member.own n)))).lookup
        py!"OrderedDict" = none := by
    rw [lookup_app, hod]
    cases choices <;> rfl
  rw [hod', if_neg (by simp), if_neg]
  intro h
  rw [List.any_eq_true] at h
  obtain ⟨s, hs, h⟩ := h
  rw [hslot s hs] at h
  simp at h

theorem blur_sep {c : Char} (h : blur c = '_') : Separator c := by
  unfold blur at h
  split at h
  · exact .inr (.inl (by assumption))
  · split at h
    · exact .inr (.inr (by assumption))
    · exact .inl h

theorem plain_tame {n : Str} (h : UsualName n) : Tame (safeName n) := by
  rw [safeName_eq]
  split
  · rename_i hr
    have h1 : ∀ r ∈ reservedName, r.getLast? ≠ some '_' ∧ r.head? ≠ some '_' ∧ r ≠ [] := by decide
    obtain ⟨a, b, c⟩ := h1 _ hr
    refine ⟨?_, fun x e => ?_⟩
    · cases e : under n with
      | nil => exact absurd e c
      | cons d r =>
        rw [e] at b
        exact ⟨d, r ++ py!"_", rfl, fun e => b (by simp [e])⟩
    · have : under n = x ++ ['_'] := (List.append_inj' (t₁ := ['_']) (t₂ := ['_']) (by rw [e]; simp) rfl).1
      rw [this] at a
      simp at a
  · rw [under_eq_map]
    obtain ⟨⟨c, r, e, hc⟩, h2⟩ := h
    refine ⟨⟨blur c, r.map blur, by rw [e]; rfl, fun e => ?_⟩, fun x e' => ?_⟩
    · rcases blur_sep e with rfl | rfl | rfl <;> simp [isAlpha] at hc
    · obtain ⟨l1, l2, e1, _, e2⟩ := List.map_eq_append_iff.1 e'
      obtain ⟨a, l3, e3, ha, e4⟩ := List.map_eq_cons_iff.1 e2
      obtain ⟨b, l4, e5, hb, e6⟩ := List.map_eq_cons_iff.1 e4
      have : l4 = [] := by simpa using e6
      exact h2 l1 a b (by rw [e1, e3, e5, this]) ⟨blur_sep ha, blur_sep hb⟩

/-- The only name for an attribute without underscores is that name. -/
theorem safe_word {n w : Str} (hw : '_' ∉ w) (h : safeName n = w) : n = w := by
  rw [safeName_eq] at h
  split at h
  · exact absurd (by rw [← h]; simp) hw
  · rw [under_eq_map] at h
    subst h
    have : ∀ c ∈ n, blur c = c := by
      intro c hc
      have : blur c ≠ '_' := fun e => hw (by rw [← e]; exact List.mem_map_of_mem hc)
      unfold blur at this ⊢
      split
      · rw [if_pos (by assumption)] at this; exact absurd rfl this
      · rw [if_neg (by assumption)] at this
        split
        · rw [if_pos (by assumption)] at this; exact absurd rfl this
        · rfl
    conv => lhs; rw [← List.map_id n]
    exact (List.map_congr_left this).symm

/-- What a name that is no slot stands for in the class. -/
theorem class_lookup {cls : Str} {choices : Bool} {kids : List (Str × Bool)} {ns : ClassNs} {n : Str} (hc : UsualClass cls)
    (ht : ∀ k ∈ kids, Tame (safeName k.1)) (ho : ∀ k ∈ kids, safeName k.1 ≠ py!"OrderedDict") (e : generatedClass cls choices kids = .ok ns)
    (h1 : n ∉ slotNames cls kids) (h2 : n ≠ py!"_pyangbind_elements") (h3 : n ≠ py!"__choices__") :
    ns.lookup n = (((kids.map fun k => (safeName k.1, childAttr k)).reverse.lookup n).or
      (((accessorNs kids).lookup n).or ((ownNames.map fun n => (n, Member.own n)).lookup n))) := by
  rw [class_loads choices hc ht ho] at e
  cases e
  have hs : ((slotNames cls kids).map fun s => (s, Member.slot)).lookup n = none := by
    refine lookup_not fun p hp e => ?_
    obtain ⟨s, hs, rfl⟩ := List.mem_map.1 hp
    exact h1 (by rw [← e]; exact hs)
  have h2' : (n == py!"_pyangbind_elements") = false := by simpa using h2
  rw [lookup_app, hs, Option.none_or, List.lookup_cons, h2']
  simp only []
  rw [lookup_app, lookup_app, lookup_app]
  cases choices with
  | false => rfl
  | true =>
    have h3' : (n == py!"__choices__") = false := by simpa using h3
    simp [List.lookup, h3']

/-- What is none of the slots. -/
theorem not_slot {cls : Str} {kids : List (Str × Bool)} (hc : UsualClass cls) (ht : ∀ k ∈ kids, Tame (safeName k.1)) {n : Str}
    (hn : hasDD n = false) (h1 : n ≠ py!"_path_helper") (h2 : n ≠ py!"_extmethods") : n ∉ slotNames cls kids := by
  intro hm
  simp only [slotNames, List.mem_cons, List.mem_map] at hm
  rcases hm with e | e | ⟨k, hk, e⟩
  · exact h1 e
  · exact h2 e
  · obtain ⟨c, r, _, e', _⟩ := mangle_slot hc (ht k hk)
    exact no_dd_of hn ('_' :: c :: r) (safeName k.1) (by rw [← e, e'])

theorem tame_not_slot {cls : Str} {kids : List (Str × Bool)} (hc : UsualClass cls) (ht : ∀ k ∈ kids, Tame (safeName k.1)) {n : Str}
    (hn : Tame n) : n ∉ slotNames cls kids ∧ ∀ w ∈ [py!"get", py!"set", py!"unset"], '_' :: (w ++ ['_']) ++ n ∉ slotNames cls kids := by
  constructor
  · intro hm
    simp only [slotNames, List.mem_cons, List.mem_map] at hm
    rcases hm with e | e | ⟨k, hk, e⟩
    · exact tame_ne_under hn e
    · exact tame_ne_under hn e
    · obtain ⟨c, r, _, e', _⟩ := mangle_slot hc (ht k hk)
      exact tame_ne_under hn (by rw [← e, e']; rfl)
  · intro w hw hm
    have hw' : '_' ∉ w ∧ w ++ ['_'] ∈ [py!"get_", py!"set_", py!"unset_"] ∧ '_' :: (w ++ ['_']) ≠ py!"_path_" ∧ '_' :: (w ++ ['_']) ≠ py!"_ext" := by
      simp only [List.mem_cons, List.not_mem_nil, or_false] at hw
      rcases hw with rfl | rfl | rfl <;> decide
    simp only [slotNames, List.mem_cons, List.mem_map] at hm
    rcases hm with e | e | ⟨k, hk, e⟩
    · simp only [List.mem_cons, List.not_mem_nil, or_false] at hw
      rcases hw with rfl | rfl | rfl <;> simp at e
    · simp only [List.mem_cons, List.not_mem_nil, or_false] at hw
      rcases hw with rfl | rfl | rfl <;> simp at e
    · obtain ⟨c, r, _, e', hacc⟩ := mangle_slot hc (ht k hk)
      rw [e'] at e
      exact slot_not_accessor hw'.1 (hacc _ hw'.2.1) hn (List.cons.inj e).2

theorem prop_lookup {kids : List (Str × Bool)} (hd : (kids.map fun k => safeName k.1).Nodup) {k : Str × Bool} (hk : k ∈ kids) :
    (kids.map fun k => (safeName k.1, childAttr k)).reverse.lookup (safeName k.1) = some (childAttr k) := by
  refine lookup_fun ?_ ?_
  · intro p hp e
    obtain ⟨q, hq, rfl⟩ := List.mem_map.1 (List.mem_reverse.1 hp)
    have : q = k := nodup_map_inj hd hq hk e
    rw [this]
  · simp only [List.map_reverse, List.mem_reverse, List.map_map, List.mem_map]
    exact ⟨k, hk, rfl⟩

theorem prop_not {kids : List (Str × Bool)} {n : Str} (h : ∀ k ∈ kids, safeName k.1 ≠ n) :
    (kids.map fun k => (safeName k.1, childAttr k)).reverse.lookup n = none := by
  refine lookup_not fun p hp e => ?_
  obtain ⟨k, hk, rfl⟩ := List.mem_map.1 (List.mem_reverse.1 hp)
  exact h k hk e

theorem accessor_not {kids : List (Str × Bool)} {n : Str} (h : ∀ a, n ≠ py!"_get_" ++ a ∧ n ≠ py!"_set_" ++ a ∧ n ≠ py!"_unset_" ++ a) :
    (accessorNs kids).lookup n = none := by
  refine lookup_not fun p hp e => ?_
  obtain ⟨k, hk, rfl | rfl | rfl⟩ := accessor_mem hp
  · exact (h _).1 e.symm
  · exact (h _).2.1 e.symm
  · exact (h _).2.2 e.symm

theorem attr_of_lookup {w : Bool} {ns : ClassNs} {n : Str} {m : Member} (h : ns.lookup n = some m) (hw : w = true → n ∉ wrapperNames) :
    attrOf w ns n = some m := by
  rw [attrOf, if_neg (fun e => hw e.1 e.2), h]

theorem attr_of_base {w : Bool} {ns : ClassNs} {n : Str} (h : ns.lookup n = none) (hw : w = true → n ∉ wrapperNames) (hp : n ∈ pybindNames) :
    attrOf w ns n = some (.lib n) := by
  rw [attrOf, if_neg (fun e => hw e.1 e.2), h]
  simp [hp]

theorem safe_not_wrapper {k : Str} (h : Tame (safeName k)) (h1 : k ≠ py!"append") (h2 : k ≠ py!"extend") : safeName k ∉ wrapperNames := by
  have hr := C01_safe_name_not_reserved k
  have all : ∀ w ∈ wrapperNames, w.head? = some '_' ∨ w ∈ reservedName ∨ w = py!"append" ∨ w = py!"extend" := by decide
  intro hm
  rcases all _ hm with e | e | e | e
  · obtain ⟨c, r, e', hc⟩ := h.1
    rw [e'] at e
    exact hc (by simpa using e)
  · exact hr e
  · exact h1 (safe_word (by decide) e)
  · exact h2 (safe_word (by decide) e)

theorem not_accessor_wrapper {a : Str} : py!"_get_" ++ a ∉ wrapperNames ∧ py!"_unset_" ++ a ∉ wrapperNames ∧
    (py!"_set_" ++ a ∈ wrapperNames → a = py!"present") := by
  have all : ∀ w ∈ wrapperNames, w.take 5 ≠ py!"_get_" ∧ w.take 7 ≠ py!"_unset_" ∧ (w.take 5 = py!"_set_" → w.drop 5 = py!"present") := by decide
  refine ⟨fun h => (all _ h).1 (by simp), fun h => (all _ h).2.1 (by simp), fun h => ?_⟩
  have := (all _ h).2.2 (by simp)
  simpa using this

/-- C104, in part: the class can be loaded and has for every child the attribute and the three
methods that are its own.  What is missing is names that start with an underscore or end in two
separators, classes of modules like `get-x`, and the names of which it is false, below. -/
theorem C104_reached_partial (cls : Str) (choices : Bool) (kids : List (Str × Bool)) (hc : UsualClass cls)
    (hp : ∀ k ∈ kids, UsualName k.1) (hd : (kids.map fun k => safeName k.1).Nodup) (ho : ∀ k ∈ kids, k.1 ≠ py!"OrderedDict") :
    ∃ ns, generatedClass cls choices kids = .ok ns ∧
      ∀ k ∈ kids, ∀ wrapped,
        (¬ (wrapped = true ∧ (k.1 = py!"append" ∨ k.1 = py!"extend")) → attrOf wrapped ns (safeName k.1) = some (childAttr k)) ∧
        attrOf wrapped ns (py!"_get_" ++ safeName k.1) = some (.getter (safeName k.1)) ∧
        (¬ (wrapped = true ∧ k.1 = py!"present") → attrOf wrapped ns (py!"_set_" ++ safeName k.1) = some (.setter (safeName k.1))) ∧
        attrOf wrapped ns (py!"_unset_" ++ safeName k.1) = some (.unsetter (safeName k.1)) := by
  have ht : ∀ k ∈ kids, Tame (safeName k.1) := fun k hk => plain_tame (hp k hk)
  have ho' : ∀ k ∈ kids, safeName k.1 ≠ py!"OrderedDict" := fun k hk e => ho k hk (safe_word (by decide) e)
  refine ⟨_, class_loads choices hc ht ho', fun k hk wrapped => ?_⟩
  have look := fun n h1 h2 h3 => class_lookup (n := n) hc ht ho' (class_loads choices hc ht ho') h1 h2 h3
  have under_not : ∀ r, ∀ q ∈ kids, safeName q.1 ≠ '_' :: r := fun r q hq => tame_ne_under (ht q hq)
  obtain ⟨a1, a2, a3⟩ := accessor_lookup hk
  obtain ⟨w1, w2, w3⟩ := not_accessor_wrapper (a := safeName k.1)
  refine ⟨fun h => attr_of_lookup ?_ fun hw => ?_, attr_of_lookup ?_ fun _ => w1, fun h => attr_of_lookup ?_ fun hw hm => ?_, attr_of_lookup ?_ fun _ => w2⟩
  · rw [look _ (tame_not_slot hc ht (ht k hk)).1 (tame_ne_under (ht k hk)) (tame_ne_under (ht k hk)),
      prop_lookup hd hk]
    rfl
  · exact safe_not_wrapper (ht k hk) (fun e => h ⟨hw, .inl e⟩) fun e => h ⟨hw, .inr e⟩
  · rw [look (py!"_get_" ++ safeName k.1) ((tame_not_slot hc ht (ht k hk)).2 py!"get" (by simp)) (by simp) (by simp),
      prop_not (n := py!"_get_" ++ safeName k.1) (under_not _), a1]
    rfl
  · rw [look (py!"_set_" ++ safeName k.1) ((tame_not_slot hc ht (ht k hk)).2 py!"set" (by simp)) (by simp) (by simp),
      prop_not (n := py!"_set_" ++ safeName k.1) (under_not _), a2]
    rfl
  · exact h ⟨hw, safe_word (by decide) (w3 hm)⟩
  · rw [look (py!"_unset_" ++ safeName k.1) ((tame_not_slot hc ht (ht k hk)).2 py!"unset" (by simp)) (by simp) (by simp),
      prop_not (n := py!"_unset_" ++ safeName k.1) (under_not _), a3]
    rfl

/-- C104, in part: and what is not the child's keeps its meaning: `get()`, iteration and
subscription of `PybindBase`, `_path()` and the names of the class, and `elements()` if no child
has that name. -/
theorem C104_library_partial (cls : Str) (choices : Bool) (kids : List (Str × Bool)) (hc : UsualClass cls)
    (hp : ∀ k ∈ kids, UsualName k.1) (ns : ClassNs) (e : generatedClass cls choices kids = .ok ns) (ho : ∀ k ∈ kids, k.1 ≠ py!"OrderedDict")
    (wrapped : Bool) :
    attrOf wrapped ns py!"get" = some (.lib py!"get") ∧
    attrOf wrapped ns py!"__iter__" = some (.lib py!"__iter__") ∧
    attrOf wrapped ns py!"__getitem__" = some (.lib py!"__getitem__") ∧
    attrOf wrapped ns py!"_pyangbind_elements" = some (.own py!"_pyangbind_elements") ∧
    attrOf false ns py!"_path" = some (.own py!"_path") ∧
    ((∀ k ∈ kids, k.1 ≠ py!"elements") → attrOf wrapped ns py!"elements" = some (.lib py!"elements")) := by
  have ht : ∀ k ∈ kids, Tame (safeName k.1) := fun k hk => plain_tame (hp k hk)
  have ho' : ∀ k ∈ kids, safeName k.1 ≠ py!"OrderedDict" := fun k hk e => ho k hk (safe_word (by decide) e)
  have look := fun n h1 h2 h3 => class_lookup (n := n) hc ht ho' e h1 h2 h3
  have under_not : ∀ r, ∀ q ∈ kids, safeName q.1 ≠ '_' :: r := fun r q hq => tame_ne_under (ht q hq)
  have dunder_slot : ∀ r, '_' :: '_' :: r ∉ slotNames cls kids := by
    intro r hm
    simp only [slotNames, List.mem_cons, List.mem_map] at hm
    rcases hm with e | e | ⟨k, hk, e⟩
    · simp at e
    · simp at e
    · obtain ⟨c, t, hcr, e', _⟩ := mangle_slot hc (ht k hk)
      rw [e'] at e
      exact hcr (List.cons.inj (List.cons.inj e).2).1
  refine ⟨attr_of_base ?_ (fun _ => by decide) (by decide), attr_of_base ?_ (fun _ => by decide) (by decide),
    attr_of_base ?_ (fun _ => by decide) (by decide), attr_of_lookup ?_ (fun _ => by decide), attr_of_lookup ?_ (fun h => by cases h),
    fun h => attr_of_base ?_ (fun _ => by decide) (by decide)⟩
  · rw [look _ (not_slot hc ht rfl (by decide) (by decide)) (by decide) (by decide),
      prop_not (fun k _ e => C01_safe_name_not_reserved k.1 (by rw [e]; decide)), accessor_not (fun a => ⟨by simp, by simp, by simp⟩)]
    decide
  · rw [look _ (dunder_slot _) (by decide) (by decide), prop_not (under_not _), accessor_not (fun a => ⟨by simp, by simp, by simp⟩)]
    decide
  · rw [look _ (dunder_slot _) (by decide) (by decide), prop_not (under_not _), accessor_not (fun a => ⟨by simp, by simp, by simp⟩)]
    decide
  · rw [class_loads choices hc ht ho'] at e
    cases e
    rw [lookup_app, lookup_not]
    · simp
    · intro p hp e
      obtain ⟨s, hs, rfl⟩ := List.mem_map.1 hp
      have e' : s = py!"_pyangbind_elements" := e
      rw [e'] at hs
      exact not_slot hc ht rfl (by decide) (by decide) hs
  · rw [look _ (not_slot hc ht rfl (by decide) (by decide)) (by decide) (by decide), prop_not (under_not _),
      accessor_not (fun a => ⟨by simp, by simp, by simp⟩)]
    decide
  · rw [look _ (not_slot hc ht rfl (by decide) (by decide)) (by decide) (by decide),
      prop_not (fun k hk e => h k hk (safe_word (by decide) e)), accessor_not (fun a => ⟨by simp, by simp, by simp⟩)]
    decide

/-- A container with a leaf whose name is a keyword, a read-only one and one with separators. -/
def sampleKids : List (Str × Bool) := [(py!"class", true), (py!"oper-status", false), (py!"mtu.-v6_", true)]

example : UsualClass py!"yc_c_m__c" ∧ (∀ k ∈ sampleKids, UsualName k.1) ∧ (sampleKids.map fun k => safeName k.1).Nodup ∧
    (∀ k ∈ sampleKids, k.1 ≠ py!"OrderedDict") := by
  have usual : ∀ n : Str, ¬ ['_', '_'] <:+ under n → (∃ c r, n = c :: r ∧ isAlpha c = true) → UsualName n := by
    intro n h1 h2
    refine ⟨h2, fun x a b e hs => h1 ⟨x.map blur, ?_⟩⟩
    rw [under_eq_map, e]
    have : ∀ c, Separator c → blur c = '_' := by
      intro c h
      rcases h with rfl | rfl | rfl <;> rfl
    simp [this a hs.1, this b hs.2]
  refine ⟨⟨[], 'y', py!"c_c_m__c", rfl, by simp, by decide, by decide⟩, ?_, by decide, by decide⟩
  intro k hk
  simp only [sampleKids, List.mem_cons, List.not_mem_nil, or_false] at hk
  rcases hk with rfl | rfl | rfl
  · exact usual _ (by decide) ⟨_, _, rfl, by decide⟩
  · exact usual _ (by decide) ⟨_, _, rfl, by decide⟩
  · exact usual _ (by decide) ⟨_, _, rfl, by decide⟩

/-- C104 is false for a node `append` or `extend` below the module: whatever else is there, the
attribute is the method of the library. -/
theorem C104_append_refuted (cls : Str) (choices : Bool) (kids : List (Str × Bool)) (hc : UsualClass cls)
    (hp : ∀ k ∈ kids, UsualName k.1) (hd : (kids.map fun k => safeName k.1).Nodup) (ho : ∀ k ∈ kids, k.1 ≠ py!"OrderedDict")
    (k : Str × Bool) (_ : k ∈ kids) (hn : k.1 = py!"append" ∨ k.1 = py!"extend") :
    ∃ ns, generatedClass cls choices kids = .ok ns ∧ attrOf true ns (safeName k.1) = some (.lib k.1) := by
  obtain ⟨ns, h, _⟩ := C104_reached_partial cls choices kids hc hp hd ho
  refine ⟨ns, h, ?_⟩
  rcases hn with e | e
  · rw [e]; rfl
  · rw [e]; rfl

/-- The class of a container with such a leaf can be loaded. -/
example : ∃ ns, generatedClass py!"yc_c_m__c" false [(py!"append", true)] = .ok ns ∧ attrOf false ns py!"append" = some (childAttr (py!"append", true)) :=
  ⟨_, rfl, by decide⟩

/-- C104 is false for a node `present` below the module: the method that sets it is the one that
says that the container is there. -/
theorem C104_present_refuted (cls : Str) (choices : Bool) (kids : List (Str × Bool)) (hc : UsualClass cls)
    (hp : ∀ k ∈ kids, UsualName k.1) (hd : (kids.map fun k => safeName k.1).Nodup) (ho : ∀ k ∈ kids, k.1 ≠ py!"OrderedDict")
    (k : Str × Bool) (hk : k ∈ kids) (hn : k.1 = py!"present") :
    ∃ ns, generatedClass cls choices kids = .ok ns ∧ attrOf true ns (safeName k.1) = some (childAttr k) ∧
      attrOf true ns (py!"_set_" ++ safeName k.1) = some (.lib py!"_set_present") := by
  obtain ⟨ns, h, h'⟩ := C104_reached_partial cls choices kids hc hp hd ho
  refine ⟨ns, h, (h' k hk true).1 ?_, ?_⟩
  · rw [hn]; decide
  · rw [hn]; rfl

example : ∃ ns, generatedClass py!"yc_c_m__c" false [(py!"present", true)] = .ok ns ∧
    attrOf true ns py!"present" = some (childAttr (py!"present", true)) := ⟨_, rfl, by decide⟩

/-- C104 is false for a node `OrderedDict`: the module cannot be loaded. -/
theorem C104_ordereddict_refuted : generatedClass py!"m" false [(py!"OrderedDict", true)] = .error .typeError := by decide

/-- C104 is false for a node `elements`: the method by which the library lists and prints the
children is then that of the child, read with another value. -/
theorem C104_elements_refuted : ∃ ns, generatedClass py!"m" false [(py!"elements", true)] = .ok ns ∧
    ∀ wrapped, attrOf wrapped ns py!"elements" = some (childAttr (py!"elements", true)) := ⟨_, rfl, by decide⟩

/-- C104 is false for names with underscores: of `__x` there is no attribute, and of `_path` the
method is lost, but not in a container, where the leaf is; with `init--` the module cannot be
loaded, and neither with `n` and `x--n` if its name is `get-x`. -/
theorem C104_underscore_refuted :
    (∃ ns, generatedClass py!"m" false [(py!"__x", true)] = .ok ns ∧ ∀ wrapped, attrOf wrapped ns (safeName py!"__x") = none) ∧
    (∃ ns, generatedClass py!"m" false [(py!"_path", true)] = .ok ns ∧ attrOf false ns py!"_path" = some (childAttr (py!"_path", true)) ∧
      attrOf true ns (safeName py!"_path") = some (.lib py!"_path")) ∧
    generatedClass py!"m" false [(py!"init--", true)] = .error .valueError ∧
    generatedClass (safeName py!"get-x") false [(py!"n", true), (py!"x--n", true)] = .error .valueError :=
  ⟨⟨_, rfl, by decide⟩, ⟨_, rfl, by decide⟩, by decide, by decide⟩

end Pyb
