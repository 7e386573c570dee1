import Verif.Spec.TypeBuild
import Verif.Props.Typedef
import Verif.Props.Restricted

/-! # Lemmas on building types -/

namespace Pyb
open Py Spec

/-- `base_types`. -/
def knownNames (ids : List (Str × List Str)) : List Str := (classMap ids).map (·.1) ++ extraTypes

/-- What is assumed of identities and typedefs. -/
structure TypesOk (ids : List (Str × List Str)) (defs : List TDef) : Prop where
  meaning : ∀ d ∈ defs, ∃ y, TypeIs (knownNames ids) ids defs d d.type y
  flat : ∀ d ∈ defs, ¬ NestedUnion d.type.erase
  prefixes : ∀ d ∈ defs, OwnPrefixes d
  colons : ∀ d ∈ defs, ':' ∉ d.pfx ∧ ':' ∉ d.name
  names : (defs.map (·.name)).Nodup
  fresh : ∀ d ∈ defs, d.name ∉ knownNames ids ∧ d.pfx ++ ':' :: d.name ∉ knownNames ids
  ids : (ids.map (·.1)).Nodup ∧ (∀ i ∈ ids, i.1 ∉ classMap₀.map (·.1)) ∧ ∀ p n, p ++ ':' :: n ∈ ids.map (·.1) → n ∈ ids.map (·.1)
  length : defs.length ≤ 1001

/-! ## The map of classes -/

theorem foldl_ids_get (ids : List (Str × List Str)) (hn : (ids.map (·.1)).Nodup) (cm : Dict LeafT) (k : Str) :
    (ids.foldl (fun cm i => cm.set i.1 (.one (.restr (enumTy i.2)))) cm).get? k =
      match ids.lookup k with
      | some names => some (.one (.restr (enumTy names)))
      | none => cm.get? k := by
  induction ids generalizing cm with
  | nil => rfl
  | cons i ids ih =>
    obtain ⟨j, names⟩ := i
    simp only [List.map_cons, List.nodup_cons] at hn
    simp only [List.foldl_cons]
    rw [ih hn.2, List.lookup_cons]
    by_cases hk : k = j
    · subst hk
      have hno : ids.lookup k = none := by
        rw [List.lookup_eq_none_iff]
        intro p hp
        rw [bne_iff_ne]
        intro he
        exact hn.1 (he ▸ List.mem_map_of_mem (f := (·.1)) hp)
      simp only [hno, BEq.rfl, Dict.get?_set_self]
    · have hb : (k == j) = false := by simpa using hk
      simp only [hb, Dict.get?_set, hk, if_false]

theorem classMap_id {ids : List (Str × List Str)} {k : Str} {names : List Str} (hn : (ids.map (·.1)).Nodup) (h : ids.lookup k = some names) :
    (classMap ids).get? k = some (.one (.restr (enumTy names))) := by
  rw [classMap, foldl_ids_get ids hn, h]

theorem classMap_builtin {ids : List (Str × List Str)} {k : Str} {t : LeafT} (hn : (ids.map (·.1)).Nodup)
    (hf : ∀ i ∈ ids, i.1 ∉ classMap₀.map (·.1)) (h : classMap₀.get? k = some t) : (classMap ids).get? k = some t := by
  have hno : ids.lookup k = none := by
    rw [List.lookup_eq_none_iff]
    intro p hp
    rw [bne_iff_ne]
    intro he
    refine hf p hp ?_
    rw [← he, ← Dict.has_iff, Dict.has, h]
    rfl
  rw [classMap, foldl_ids_get ids hn, hno, h]

theorem mem_known {ids : List (Str × List Str)} {k : Str} {t : LeafT} (h : (classMap ids).get? k = some t) : k ∈ knownNames ids := by
  refine List.mem_append_left _ ?_
  rw [← Dict.has_iff, Dict.has, h]
  rfl

theorem int_builtin (t : IntTy) : classMap₀.get? t.name = some (.one (.restr t.rty)) := by
  cases t <;> rfl

theorem int_noColon (t : IntTy) : ':' ∉ t.name := by
  cases t <;> decide

/-! ## Names -/

theorem names_denote {base : List Str} {s d : TDef} {a : Str} (hs : OwnPrefixes s) (hd : ':' ∉ d.pfx ∧ ':' ∉ d.name)
    (h : Names base s.erase a (d.pfx ++ ':' :: d.name)) : a = d.key ∨ a = d.name := by
  generalize hk : d.pfx ++ ':' :: d.name = k at h
  cases h with
  | known _ h1 h2 => exact absurd (hk ▸ (by simp : ':' ∈ d.pfx ++ ':' :: d.name)) h1
  | sameModule _ h1 h2 =>
    refine .inr ?_
    have e : splitOn ':' (d.pfx ++ ':' :: d.name) = splitOn ':' (s.real ++ ':' :: a) := congrArg (splitOn ':') hk
    rw [splitOn_qual hd.1 hd.2, splitOn_qual hs.colon h1] at e
    simpa using ((List.cons.inj e).2).symm
  | own n h1 h2 =>
    refine .inl ?_
    show s.local_ ++ ':' :: n = _
    rw [hs.own]
    exact hk.symm
  | imported p n r h1 h2 h3 h4 h5 =>
    refine .inl ?_
    rw [hs.imports p r h5]
    exact hk.symm

theorem names_id {ids : List (Str × List Str)} {s : TDef} {b k : Str} (hs : OwnPrefixes s)
    (hb : ∀ p n, p ++ ':' :: n ∈ ids.map (·.1) → n ∈ knownNames ids)
    (hk : k ∈ ids.map (·.1)) (h : Names (knownNames ids) s.erase b k) : b = k := by
  cases h with
  | known _ h1 h2 => rfl
  | sameModule _ h1 h2 => exact absurd (hb _ _ hk) h2
  | own n h1 h2 =>
    show s.local_ ++ ':' :: n = s.real ++ ':' :: n
    rw [hs.own]
  | imported p n r h1 h2 h3 h4 h5 => rw [hs.imports p r h5]

theorem ids_lookup_mem {ids : List (Str × List Str)} {k : Str} {names : List Str} (h : ids.lookup k = some names) : k ∈ ids.map (·.1) := by
  induction ids with
  | nil => simp at h
  | cons i ids ih =>
    rw [List.lookup_cons] at h
    by_cases hk : k = i.1
    · simp [hk]
    · have hb : (k == i.1) = false := by simpa using hk
      rw [hb] at h
      exact List.mem_cons_of_mem _ (ih h)

/-! ## Types with a meaning come down to known ones -/

theorem eraseAll_eq (ms : List TypeT) : TypeT.eraseAll ms = ms.map TypeT.erase := by
  induction ms with
  | nil => rfl
  | cons m ms ih => rw [TypeT.eraseAll, ih]; rfl

theorem typeIs_grounded {ids : List (Str × List Str)} {defs : List TDef} (hi : (ids.map (·.1)).Nodup) (hf : ∀ i ∈ ids, i.1 ∉ classMap₀.map (·.1))
    {s : TDef} {t : TypeT} {y : YType} (h : TypeIs (knownNames ids) ids defs s t y) : ∀ a, Mentions t.erase a →
      ∃ k, Names (knownNames ids) s.erase a k ∧ TGrounded (knownNames ids) (defs.map TDef.erase) k := by
  have known : ∀ (s : TDef) a t, classMap₀.get? a = some t → ':' ∉ a →
      ∃ k, Names (knownNames ids) s.erase a k ∧ TGrounded (knownNames ids) (defs.map TDef.erase) k := fun s a t h hc =>
    have hm := mem_known (classMap_builtin hi hf h)
    ⟨a, .known a hc hm, .known a hm⟩
  have extra : ∀ (s : TDef) a, a ∈ extraTypes → ':' ∉ a →
      ∃ k, Names (knownNames ids) s.erase a k ∧ TGrounded (knownNames ids) (defs.map TDef.erase) k := fun s a h hc =>
    have hm : a ∈ knownNames ids := List.mem_append_right _ h
    ⟨a, .known a hc hm, .known a hm⟩
  induction h with
  | int _ t => intro a ha; cases ha; exact known _ _ _ (int_builtin t) (int_noColon t)
  | range _ a _ _ _ _ ih => intro b hb; cases hb; exact ih a (.plain _ _)
  | string => intro a ha; cases ha; exact known _ _ _ rfl (by decide)
  | layer _ a _ _ _ _ ih => intro b hb; cases hb; exact ih a (.plain _ _)
  | boolean => intro a ha; cases ha; exact known _ _ _ rfl (by decide)
  | empty => intro a ha; cases ha; exact known _ _ _ rfl (by decide)
  | binary => intro a ha; cases ha; exact known _ _ _ rfl (by decide)
  | enumeration => intro a ha; cases ha; exact extra _ _ (by decide) (by decide)
  | decimal64 => intro a ha; cases ha; exact known _ _ _ rfl (by decide)
  | bits => intro a ha; cases ha; exact extra _ _ (by decide) (by decide)
  | leafref => intro a ha; cases ha; exact extra _ _ (by decide) (by decide)
  | identityref _ b k names h1 h2 =>
    intro a ha
    cases ha
    exact ⟨k, h1, .known k (mem_known (classMap_id hi h2))⟩
  | typedef _ b d _ h1 h2 h3 ih =>
    intro a ha
    cases ha
    refine ⟨_, h2, .typedef d.erase (List.mem_map_of_mem h1) ?_⟩
    rintro k ⟨c, hc, hk⟩
    obtain ⟨k', hk', hg⟩ := ih c hc
    rw [names_unique hk hk']
    exact hg
  | union _ ms of he _ ih =>
    intro a ha
    simp only [TypeT.erase, eraseAll_eq] at ha
    cases ha with
    | member _ t _ ht hm =>
      obtain ⟨m, hm', rfl⟩ := List.mem_map.1 ht
      rw [he] at hm'
      obtain ⟨p, hp, rfl⟩ := List.mem_map.1 hm'
      exact ih p hp a hm

/-! ## The class of a meaning -/

/-- The class of a type that is not a union. -/
def _root_.Spec.YType.leafTy : YType → LeafTy
  | .int t rs => .restr (towerOf (rs ++ [[builtinPart t]]))
  | .string ls => .restr (strTower ls)
  | .boolean => .bool
  | .empty => .bool
  | .binary => .ext .bin
  | .enumeration names => .restr (enumTy names)
  | .decimal64 fd => .ext (.dec fd)
  | .bits bs => .ext (.bits bs)
  | .leafref => .restr (.base .str)
  | .union _ => .bool

def _root_.Spec.YType.native : YType → LeafT
  | .union ys => .union (ys.map YType.leafTy)
  | y => .one y.leafTy

/-- The classes of the names: known ones keep theirs, typedefs have the class of what they
mean. -/
structure NInv (ids : List (Str × List Str)) (defs pre : List TDef) (cm : Dict LeafT) : Prop where
  old : ∀ x t, (classMap ids).get? x = some t → cm.get? x = some t
  new : ∀ d ∈ pre, ∀ y, TypeIs (knownNames ids) ids defs d d.type y → cm.get? d.key = some y.native ∧ cm.get? d.name = some y.native
  only : ∀ x, cm.get? x ≠ none → (classMap ids).get? x ≠ none ∨ ∃ d ∈ pre, x = d.key ∨ x = d.name

theorem build_members {cm : Dict LeafT} (of : List (TypeT × YType)) (hflat : ∀ p ∈ of, ∀ us, p.1 ≠ .union us)
    (h : ∀ p ∈ of, buildNative cm p.1 = .ok p.2.native) :
    buildMembers cm (of.map (·.1)) = .ok ((of.flatMap fun p => p.2.parts).map YType.leafTy) := by
  induction of with
  | nil => simp [buildMembers]
  | cons p of ih =>
    have e1 := h p (by simp)
    have e2 := ih (fun q hq => hflat q (by simp [hq])) (fun q hq => h q (by simp [hq]))
    rw [List.map_cons, buildMembers, e1]
    · cases hy : p.2 <;> simp only [YType.native, e2, List.flatMap_cons, YType.parts, hy, List.map_append, List.map_cons, List.map_nil] <;> rfl
    · intro us he
      exact absurd he (hflat p (by simp) us)

theorem build_native {ids : List (Str × List Str)} {defs pre : List TDef} {cm : Dict LeafT} (H : TypesOk ids defs) (I : NInv ids defs pre cm)
    {s : TDef} (hs : OwnPrefixes s) {t : TypeT} {y : YType} (h : TypeIs (knownNames ids) ids defs s t y) (hflat : ¬ NestedUnion t.erase)
    (hpre : ∀ a, Mentions t.erase a → ∀ d ∈ defs, Names (knownNames ids) s.erase a (d.pfx ++ ':' :: d.name) → d ∈ pre) :
    buildNative cm t = .ok y.native := by
  have known : ∀ a t, classMap₀.get? a = some t → buildNative cm (.plain a [] none none) = .ok t := fun a t h => by
    have := I.old a t (classMap_builtin H.ids.1 H.ids.2.1 h)
    simp [buildNative, this]
  induction h with
  | int _ t =>
    rw [known _ _ (int_builtin t)]
    simp only [YType.native, YType.leafTy, List.nil_append, builtin_tower]
  | range _ a t rs ws _ ih =>
    have ih := ih hs (by simp [TypeT.erase, NestedUnion]) (by
      intro b hb
      cases hb
      exact hpre a (.plain _ _))
    simp only [buildNative, List.isEmpty_nil, Bool.not_true, Option.isSome_none, Bool.or_self, Bool.false_eq_true, if_false] at ih
    simp only [buildNative, List.isEmpty_nil, Bool.not_true, Option.isSome_none, Bool.or_self, Option.isSome_some, Bool.or_true, if_true]
    split at ih
    · cases ih
    · rename_i T hT
      simp only [Except.ok.injEq] at ih
      subst ih
      rw [hT]
      simp only [YType.native, YType.leafTy, genRTy_range]
      rfl
  | string => rw [known _ _ rfl]; rfl
  | layer _ a ls l _ hl ih =>
    have ih := ih hs (by simp [TypeT.erase, NestedUnion]) (by
      intro b hb
      cases hb
      exact hpre a (.plain _ _))
    simp only [buildNative, List.isEmpty_nil, Bool.not_true, Option.isSome_none, Bool.or_self, Bool.false_eq_true, if_false] at ih
    have hr : (!l.patterns.isEmpty || (l.length.map rangeText).isSome || (none : Option Str).isSome) = true := by
      rcases hl with hl | hl
      · have : l.patterns.isEmpty = false := by simpa using hl
        simp [this]
      · simp [Option.isSome_map, hl]
    simp only [buildNative, hr, if_true]
    split at ih
    · cases ih
    · rename_i T hT
      simp only [Except.ok.injEq] at ih
      subst ih
      rw [hT]
      rfl
  | boolean => rw [known _ _ rfl]; rfl
  | empty => rw [known _ _ rfl]; rfl
  | binary => rw [known _ _ rfl]; rfl
  | enumeration => rfl
  | decimal64 => rfl
  | bits => rfl
  | leafref => rfl
  | identityref _ b k names h1 h2 =>
    have hb := names_id hs (fun p n hpn => by
      obtain ⟨i, hi, rfl⟩ := List.mem_map.1 (H.ids.2.2 p n hpn)
      have : ids.lookup i.1 = some i.2 := by
        rw [show ids.lookup i.1 = Dict.get? ids i.1 from rfl]
        exact Dict.get?_of_mem H.ids.1 hi
      exact mem_known (classMap_id H.ids.1 this)) (ids_lookup_mem h2) h1
    subst hb
    have := I.old _ _ (classMap_id H.ids.1 h2)
    simp only [buildNative, this]
    rfl
  | typedef _ b d y h1 h2 h3 _ =>
    have hd := hpre b (.plain _ _) d h1 h2
    have hn := I.new d hd y h3
    have : cm.get? b = some y.native := by
      rcases names_denote hs (H.colons d h1) h2 with rfl | rfl
      · exact hn.1
      · exact hn.2
    simp [buildNative, this]
  | union _ ms of he _ ih =>
    subst he
    simp only [TypeT.erase, eraseAll_eq] at hflat hpre
    have hf : ∀ p ∈ of, ∀ us, p.1 ≠ .union us := by
      intro p hp us he
      refine hflat ⟨TypeT.eraseAll us, List.mem_map.2 ⟨_, List.mem_map_of_mem (f := (·.1)) hp, ?_⟩⟩
      rw [he]
      rfl
    have hm := build_members (cm := cm) of hf (fun p hp => ih p hp hs (by
        have := hf p hp
        cases hq : p.1 with
        | union us => exact absurd hq (this us)
        | _ => simp [TypeT.erase, NestedUnion]) (fun a ha => hpre a (.member _ _ _ (List.mem_map.2 ⟨_, List.mem_map_of_mem (f := (·.1)) hp, rfl⟩) ha)))
    simp only [buildNative, hm]
    rfl

/-! ## The loop -/

theorem tdef_name_inj {defs : List TDef} (h : (defs.map (·.name)).Nodup) {a b : TDef} (ha : a ∈ defs) (hb : b ∈ defs) (e : a.name = b.name) : a = b := by
  induction defs with
  | nil => simp at ha
  | cons d defs ih =>
    simp only [List.map_cons, List.nodup_cons] at h
    rcases List.mem_cons.1 ha with rfl | ha' <;> rcases List.mem_cons.1 hb with rfl | hb'
    · rfl
    · exact absurd (e ▸ List.mem_map_of_mem (f := (·.name)) hb') h.1
    · exact absurd (e ▸ List.mem_map_of_mem (f := (·.name)) ha') h.1
    · exact ih h.2 ha' hb'

theorem TDef.key_eq (d : TDef) : d.key = d.pfx ++ ':' :: d.name := rfl

theorem tdef_colon (d : TDef) : ':' ∈ d.key := by simp [TDef.key]

theorem key_name {a b : TDef} (ha : ':' ∉ a.pfx ∧ ':' ∉ a.name) (hb : ':' ∉ b.pfx ∧ ':' ∉ b.name) (e : a.key = b.key) : a.name = b.name := by
  have e := congrArg (splitOn ':') e
  rw [a.key_eq, b.key_eq, splitOn_qual ha.1 ha.2, splitOn_qual hb.1 hb.2] at e
  simpa using (List.cons.inj e).2

theorem addNative_step {ids : List (Str × List Str)} {defs pre : List TDef} {cm : Dict LeafT} (H : TypesOk ids defs) (I : NInv ids defs pre cm)
    (hsub : ∀ d ∈ pre, d ∈ defs) {d : TDef} (hd : d ∈ defs) (hnew : d ∉ pre)
    (hpre : ∀ a, Mentions d.type.erase a → ∀ d' ∈ defs, Names (knownNames ids) d.erase a (d'.pfx ++ ':' :: d'.name) → d' ∈ pre) :
    ∃ cm', addNative cm d = .ok cm' ∧ NInv ids defs (pre ++ [d]) cm' := by
  have build : ∀ y, TypeIs (knownNames ids) ids defs d d.type y → buildNative cm d.type = .ok y.native := fun y hy =>
    build_native H I (H.prefixes d hd) hy (H.flat d hd) hpre
  obtain ⟨y₀, hy₀⟩ := H.meaning d hd
  have hcd := H.colons d hd
  have hfr := H.fresh d hd
  have hneq : ∀ d' ∈ pre, d'.name ≠ d.name := fun d' hd' e => hnew (tdef_name_inj H.names (hsub d' hd') hd e ▸ hd')
  have hkeq : ∀ d' ∈ pre, d'.key ≠ d.key := fun d' hd' e => hneq d' hd' (key_name (H.colons d' (hsub d' hd')) hcd e)
  have hkn : ∀ a ∈ defs, ∀ b : TDef, b.key ≠ a.name := fun a ha b e => (H.colons a ha).2 (e ▸ tdef_colon b)
  have hclass : ∀ x, x ∉ knownNames ids → (classMap ids).get? x = none := by
    intro x hx
    cases hg : (classMap ids).get? x with
    | none => rfl
    | some t => exact absurd (mem_known hg) hx
  have hhas : cm.has d.key = false := by
    cases hg : cm.get? d.key with
    | none => simp [Dict.has, hg]
    | some t =>
      exfalso
      rcases I.only d.key (by simp [hg]) with h | ⟨d', hd', h | h⟩
      · exact h (hclass _ hfr.2)
      · exact hkeq d' hd' h.symm
      · exact hkn d' (hsub d' hd') d h
  have hext : extraTypes.contains d.key = false := by
    rw [← Bool.not_eq_true, List.contains_iff_mem]
    exact fun h => hfr.2 (List.mem_append_right _ h)
  have hsplit : (splitOn ':' d.key).getD 1 [] = d.name := by rw [TDef.key_eq, splitOn_qual hcd.1 hcd.2]; rfl
  refine ⟨(cm.set d.key y₀.native).set d.name y₀.native, ?_, ?_, ?_, ?_⟩
  · simp only [addNative, build y₀ hy₀, hhas, hext, hsplit, Bool.or_self, Bool.false_eq_true, if_false]
  · intro x t hx
    have h1 : x ≠ d.name := fun e => by
      rw [e, hclass _ hfr.1] at hx
      cases hx
    have h2 : x ≠ d.key := fun e => by
      rw [e, hclass d.key hfr.2] at hx
      cases hx
    rw [Dict.get?_set, if_neg h1, Dict.get?_set, if_neg h2]
    exact I.old x t hx
  · intro d' hd' y hy
    rcases List.mem_append.1 hd' with hd' | hd'
    · have := I.new d' hd' y hy
      rw [Dict.get?_set, if_neg (hkn d hd d'), Dict.get?_set, if_neg (hkeq d' hd'), Dict.get?_set, if_neg (hneq d' hd'), Dict.get?_set,
        if_neg (fun e => hkn d' (hsub d' hd') d e.symm)]
      exact this
    · have : d' = d := by simpa using hd'
      subst this
      have e : y₀.native = y.native := by
        have := (build y₀ hy₀).symm.trans (build y hy)
        simpa using this
      rw [e]
      refine ⟨?_, Dict.get?_set_self _ _ _⟩
      rw [Dict.get?_set, if_neg (hkn d' hd d'), Dict.get?_set_self]
  · intro x hx
    rw [Dict.get?_set] at hx
    split at hx
    · exact .inr ⟨d, by simp, .inr ‹_›⟩
    · rw [Dict.get?_set] at hx
      split at hx
      · exact .inr ⟨d, by simp, .inl ‹_›⟩
      · rcases I.only x hx with h | ⟨d', hd', h⟩
        · exact .inl h
        · exact .inr ⟨d', by simp [hd'], h⟩

theorem addNative_all {ids : List (Str × List Str)} {defs : List TDef} (H : TypesOk ids defs) : ∀ (ds pre : List TDef) (cm : Dict LeafT),
    NInv ids defs pre cm → (∀ d ∈ pre ++ ds, d ∈ defs) → (pre ++ ds).Nodup →
    (∀ pre' d post, pre ++ ds = pre' ++ d :: post → ∀ a, Mentions d.type.erase a → ∀ d' ∈ defs,
      Names (knownNames ids) d.erase a (d'.pfx ++ ':' :: d'.name) → d' ∈ pre') →
    ∃ cm', ds.foldlM addNative cm = .ok cm' ∧ NInv ids defs (pre ++ ds) cm' := by
  intro ds
  induction ds with
  | nil => intro pre cm I _ _ _; exact ⟨cm, rfl, by simpa using I⟩
  | cons d ds ih =>
    intro pre cm I hsub hnd hord
    have hd : d ∈ defs := hsub d (by simp)
    have hnew : d ∉ pre := by
      intro hm
      rw [List.nodup_append] at hnd
      exact hnd.2.2 d hm d (by simp) rfl
    obtain ⟨cm1, e1, I1⟩ := addNative_step H I (fun x hx => hsub x (by simp [hx])) hd hnew (hord pre d ds rfl)
    have happ : pre ++ d :: ds = (pre ++ [d]) ++ ds := by simp
    rw [happ] at hsub hnd hord
    obtain ⟨cm2, e2, I2⟩ := ih (pre ++ [d]) cm1 I1 hsub hnd hord
    refine ⟨cm2, ?_, happ ▸ I2⟩
    rw [List.foldlM_cons, e1]
    exact e2

theorem back {ids : List (Str × List Str)} {defs : List TDef} (H : TypesOk ids defs) : ∀ order : List TypeDef, (∀ o ∈ order, ∃ d ∈ defs, o = d.erase) →
    ∃ ds : List TDef, order = ds.map TDef.erase ∧ (∀ d ∈ ds, d ∈ defs) ∧ (order.filterMap fun o => defs.find? fun d => d.key == o.key) = ds := by
  intro order
  induction order with
  | nil => intro _; exact ⟨[], rfl, by simp, rfl⟩
  | cons o order ih =>
    intro h
    obtain ⟨ds, e, hs, hf⟩ := ih (fun o' ho' => h o' (by simp [ho']))
    obtain ⟨d, hd, rfl⟩ := h o (by simp)
    have hfind : (defs.find? fun x => x.key == d.erase.key) = some d := by
      cases hx : defs.find? fun x => x.key == d.erase.key with
      | none =>
        rw [List.find?_eq_none] at hx
        exact absurd (beq_iff_eq.2 rfl) (hx d hd)
      | some d' =>
        have hk := List.find?_some hx
        have hm := List.mem_of_find?_eq_some hx
        simp only [beq_iff_eq] at hk
        have hk' : d'.key = d.key := hk
        rw [tdef_name_inj H.names hm hd (key_name (H.colons d' hm) (H.colons d hd) hk')]
    refine ⟨d :: ds, by rw [e]; rfl, ?_, ?_⟩
    · intro x hx
      rcases List.mem_cons.1 hx with rfl | hx
      · exact hd
      · exact hs x hx
    · rw [List.filterMap_cons, hfind]
      simp only [hf]

/-- All typedefs are built. -/
theorem build_types {ids : List (Str × List Str)} {defs : List TDef} (H : TypesOk ids defs) :
    ∃ N cm, (∀ fuel, N ≤ fuel → buildTypes fuel (classMap ids) defs = some (.ok cm)) ∧ NInv ids defs defs cm := by
  have grounded := fun d (hd : d ∈ defs) => (H.meaning d hd).elim fun y hy => typeIs_grounded H.ids.1 H.ids.2.1 hy
  have hok : NamesOk (knownNames ids) (defs.map TDef.erase) := by
    intro o ho a ha
    obtain ⟨d, hd, rfl⟩ := List.mem_map.1 ho
    obtain ⟨k, hk, _⟩ := grounded d hd a ha
    exact ⟨k, hk⟩
  have hg : ∀ o ∈ defs.map TDef.erase, ∀ k, Needs (knownNames ids) o k → TGrounded (knownNames ids) (defs.map TDef.erase) k := by
    rintro o ho k ⟨a, ha, hk⟩
    obtain ⟨d, hd, rfl⟩ := List.mem_map.1 ho
    obtain ⟨k', hk', hgr⟩ := grounded d hd a ha
    rw [names_unique hk hk']
    exact hgr
  have hflat : ∀ o ∈ defs.map TDef.erase, ¬ NestedUnion o.type := by
    intro o ho
    obtain ⟨d, hd, rfl⟩ := List.mem_map.1 ho
    exact H.flat d hd
  obtain ⟨N, order, h1, h2, h3⟩ := C60_order_partial (knownNames ids) (defs.map TDef.erase) hflat hok hg (by simpa using H.length)
  obtain ⟨ds, e, hsub, hf⟩ := back H order (fun o ho => (List.mem_map.1 (h2.mem_iff.1 ho)).elim fun d hd => ⟨d, hd.1, hd.2.symm⟩)
  have hnames : (ds.map (·.name)).Nodup := by
    have hp : (order.map (·.name)).Perm ((defs.map TDef.erase).map (·.name)) := h2.map _
    rw [e, List.map_map, List.map_map] at hp
    exact hp.nodup_iff.2 H.names
  have I₀ : NInv ids defs [] (classMap ids) := ⟨fun _ _ h => h, by simp, fun x h => .inl h⟩
  obtain ⟨cm, e1, I⟩ := addNative_all H ds [] (classMap ids) I₀ (by simpa using hsub) (by simpa using nodup_of_map _ hnames) (by
    intro pre' d post hsp a ha d' hd' hn
    have hsp' : order = pre'.map TDef.erase ++ d.erase :: post.map TDef.erase := by
      rw [e, show ds = pre' ++ d :: post by simpa using hsp]
      simp
    rcases h3 _ _ _ hsp' _ ⟨a, ha, hn⟩ with h | ⟨o, ho, h⟩
    · exact absurd h (H.fresh d' hd').2
    · obtain ⟨d'', hd'', rfl⟩ := List.mem_map.1 ho
      have hm : d'' ∈ defs := hsub d'' (by
        have : d'' ∈ pre' ++ d :: post := List.mem_append_left _ hd''
        rw [← hsp] at this
        simpa using this)
      rw [tdef_name_inj H.names hd' hm (key_name (H.colons d' hd') (H.colons d'' hm) h)]
      exact hd'')
  refine ⟨N, cm, fun fuel hfuel => ?_, I.old, fun d hd => I.new d ?_, fun x hx => ?_⟩
  · have h1' : typedefOrder ((classMap ids).map (·.1) ++ extraTypes) fuel (defs.map TDef.erase) = some (.ok order) := h1 fuel hfuel
    simp only [buildTypes, h1', hf, e1]
  · have : d.erase ∈ order := h2.mem_iff.2 (List.mem_map_of_mem hd)
    rw [e] at this
    obtain ⟨d', hd', he⟩ := List.mem_map.1 this
    have hn : d'.name = d.name := congrArg TypeDef.name he
    rw [← tdef_name_inj H.names (hsub d' hd') hd hn]
    simpa using hd'
  · rcases I.only x hx with h | ⟨d, hd, h⟩
    · exact .inl h
    · exact .inr ⟨d, hsub d (by simpa using hd), h⟩

end Pyb
