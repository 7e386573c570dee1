import Verif.Lemmas.TypeBuild
import Verif.Props.Scalar

/-! # C96: a leaf takes the values of its YANG type, whatever typedefs it goes through -/

namespace Pyb
open Py Spec

/-- The generator, given the identities and typedefs, gets to the map of types `cm`. -/
def Built (ids : List (Str × List Str)) (defs : List TDef) (cm : Dict LeafT) : Prop :=
  ∃ N, ∀ fuel, N ≤ fuel → buildTypes fuel (classMap ids) defs = some (.ok cm)

/-- The type statement `t` is written in the scope `s`, means `y`, and no union is written
directly inside another. -/
structure TypeAt (ids : List (Str × List Str)) (defs : List TDef) (s : TDef) (t : TypeT) (y : YType) : Prop where
  scope : OwnPrefixes s
  means : TypeIs (knownNames ids) ids defs s t y
  flat : ¬ NestedUnion t.erase

theorem built_native {ids : List (Str × List Str)} {defs : List TDef} {cm : Dict LeafT} (H : TypesOk ids defs) (hb : Built ids defs cm)
    {s : TDef} {t : TypeT} {y : YType} (hw : TypeAt ids defs s t y) : buildNative cm t = .ok y.native := by
  obtain ⟨N, cm', h1, I⟩ := build_types H
  obtain ⟨N', h2⟩ := hb
  have e := (h1 (max N N') (Nat.le_max_left _ _)).symm.trans (h2 (max N N') (Nat.le_max_right _ _))
  simp only [Option.some.injEq, Except.ok.injEq] at e
  subst e
  exact build_native H I hw.scope hw.means hw.flat (fun _ _ d hd _ => hd)

theorem assign_restr (rx : Str → Str → Bool) (T : RTy) (v : PyVal) : (LeafT.one (.restr T)).assign rx v = setLeaf rx T v := by
  simp only [LeafT.assign, LeafTy.dyn, setLeaf]
  rfl

/-- **C96, part.**  When every typedef has a meaning, the generator builds all of them, in
whatever order the definitions come.  Excluded: typedefs of one name in two modules, unions
written inside unions and foreign prefixes (see the refutations), more than 1001 typedefs. -/
theorem C96_built_partial (ids : List (Str × List Str)) (defs : List TDef) (H : TypesOk ids defs) : ∃ cm, Built ids defs cm := by
  obtain ⟨N, cm, h, _⟩ := build_types H
  exact ⟨cm, N, h⟩

/-- **C96, part: integers.**  A leaf whose type comes down to the integer type `it`, through
any number of typedefs, with the ranges `rs` on the way (outermost first): a value denoting
`n` is taken iff `n` is in all the ranges and in the built-in type.  Missing: values that
only a range (or built-in bound) below the second restriction excludes, see
`C96_deep_refuted`; with at most one `range` this excludes nothing. -/
theorem C96_integer_partial (rx : Str → Str → Bool) (ids : List (Str × List Str)) (defs : List TDef) (H : TypesOk ids defs) (cm : Dict LeafT)
    (hb : Built ids defs cm) (s : TDef) (t : TypeT) (it : IntTy) (rs : List (List WrittenPart)) (hw : TypeAt ids defs s t (.int it rs))
    (lo hi : Int) (hbounds : builtinBounds it.name = some (lo, hi)) (hl : LegalChain (rs ++ [[⟨.span (some lo) (some hi), 0, 0, 0, 0⟩]]))
    (v : PyVal) (n : Int) (hv : Pyb.Denotes v n)
    (hdeep : InType (List.drop 2 (rs ++ [[(⟨.span (some lo) (some hi), 0, 0, 0, 0⟩ : WrittenPart)]])) n) :
    leafAssign rx cm t v = if InType rs n ∧ lo ≤ n ∧ n ≤ hi then .ok (.int n) else .error .valueError := by
  have e := built_native H hb hw
  have hp : (⟨.span (some lo) (some hi), 0, 0, 0, 0⟩ : WrittenPart) = builtinPart it := by
    cases it <;> simp [builtinBounds, IntTy.name] at hbounds <;> obtain ⟨rfl, rfl⟩ := hbounds <;> rfl
  have key := C11_range_chain_partial rx _ hl v n hv hdeep
  have hi' : InType (rs ++ [[⟨.span (some lo) (some hi), 0, 0, 0, 0⟩]]) n ↔ InType rs n ∧ lo ≤ n ∧ n ≤ hi := by
    simp [InType, Allowed, RangePart.Contains, or_imp, forall_and]
  simp only [hi'] at key
  rw [hp] at key
  rw [← key]
  simp only [leafAssign, e, YType.native, YType.leafTy, assign_restr]

/-- **C96, part: strings.**  A leaf whose type comes down to `string` with the restrictions
`outer ++ [l]` on the way, outermost first: a string is taken iff all of them allow it.
Missing: several patterns in one statement, pattern and length together above the innermost
one, see C11. -/
theorem C96_string_partial (rx : Str → Str → Bool) (ids : List (Str × List Str)) (defs : List TDef) (H : TypesOk ids defs) (cm : Dict LeafT)
    (hb : Built ids defs cm) (s : TDef) (t : TypeT) (outer : List StrLayer) (l : StrLayer) (hw : TypeAt ids defs s t (.string (outer ++ [l])))
    (hl : ∀ x ∈ outer ++ [l], LegalLayer x) (hone : ∀ x ∈ outer, x.AtMostOne) (hp : l.SinglePattern) (w : Str) (hs : w.length < 2 ^ 53) :
    leafAssign rx cm t (.str w) = .ok (.str w) ↔ ∀ x ∈ outer ++ [l], x.Allows (fun p s => patTest rx p s = true) w := by
  have e := built_native H hb hw
  rw [← C11_string_chain_partial rx outer l hl hone hp w hs]
  simp only [leafAssign, e, YType.native, YType.leafTy, assign_restr]

/-- **C96: enumerations and identityrefs.**  Exactly the names are taken. -/
theorem C96_enumeration (rx : Str → Str → Bool) (ids : List (Str × List Str)) (defs : List TDef) (H : TypesOk ids defs) (cm : Dict LeafT)
    (hb : Built ids defs cm) (s : TDef) (t : TypeT) (names : List Str) (hw : TypeAt ids defs s t (.enumeration names))
    (hat : ∀ n ∈ names, startsWith n py!"@" = false) (v : PyVal) :
    leafAssign rx cm t v = if v.toStr ∈ names then .ok (.str v.toStr) else .error .valueError := by
  have e := built_native H hb hw
  rw [← C15_members_exact rx names hat v]
  simp only [leafAssign, e, YType.native, YType.leafTy, assign_restr]

/-- **C96: booleans.** -/
theorem C96_boolean (rx : Str → Str → Bool) (ids : List (Str × List Str)) (defs : List TDef) (H : TypesOk ids defs) (cm : Dict LeafT)
    (hb : Built ids defs cm) (s : TDef) (t : TypeT) (hw : TypeAt ids defs s t .boolean) (v : PyVal) :
    (leafAssign rx cm t v = .ok (.bool false) ↔
      v = .str py!"false" ∨ v = .str py!"False" ∨ v = .bool false ∨ IsInt v 0 ∨ v = .str py!"0") ∧
    (leafAssign rx cm t v = .ok (.bool true) ↔
      v = .str py!"true" ∨ v = .str py!"True" ∨ v = .bool true ∨ IsInt v 1 ∨ v = .str py!"1") ∧
    (leafAssign rx cm t v = .ok (.bool false) ∨ leafAssign rx cm t v = .ok (.bool true) ∨ leafAssign rx cm t v = .error .valueError) := by
  have e := built_native H hb hw
  have key := C16_boolean_exact v
  have hs : leafAssign rx cm t v = (setBool v).map .bool := by
    simp only [leafAssign, e, YType.native, YType.leafTy, LeafT.assign, LeafTy.dyn, setBool]
    cases h : yangBool v with
    | ok b => rfl
    | error x => cases x <;> rfl
  have hm : ∀ b : Bool, leafAssign rx cm t v = .ok (.bool b) ↔ setBool v = .ok b := by
    intro b
    rw [hs]
    cases setBool v with
    | ok c => simp [Except.map]
    | error x => simp [Except.map]
  have he : leafAssign rx cm t v = .error .valueError ↔ setBool v = .error .valueError := by
    rw [hs]
    cases setBool v with
    | ok c => simp [Except.map]
    | error x => simp [Except.map]
  rw [hm, hm, he]
  exact key

/-- **C96: typedefs are transparent.**  Two type statements that mean the same, in whatever
scopes and through whatever typedefs, behave the same for every value.  (For a union: like
the union of its members' types written out in order, for which C20 says what is taken.) -/
theorem C96_transparent (rx : Str → Str → Bool) (ids : List (Str × List Str)) (defs : List TDef) (H : TypesOk ids defs) (cm : Dict LeafT)
    (hb : Built ids defs cm) (s s' : TDef) (t t' : TypeT) (y : YType) (hw : TypeAt ids defs s t y) (hw' : TypeAt ids defs s' t' y) (v : PyVal) :
    leafAssign rx cm t v = leafAssign rx cm t' v := by
  simp only [leafAssign, built_native H hb hw, built_native H hb hw']

/-- **C96: unions of other types.**  A leaf whose type comes down to a union takes what the
first member takes that takes the value. -/
theorem C96_union (rx : Str → Str → Bool) (ids : List (Str × List Str)) (defs : List TDef) (H : TypesOk ids defs) (cm : Dict LeafT)
    (hb : Built ids defs cm) (s : TDef) (t : TypeT) (ys : List YType) (hw : TypeAt ids defs s t (.union ys)) (v : PyVal) :
    (∃ pre y post x, ys = pre ++ y :: post ∧ (∀ u ∈ pre, ∃ e, u.leafTy.call rx v = .error e) ∧
      y.leafTy.call rx v = .ok x ∧ leafAssign rx cm t v = .ok x) ∨
    ((∀ u ∈ ys, ∃ e, u.leafTy.call rx v = .error e) ∧ leafAssign rx cm t v = .error .valueError) := by
  have e := built_native H hb hw
  have hs : leafAssign rx cm t v = setUnion rx (ys.map YType.leafTy) v := by
    simp only [leafAssign, e, YType.native, LeafT.assign]
  rw [hs]
  rcases C20_union_first_match rx (ys.map YType.leafTy) v with ⟨pre, T, post, x, h1, h2, h3, h4⟩ | ⟨h1, h2⟩
  · obtain ⟨p, r, hp, hpre, hr⟩ := List.map_eq_append_iff.1 h1
    obtain ⟨y, q, hq, hy, _⟩ := List.map_eq_cons_iff.1 hr
    subst hp hpre hq hy
    exact .inl ⟨p, y, q, x, rfl, fun u hu => h2 _ (List.mem_map_of_mem hu), h3, h4⟩
  · exact .inr ⟨fun u hu => h1 _ (List.mem_map_of_mem hu), h2⟩

/-! ## Examples -/

/-- Module `a` imports `b`, and has `typedef small { type b:percent { range "1..50"; } }` and
`typedef either { type union { type b:colour; type b:percent; } }`; module `b` has `typedef
percent { type uint8 { range "0..100"; } }`, `typedef colour { type union { type kind; type
name; type identityref … } }`, `typedef kind { type enumeration … }`, `typedef name { type string { length
"1..4"; } }`.  Users come first. -/
def exTypes : List TDef :=
  let a := fun n t => { pfx := py!"a", name := n, local_ := py!"a", real := py!"a", imports := [(py!"b", py!"b")], type := t }
  let b := fun n t => { pfx := py!"b", name := n, local_ := py!"b", real := py!"b", imports := [], type := t }
  [a py!"either" (.union [.plain py!"b:colour" [] none none, .plain py!"b:percent" [] none none]),
   a py!"small" (.plain py!"b:percent" [] none (some (rangeText [⟨.span (some 1) (some 50), 0, 0, 0, 0⟩]))),
   b py!"colour" (.union [.plain py!"kind" [] none none, .plain py!"b:name" [] none none, .identityref py!"b:hue"]),
   b py!"percent" (.plain py!"uint8" [] none (some (rangeText [⟨.span (some 0) (some 100), 0, 0, 0, 0⟩]))),
   b py!"kind" (.enumeration [py!"red", py!"green"]),
   b py!"name" (.plain py!"string" [] (some (rangeText [⟨.span (some 1) (some 4), 0, 0, 0, 0⟩])) none)]

/-- An identity `hue` of `b` with one value. -/
def exIds : List (Str × List Str) := [(py!"b:hue", [py!"light-blue"]), (py!"hue", [py!"light-blue"])]

/-- A leaf of module `a`. -/
def exScope : TDef := { pfx := [], name := [], local_ := py!"a", real := py!"a", imports := [(py!"b", py!"b")], type := .leafref }

theorem exTypes_small : TypeIs (knownNames exIds) exIds exTypes exTypes[1] exTypes[1].type
    (.int .uint8 [[⟨.span (some 1) (some 50), 0, 0, 0, 0⟩], [⟨.span (some 0) (some 100), 0, 0, 0, 0⟩]]) :=
  .range _ _ _ _ _ (.typedef _ _ exTypes[3] _ (by simp [exTypes]) (.imported py!"b" py!"percent" py!"b" (by decide) (by decide) (by decide) (by decide) (by decide))
    (.range _ _ _ _ _ (.int _ .uint8)))

theorem exTypes_kind : TypeIs (knownNames exIds) exIds exTypes exTypes[4] exTypes[4].type (.enumeration [py!"red", py!"green"]) := .enumeration _ _

theorem exTypes_name : TypeIs (knownNames exIds) exIds exTypes exTypes[5] exTypes[5].type (.string [⟨[], some [⟨.span (some 1) (some 4), 0, 0, 0, 0⟩]⟩]) :=
  .layer _ _ _ ⟨[], some [⟨.span (some 1) (some 4), 0, 0, 0, 0⟩]⟩ (.string _) (.inr rfl)

theorem exTypes_percent : TypeIs (knownNames exIds) exIds exTypes exTypes[3] exTypes[3].type (.int .uint8 [[⟨.span (some 0) (some 100), 0, 0, 0, 0⟩]]) :=
  .range _ _ _ _ _ (.int _ .uint8)

theorem exTypes_colour : TypeIs (knownNames exIds) exIds exTypes exTypes[2] exTypes[2].type
    (.union [.enumeration [py!"red", py!"green"], .string [⟨[], some [⟨.span (some 1) (some 4), 0, 0, 0, 0⟩]⟩], .enumeration [py!"light-blue"]]) := by
  refine .union _ _ [(_, .enumeration [py!"red", py!"green"]), (_, .string [⟨[], some [⟨.span (some 1) (some 4), 0, 0, 0, 0⟩]⟩]),
    (_, .enumeration [py!"light-blue"])] rfl ?_
  intro p hp
  simp only [List.mem_cons, List.not_mem_nil, or_false] at hp
  rcases hp with rfl | rfl | rfl
  · exact .typedef _ _ exTypes[4] _ (by simp [exTypes]) (.sameModule _ (by decide) (by decide)) exTypes_kind
  · exact .typedef _ _ exTypes[5] _ (by simp [exTypes]) (.own py!"name" (by decide) (by decide)) exTypes_name
  · exact .identityref _ _ _ _ (.own py!"hue" (by decide) (by decide)) (by decide)

theorem exTypes_either : TypeIs (knownNames exIds) exIds exTypes exTypes[0] exTypes[0].type
    (.union [.enumeration [py!"red", py!"green"], .string [⟨[], some [⟨.span (some 1) (some 4), 0, 0, 0, 0⟩]⟩], .enumeration [py!"light-blue"],
      .int .uint8 [[⟨.span (some 0) (some 100), 0, 0, 0, 0⟩]]]) := by
  refine .union _ _ [(_, .union [.enumeration [py!"red", py!"green"], .string [⟨[], some [⟨.span (some 1) (some 4), 0, 0, 0, 0⟩]⟩],
    .enumeration [py!"light-blue"]]), (_, .int .uint8 [[⟨.span (some 0) (some 100), 0, 0, 0, 0⟩]])] rfl ?_
  intro p hp
  simp only [List.mem_cons, List.not_mem_nil, or_false] at hp
  rcases hp with rfl | rfl
  · exact .typedef _ _ exTypes[2] _ (by simp [exTypes]) (.imported py!"b" py!"colour" py!"b" (by decide) (by decide) (by decide) (by decide) (by decide)) exTypes_colour
  · exact .typedef _ _ exTypes[3] _ (by simp [exTypes]) (.imported py!"b" py!"percent" py!"b" (by decide) (by decide) (by decide) (by decide) (by decide)) exTypes_percent

theorem exTypes_forall {P : TDef → Prop} (h0 : P exTypes[0]) (h1 : P exTypes[1]) (h2 : P exTypes[2]) (h3 : P exTypes[3]) (h4 : P exTypes[4])
    (h5 : P exTypes[5]) : ∀ d ∈ exTypes, P d := by
  intro d hd
  simp only [exTypes, List.mem_cons, List.not_mem_nil, or_false] at hd
  rcases hd with rfl | rfl | rfl | rfl | rfl | rfl
  · exact h0
  · exact h1
  · exact h2
  · exact h3
  · exact h4
  · exact h5

theorem exTypes_imports (p r : Str) (h : List.lookup p [(py!"b", py!"b")] = some r) : p = r := by
  rw [List.lookup_cons] at h
  split at h
  · rename_i hp
    simp at hp h
    rw [hp, h]
  · simp at h

theorem exTypes_ok : TypesOk exIds exTypes where
  meaning := exTypes_forall ⟨_, exTypes_either⟩ ⟨_, exTypes_small⟩ ⟨_, exTypes_colour⟩ ⟨_, exTypes_percent⟩ ⟨_, exTypes_kind⟩ ⟨_, exTypes_name⟩
  flat := by apply exTypes_forall <;> simp [exTypes, TypeT.erase, TypeT.eraseAll, NestedUnion]
  prefixes := exTypes_forall ⟨rfl, exTypes_imports, by decide⟩ ⟨rfl, exTypes_imports, by decide⟩ ⟨rfl, nofun, by decide⟩ ⟨rfl, nofun, by decide⟩
    ⟨rfl, nofun, by decide⟩ ⟨rfl, nofun, by decide⟩
  colons := by decide
  names := by decide
  fresh := by decide
  ids := by
    refine ⟨by decide, by decide, ?_⟩
    intro p n h
    simp only [exIds, List.map_cons, List.map_nil, List.mem_cons, List.not_mem_nil, or_false] at h
    rcases h with h | h
    · rcases p with _ | ⟨c, p⟩
      · simp at h
      · rcases p with _ | ⟨c', p⟩
        · simp at h
          simp [exIds, h.2]
        · simp at h
          rcases p with _ | ⟨_, _ | ⟨_, _ | ⟨_, _ | ⟨_, _⟩⟩⟩⟩ <;> simp at h
    · have : ':' ∈ py!"hue" := h ▸ (by simp)
      exact absurd this (by decide)
  length := by decide

/-- A leaf of `a` with `type small { range "10..20"; }`. -/
example : TypeAt exIds exTypes exScope (.plain py!"a:small" [] none (some (rangeText [⟨.span (some 10) (some 20), 0, 0, 0, 0⟩])))
    (.int .uint8 [[⟨.span (some 10) (some 20), 0, 0, 0, 0⟩], [⟨.span (some 1) (some 50), 0, 0, 0, 0⟩], [⟨.span (some 0) (some 100), 0, 0, 0, 0⟩]]) where
  scope := ⟨rfl, exTypes_imports, by decide⟩
  means := .range _ _ _ _ _ (.typedef _ _ exTypes[1] _ (by simp [exTypes]) (.own py!"small" (by decide) (by decide)) exTypes_small)
  flat := by simp [TypeT.erase, NestedUnion]

/-- `type small`: 30 is taken, 60 is not, and nothing silently changes. -/
example (cm : Dict LeafT) (hb : Built exIds exTypes cm) :
    leafAssign (fun _ _ => true) cm (.plain py!"small" [] none none) (.int 30) = .ok (.int 30) ∧
    leafAssign (fun _ _ => true) cm (.plain py!"small" [] none none) (.int 60) = .error .valueError := by
  have hw : TypeAt exIds exTypes exScope (.plain py!"small" [] none none)
      (.int .uint8 [[⟨.span (some 1) (some 50), 0, 0, 0, 0⟩], [⟨.span (some 0) (some 100), 0, 0, 0, 0⟩]]) :=
    { scope := ⟨rfl, exTypes_imports, by decide⟩
      means := .typedef _ _ exTypes[1] _ (by simp [exTypes]) (.sameModule _ (by decide) (by decide)) exTypes_small
      flat := by simp [TypeT.erase, NestedUnion] }
  have hl : LegalChain ([[⟨.span (some 1) (some 50), 0, 0, 0, 0⟩], [⟨.span (some 0) (some 100), 0, 0, 0, 0⟩]] ++
      [[⟨.span (some 0) (some (2 ^ 8 - 1)), 0, 0, 0, 0⟩]]) := by
    refine ⟨by simp, ?_, by simp, by simp, ?_, by simp, by simp, ?_, by simp, trivial⟩ <;>
      simp [RangePart.bounds, InType, Allowed, RangePart.Contains]
  constructor
  · rw [C96_integer_partial (fun _ _ => true) exIds exTypes exTypes_ok cm hb exScope _ .uint8 _ hw 0 (2 ^ 8 - 1) rfl hl (.int 30) 30 (.inl rfl)
      (by simp [InType, Allowed, RangePart.Contains]), if_pos]
    simp [InType, Allowed, RangePart.Contains]
  · rw [C96_integer_partial (fun _ _ => true) exIds exTypes exTypes_ok cm hb exScope _ .uint8 _ hw 0 (2 ^ 8 - 1) rfl hl (.int 60) 60 (.inl rfl)
      (by simp [InType, Allowed, RangePart.Contains]), if_neg]
    simp [InType, Allowed, RangePart.Contains]

/-! ## Where it fails -/

/-- What the generator computes for definitions, the typedef list and a leaf, as one
function of the input: for refutations. -/
def exRun (rx : Str → Str → Bool) (ids : List (Str × List Str)) (defs : List TDef) (t : TypeT) (v : PyVal) : Option (Except Err PyVal) :=
  match buildTypes 100 (classMap ids) defs with
  | some (.ok cm) => some (leafAssign rx cm t v)
  | some (.error e) => some (.error e)
  | none => none

/-- C96 is false for three ranges: `leaf x { type small; }`, assigned 300, is 0. -/
theorem C96_deep_refuted : exRun (fun _ _ => true) exIds exTypes (.plain py!"small" [] none none) (.int 300) = some (.ok (.int 0)) := by decide

/-- C96 is false for typedefs of one name in two modules: in module `a`, `type level` is the
string of `b`, if `b` comes last. -/
theorem C96_same_name_refuted :
    exRun (fun _ _ => true) []
      [{ pfx := py!"a", name := py!"level", local_ := py!"a", real := py!"a", imports := [], type := .plain py!"uint8" [] none none },
       { pfx := py!"b", name := py!"level", local_ := py!"b", real := py!"b", imports := [], type := .plain py!"string" [] none none }]
      (.plain py!"level" [] none none) (.str py!"high") = some (.ok (.str py!"high")) := by decide

/-- C96 is false for unions written inside unions: `leaf x { type union { type union {
type uint8; } type string; } }` ends with a `TypeError`. -/
theorem C96_nested_union_refuted :
    exRun (fun _ _ => true) [] [] (.union [.union [.plain py!"uint8" [] none none], .plain py!"string" [] none none]) (.str py!"x") =
      some (.error .typeError) := by decide

/-- C96 is false when a module imports another under a prefix of its own: `import b { prefix
x; } leaf l { type x:level; }`, where `b` calls itself `b`, ends the program. -/
theorem C96_prefix_refuted :
    exRun (fun _ _ => true) [] [{ pfx := py!"b", name := py!"level", local_ := py!"b", real := py!"b", imports := [], type := .plain py!"uint8" [] none none }]
      (.plain py!"x:level" [] none none) (.int 5) = some (.error .runtimeError) := by decide

end Pyb
