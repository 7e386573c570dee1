import Verif.Lemmas.TChain

/-! # Typedefs: C60, C61, C66, C67 -/

namespace Pyb
open Py Spec

/-- Module `a` imports `b`: `typedef outer { type b:mid { length 1..4; } }`, `typedef
pick { type union { type outer; type string; } }`.  Module `b`: `typedef mid { type low;
default x; }`, `typedef low { type string; }`.  Definitions come users first. -/
def exTd : List TypeDef :=
  let a := fun n t d => { pfx := py!"a", name := n, local_ := py!"a", real := py!"a", imports := [(py!"b", py!"b")], type := t, default := d }
  let b := fun n t d => { pfx := py!"b", name := n, local_ := py!"b", real := py!"b", imports := [], type := t, default := d }
  [a py!"pick" (.union [.plain py!"outer" false, .plain py!"string" false]) none,
   a py!"outer" (.plain py!"b:mid" true) none, b py!"mid" (.plain py!"low" false) (some py!"x"), b py!"low" (.plain py!"string" false) none]

def exBase : List Str := [py!"string", py!"int32"]

theorem exTd_flat : ∀ d ∈ exTd, ¬ NestedUnion d.type := by
  intro d hd
  simp only [exTd, List.mem_cons, List.not_mem_nil, or_false] at hd
  rcases hd with rfl | rfl | rfl | rfl <;> simp [NestedUnion]

/-- What the types of the example name. -/
theorem exTd_mentions : ∀ d ∈ exTd, ∀ a, Mentions d.type a → a ∈ d.type.subtypes := fun d hd a h =>
  (mem_subtypes (exTd_flat d hd) a).2 h

theorem exTd_names : NamesOk exBase exTd := by
  intro d hd a ha
  have := exTd_mentions d hd a ha
  simp only [exTd, List.mem_cons, List.not_mem_nil, or_false] at hd
  rcases hd with rfl | rfl | rfl | rfl <;> simp [TypeS.subtypes, TypeS.memberArg] at this
  · rcases this with rfl | rfl
    · exact ⟨_, .sameModule _ (by decide) (by decide)⟩
    · exact ⟨_, .known _ (by decide) (by decide)⟩
  · subst this
    exact ⟨_, .imported py!"b" py!"mid" py!"b" (by decide) (by decide) (by decide) (by decide) (by decide)⟩
  · subst this
    exact ⟨_, .sameModule _ (by decide) (by decide)⟩
  · subst this
    exact ⟨_, .known _ (by decide) (by decide)⟩

theorem exTd_needs {d : TypeDef} (hd : d ∈ exTd) {k : Str} (h : Needs exBase d k) : ∃ a ∈ d.type.subtypes, typeName exBase d a = .ok k := by
  obtain ⟨a, hm, hn⟩ := h
  exact ⟨a, exTd_mentions d hd a hm, typeName_of_names hn⟩

theorem exTd_grounded : ∀ d ∈ exTd, ∀ k, Needs exBase d k → TGrounded exBase exTd k := by
  have hs : TGrounded exBase exTd py!"string" := .known _ (by decide)
  have hlow : TGrounded exBase exTd py!"b:low" := by
    refine .typedef (exTd.getLast (by decide)) (by simp [exTd]) fun k hk => ?_
    obtain ⟨a, ha, hn⟩ := exTd_needs (by simp [exTd]) hk
    simp [exTd, TypeS.subtypes] at ha
    subst ha
    cases hn
    exact hs
  have hmid : TGrounded exBase exTd py!"b:mid" := by
    refine .typedef exTd[2] (by simp [exTd]) fun k hk => ?_
    obtain ⟨a, ha, hn⟩ := exTd_needs (by simp [exTd]) hk
    simp [exTd, TypeS.subtypes] at ha
    subst ha
    cases hn
    exact hlow
  have hout : TGrounded exBase exTd py!"a:outer" := by
    refine .typedef exTd[1] (by simp [exTd]) fun k hk => ?_
    obtain ⟨a, ha, hn⟩ := exTd_needs (by simp [exTd]) hk
    simp [exTd, TypeS.subtypes] at ha
    subst ha
    cases hn
    exact hmid
  intro d hd k hk
  obtain ⟨a, ha, hn⟩ := exTd_needs hd hk
  simp only [exTd, List.mem_cons, List.not_mem_nil, or_false] at hd
  rcases hd with rfl | rfl | rfl | rfl <;> simp [TypeS.subtypes, TypeS.memberArg] at ha
  · rcases ha with rfl | rfl <;> cases hn
    · exact hout
    · exact hs
  · subst ha; cases hn; exact hmid
  · subst ha; cases hn; exact hlow
  · subst ha; cases hn; exact hs

/-! ## C60 -/

/-- **C60, part.**  For at most 1001 typedefs, in every order of the definitions, when
every type used comes down to known ones, the typedefs are all built, each once and after
the types it needs.  A union written inside a union is excluded, see
`C60_nested_union_refuted`; for the limit see `C60_chain_refuted`. -/
theorem C60_order_partial (base : List Str) (defs : List TypeDef) (hn : ∀ d ∈ defs, ¬ NestedUnion d.type) (hok : NamesOk base defs)
    (hg : ∀ d ∈ defs, ∀ k, Needs base d k → TGrounded base defs k) (hlen : defs.length ≤ 1001) :
    ∃ N order, (∀ fuel, N ≤ fuel → typedefOrder base fuel defs = some (.ok order)) ∧ order.Perm defs ∧
      ∀ pre d post, order = pre ++ d :: post → ∀ k, Needs base d k → k ∈ base ∨ ∃ d' ∈ pre, k = d'.pfx ++ ':' :: d'.name := by
  by_cases hne : defs = []
  · subst hne
    refine ⟨0, [], fun f _ => by simp [typedefOrder, tdLoop], .refl _, ?_⟩
    intro pre d post h
    simp at h
  · have hready : ∃ d ∈ defs, Ready base (base ++ ([] : List TypeDef).map TypeDef.key) d := by
      obtain ⟨d, hd⟩ := List.exists_mem_of_ne_nil _ hne
      by_cases hr : Ready base (base ++ ([] : List TypeDef).map TypeDef.key) d
      · exact ⟨d, hd, hr⟩
      · simp only [Ready, Classical.not_forall] at hr
        obtain ⟨k, hk, hr⟩ := hr
        exact exists_readyT (q := defs) (order := []) (fun d hd => .inr hd) (hg d hd k hk) hr
    obtain ⟨d, hd, hr⟩ := hready
    obtain ⟨f, order, h1, h2, h3⟩ := tdLoop_ok hn hok hg hlen (defs.map fun d => (d, 0)).length (defs.map fun d => (d, 0)) [] 0 []
      (by simp) (by simp) (by simp) (by simp [Function.comp_def]) (by simp)
      (.inr ⟨(d, 0), by simpa using hd, hr⟩) (by intro pre e post h; simp at h)
    refine ⟨f, order, fun g hg => ?_, h2, ?_⟩
    · have := tdLoop_mono base f _ _ _ _ _ h1 g hg
      simpa [typedefOrder] using this
    · intro pre d post heq k hk
      have := h3 pre d post heq k hk
      rcases List.mem_append.1 this with h | h
      · exact .inl h
      · obtain ⟨d', hd', he⟩ := List.mem_map.1 h
        exact .inr ⟨d', hd', he.symm⟩

example : ∃ N order, (∀ fuel, N ≤ fuel → typedefOrder exBase fuel exTd = some (.ok order)) ∧ order.Perm exTd ∧
      ∀ pre d post, order = pre ++ d :: post → ∀ k, Needs exBase d k → k ∈ exBase ∨ ∃ d' ∈ pre, k = d'.pfx ++ ':' :: d'.name :=
  C60_order_partial exBase exTd exTd_flat exTd_names exTd_grounded (by decide)

example : (typedefOrder exBase 20 exTd).map (Except.map (List.map TypeDef.key)) =
    some (.ok [py!"b:low", py!"b:mid", py!"a:outer", py!"a:pick"]) := by decide

/-- **C60.**  When some type used does not come down to known ones (it is missing, or the
definitions go round in a circle) the whole set is refused, and the work ends. -/
theorem C60_unresolved (base : List Str) (defs : List TypeDef) (hn : ∀ d ∈ defs, ¬ NestedUnion d.type) (hok : NamesOk base defs)
    (d : TypeDef) (hd : d ∈ defs) (k : Str) (hk : Needs base d k) (hg : ¬ TGrounded base defs k) :
    ∃ N, ∀ fuel, N ≤ fuel → typedefOrder base fuel defs = some (.error .typeError) := by
  obtain ⟨f, h⟩ := tdLoop_error hn hok _ (defs.map fun d => (d, 0)) [] [] rfl (by
      intro x hx
      obtain ⟨e, he, rfl⟩ := List.mem_map.1 hx
      exact ⟨by simp, he⟩) (by simpa using fun k hk => TGrounded.known k hk)
    (.inr ⟨(d, 0), List.mem_map.2 ⟨d, hd, rfl⟩, k, hk, hg⟩)
  refine ⟨f, fun g hg => ?_⟩
  have := tdLoop_mono base f _ _ _ _ _ h g hg
  simpa [typedefOrder] using this

/-- `typedef p { type q; }`, `typedef q { type p; }`. -/
def exLoop : List TypeDef :=
  let a := fun n t => { pfx := py!"a", name := n, local_ := py!"a", real := py!"a", imports := [], type := .plain t false, default := none }
  [a py!"p" py!"q", a py!"q" py!"p"]

example : ∃ N, ∀ fuel, N ≤ fuel → typedefOrder exBase fuel exLoop = some (.error .typeError) := by
  have hflat : ∀ d ∈ exLoop, ¬ NestedUnion d.type := by
    intro d hd
    simp only [exLoop, List.mem_cons, List.not_mem_nil, or_false] at hd
    rcases hd with rfl | rfl <;> simp [NestedUnion]
  have hnm : ∀ d ∈ exLoop, ∀ a, Mentions d.type a → Names exBase d a (py!"a:" ++ a) := by
    intro d hd a ha
    have := (mem_subtypes (hflat d hd) a).2 ha
    simp only [exLoop, List.mem_cons, List.not_mem_nil, or_false] at hd
    rcases hd with rfl | rfl <;> simp [TypeS.subtypes] at this <;> subst this <;> exact .sameModule _ (by decide) (by decide)
  have hno : ∀ k, TGrounded exBase exLoop k → k ∈ exBase := by
    intro k hk
    induction hk with
    | known _ h => exact h
    | typedef d hd h ih =>
      simp only [exLoop, List.mem_cons, List.not_mem_nil, or_false] at hd
      rcases hd with rfl | rfl
      · exact absurd (ih py!"a:q" ⟨py!"q", .plain _ _, .sameModule py!"q" (by decide) (by decide)⟩) (by decide)
      · exact absurd (ih py!"a:p" ⟨py!"p", .plain _ _, .sameModule py!"p" (by decide) (by decide)⟩) (by decide)
  refine C60_unresolved exBase exLoop hflat (fun d hd a ha => ⟨_, hnm d hd a ha⟩) exLoop[0] (by simp [exLoop]) py!"a:q"
    ⟨py!"q", .plain _ _, .sameModule py!"q" (by decide) (by decide)⟩ fun h => absurd (hno _ h) (by decide)

/-- **C60, refuted in general.**  A chain of 1002 or more typedefs, given in the order last
to first, comes down to `string` but is refused: the counter of retries runs out. -/
theorem C60_chain_refuted (n : Nat) (hn : 1002 ≤ n) :
    (∀ d ∈ chainDesc 0 n, ∀ k, Needs [py!"string"] d k → TGrounded [py!"string"] (chainDesc 0 n) k) ∧
    ∃ fuel, typedefOrder [py!"string"] fuel (chainDesc 0 n) = some (.error .typeError) := by
  constructor
  · intro d hd k hk
    obtain ⟨i, _, hi, rfl⟩ := mem_chainDesc.1 hd
    rcases chain_needs hk with rfl | ⟨j, hj, rfl⟩
    · exact .known _ (by simp)
    · exact chain_grounded n j (by omega)
  · obtain ⟨m, rfl⟩ : ∃ m, n = m + 2 + 1000 := ⟨n - 1002, by omega⟩
    exact chain_fails m

/-- The union of the next theorem. -/
def exNested : TypeDef :=
  { pfx := py!"a", name := py!"u", local_ := py!"a", real := py!"a", imports := [],
    type := .union [.plain py!"string" false, .union [.plain py!"int32" false]], default := none }

/-- **C60, refuted in general.**  A typedef of a union with a union written inside it is
refused although all its types are known: `union` itself is looked up as a type. -/
theorem C60_nested_union_refuted :
    (∀ k, Needs exBase exNested k → k ∈ exBase) ∧
    ∃ fuel, typedefOrder exBase fuel [exNested] = some (.error .typeError) := by
  constructor
  · rintro k ⟨a, hm, hn⟩
    have ha : a ∈ exBase := by
      have hm' : Mentions (.union [.plain py!"string" false, .union [.plain py!"int32" false]]) a := hm
      cases hm' with
      | member _ t _ ht hm =>
        simp at ht
        rcases ht with rfl | rfl
        · cases hm; decide
        · cases hm with
          | member _ t _ ht hm =>
            simp at ht
            subst ht
            cases hm; decide
    cases hn with
    | known => exact ha
    | sameModule _ _ h => exact absurd ha h
    | own n => simp [exBase, exNested] at ha
    | imported p n r _ _ _ _ hl => simp [exNested] at hl
  · have step : ∀ c, c ≤ 1000 → ∃ fuel, tdLoop exBase fuel [(exNested, 1000 - c)] exBase [] [] = some (.error .typeError) := by
      intro c
      have hu : anyUnknown exBase exBase exNested exNested.type.subtypes = .ok true := by decide
      induction c with
      | zero => intro _; exact ⟨1, by simp only [tdLoop, hu]; rfl⟩
      | succ c ih =>
        intro hc
        obtain ⟨f, hf⟩ := ih (by omega)
        refine ⟨f + 1, ?_⟩
        have h1 : ¬ (1000 - (c + 1) + 1 > 1000) := by omega
        have h2 : 1000 - (c + 1) + 1 = 1000 - c := by omega
        simp only [tdLoop, hu, h1, if_false, List.nil_append]
        rw [h2]
        exact hf
    exact step 1000 (Nat.le_refl _)

/-! ### Building the classes -/

/-- `class_map` before the typedefs, for the examples. -/
def exCm : Dict TEntry := [(py!"string", ⟨true, none, none⟩), (py!"int32", ⟨true, none, none⟩), (py!"boolean", ⟨true, none, none⟩),
  (py!"yang:date", ⟨false, some py!"string", none⟩)]

/-- Module `a` imports `b` with the prefix `q`, `b` is `b`'s own prefix. -/
def exPrefix : List TypeDef :=
  [{ pfx := py!"b", name := py!"n", local_ := py!"b", real := py!"b", imports := [], type := .plain py!"string" false, default := none },
   { pfx := py!"a", name := py!"t", local_ := py!"a", real := py!"a", imports := [(py!"q", py!"b")], type := .plain py!"q:n" false, default := none }]

/-- **C60, refuted in general.**  An import prefix that is not the imported module's own
prefix is understood when the order is found, but not when the class is built: the name
is looked up as it is written, and the program ends. -/
theorem C60_prefix_refuted :
    Needs (exCm.map (·.1)) exPrefix[1] py!"b:n" ∧
    (∃ fuel order, typedefOrder (exCm.map (·.1)) fuel exPrefix = some (.ok order) ∧ addTypedefs exCm order = .error .runtimeError) := by
  refine ⟨⟨py!"q:n", .plain _ _, .imported py!"q" py!"n" py!"b" (by decide) (by decide) (by decide) (by decide) (by decide)⟩, 2, exPrefix, rfl, ?_⟩
  have : (addTypedefs exCm exPrefix).map (fun _ => ()) = .error .runtimeError := by decide
  cases h : addTypedefs exCm exPrefix with
  | ok _ => rw [h] at this; cases this
  | error e => rw [h] at this; cases this; rfl

/-- The modules call each other by their own prefixes, and a type known with a prefix is
known without it too. -/
structure PrefixesOk (base : List Str) (defs : List TypeDef) : Prop where
  own : ∀ d ∈ defs, d.local_ = d.real
  imports : ∀ d ∈ defs, ∀ p r, d.imports.lookup p = some r → p = r
  base : ∀ p n, p ++ ':' :: n ∈ base → n ∈ base ∨ ∀ d ∈ defs, d.real ≠ p

theorem avail_of_order {cm₀ : Dict TEntry} {defs : List TypeDef} (hp : PrefixesOk (cm₀.map (·.1)) defs)
    (hpl : ∀ d ∈ defs, ∃ b r, d.type = .plain b r) (hc : ∀ d ∈ defs, ':' ∉ d.pfx ∧ ':' ∉ d.name ∧ ':' ∉ d.real)
    (hok : NamesOk (cm₀.map (·.1)) defs) {order : List TypeDef} (hsub : ∀ d ∈ order, d ∈ defs)
    (ho : ∀ pre d post, order = pre ++ d :: post → ∀ k, Needs (cm₀.map (·.1)) d k →
      k ∈ cm₀.map (·.1) ∨ ∃ d' ∈ pre, k = d'.pfx ++ ':' :: d'.name) :
    ∀ pre d post, order = pre ++ d :: post → Avail cm₀ pre d.type := by
  intro pre d post heq
  have hd : d ∈ defs := hsub d (by simp [heq])
  obtain ⟨b, r, hty⟩ := hpl d hd
  have hm : Mentions d.type b := hty ▸ .plain b r
  obtain ⟨k, hk⟩ := hok d hd b hm
  have hor := ho pre d post heq k ⟨b, hm, hk⟩
  have get : ∀ x, x ∈ cm₀.map (·.1) → ∃ e, cm₀.get? x = some e := by
    intro x hx
    rw [← Dict.has_iff] at hx
    exact Option.isSome_iff_exists.1 hx
  refine ⟨b, r, hty, ?_⟩
  have exact_ : k = b → _ := fun (e : k = b) => show (∃ e, cm₀.get? b = some e) ∨ ∃ d ∈ pre, Denotes d b from by
    rcases hor with h | ⟨d', hd', h⟩
    · exact .inl (get b (e ▸ h))
    · exact .inr ⟨d', hd', .inl (e ▸ h)⟩
  cases hk with
  | known _ h1 h2 => exact .inl (get b h2)
  | sameModule _ h1 h2 =>
    rcases hor with h | ⟨d', hd', h⟩
    · rcases hp.base _ _ h with h | h
      · exact absurd h h2
      · exact absurd rfl (h d hd)
    · refine .inr ⟨d', hd', .inr ?_⟩
      have hd'' := hc d' (hsub d' (by simp [heq, hd']))
      have e := congrArg (splitOn ':') h
      rw [splitOn_qual (hc d hd).2.2 h1, splitOn_qual hd''.1 hd''.2.1] at e
      simpa using (List.cons.inj e).2
  | own n h1 h2 => exact exact_ (by rw [hp.own d hd])
  | imported p n r' h1 h2 h3 h4 h5 => exact exact_ (by rw [hp.imports d hd p r' h5])

/-- What is assumed of the typedefs below: types are plain (no unions and identityrefs),
prefixes and names are as `PrefixesOk` says, no typedef has the name of a type that
exists, no two have the same key, and two with the same bare name (in different modules)
are alike. -/
structure TypedefsOk (cm₀ : Dict TEntry) (defs : List TypeDef) : Prop where
  plain : ∀ d ∈ defs, ∃ b r, d.type = .plain b r
  prefixes : PrefixesOk (cm₀.map (·.1)) defs
  colons : ∀ d ∈ defs, ':' ∉ d.pfx ∧ ':' ∉ d.name ∧ ':' ∉ d.real
  names : NamesOk (cm₀.map (·.1)) defs
  grounded : ∀ d ∈ defs, ∀ k, Needs (cm₀.map (·.1)) d k → TGrounded (cm₀.map (·.1)) defs k
  fresh : ∀ d ∈ defs, ∀ x, Denotes d x → cm₀.get? x = none
  keys : (defs.map fun d => (d.pfx, d.name)).Nodup
  alike : ∀ d ∈ defs, ∀ d' ∈ defs, d.name = d'.name → d.type = d'.type ∧ d.default = d'.default
  length : defs.length ≤ 1001

theorem nodup_of_map {α β : Type} (f : α → β) {l : List α} (h : (l.map f).Nodup) : l.Nodup := by
  induction l with
  | nil => simp
  | cons a l ih =>
    simp only [List.map_cons, List.nodup_cons] at h ⊢
    exact ⟨fun hm => h.1 (List.mem_map_of_mem (f := f) hm), ih h.2⟩

theorem TypedefsOk.defsOk {cm₀ : Dict TEntry} {defs : List TypeDef} (h : TypedefsOk cm₀ defs) : DefsOk cm₀ defs where
  colon := fun d hd => ⟨(h.colons d hd).1, (h.colons d hd).2.1⟩
  fresh := h.fresh
  same := h.alike
  keys := by
    have hk := h.keys
    have hc := h.colons
    refine List.pairwise_map.2 ?_
    rw [List.nodup_iff_pairwise_ne, List.pairwise_map] at hk
    refine hk.imp_of_mem fun {a b} ha hb hne he => hne ?_
    have e := congrArg (splitOn ':') he
    rw [key_eq, key_eq, splitOn_qual (hc a ha).1 (hc a ha).2.1, splitOn_qual (hc b hb).1 (hc b hb).2.1] at e
    simp only [List.cons.injEq, and_true] at e
    rw [e.1, e.2]

theorem build_all {cm₀ : Dict TEntry} {defs : List TypeDef} (h : TypedefsOk cm₀ defs) :
    ∃ N order cm, (∀ fuel, N ≤ fuel → typedefOrder (cm₀.map (·.1)) fuel defs = some (.ok order)) ∧ order.Perm defs ∧
      addTypedefs cm₀ order = .ok cm ∧ MapInv cm₀ defs order cm ∧
      ∀ pre d post, order = pre ++ d :: post → Avail cm₀ pre d.type := by
  have hflat : ∀ d ∈ defs, ¬ NestedUnion d.type := by
    intro d hd
    obtain ⟨b, r, hty⟩ := h.plain d hd
    simp [hty, NestedUnion]
  obtain ⟨N, order, h1, h2, h3⟩ := C60_order_partial (cm₀.map (·.1)) defs hflat h.names h.grounded h.length
  have hsub : ∀ d ∈ order, d ∈ defs := fun d hd => h2.mem_iff.1 hd
  have hav := avail_of_order h.prefixes h.plain h.colons h.names hsub h3
  have hk : (order.map TypeDef.key).Nodup := (h2.map TypeDef.key).nodup_iff.2 h.defsOk.keys
  obtain ⟨cm, h4, h5⟩ := addTypedefs_inv h.defsOk order hsub hk hav
  exact ⟨N, order, cm, h1, h2, h4, h5, hav⟩

/-- `typedef outer { type b:mid { length 1..4; } }` in `a`, `typedef mid { type low; default
x; }`, `typedef low { type string; }` in `b`, users first. -/
def exNear : List TypeDef := exTd.tail

theorem exNear_sub : ∀ d ∈ exNear, d ∈ exTd := fun d hd => List.mem_of_mem_tail hd

theorem exNear_ok : TypedefsOk exCm exNear where
  plain := by
    intro d hd
    simp only [exNear, exTd, List.tail_cons, List.mem_cons, List.not_mem_nil, or_false] at hd
    rcases hd with rfl | rfl | rfl <;> exact ⟨_, _, rfl⟩
  prefixes :=
    { own := by
        intro d hd
        simp only [exNear, exTd, List.tail_cons, List.mem_cons, List.not_mem_nil, or_false] at hd
        rcases hd with rfl | rfl | rfl <;> rfl
      imports := by
        intro d hd p r h
        simp only [exNear, exTd, List.tail_cons, List.mem_cons, List.not_mem_nil, or_false] at hd
        rcases hd with rfl | rfl | rfl
        · simp only [List.lookup] at h
          split at h
          · rename_i hp
            simp at hp h
            rw [hp, h]
          · cases h
        · cases h
        · cases h
      base := by
        intro p n h
        refine .inr fun d hd => ?_
        intro hp
        subst hp
        simp only [exNear, exTd, List.tail_cons, List.mem_cons, List.not_mem_nil, or_false] at hd
        rcases hd with rfl | rfl | rfl <;> simp [exCm] at h }
  colons := by
    intro d hd
    simp only [exNear, exTd, List.tail_cons, List.mem_cons, List.not_mem_nil, or_false] at hd
    rcases hd with rfl | rfl | rfl <;> decide
  names := by
    intro d hd a ha
    have := exTd_mentions d (exNear_sub d hd) a ha
    simp only [exNear, exTd, List.tail_cons, List.mem_cons, List.not_mem_nil, or_false] at hd
    rcases hd with rfl | rfl | rfl <;> simp [TypeS.subtypes] at this <;> subst this
    · exact ⟨_, .imported py!"b" py!"mid" py!"b" (by decide) (by decide) (by decide) (by decide) (by decide)⟩
    · exact ⟨_, .sameModule _ (by decide) (by decide)⟩
    · exact ⟨_, .known _ (by decide) (by decide)⟩
  grounded := by
    have needs : ∀ d ∈ exNear, ∀ k, Needs (exCm.map (·.1)) d k → ∃ a ∈ d.type.subtypes, typeName (exCm.map (·.1)) d a = .ok k := by
      rintro d hd k ⟨a, hm, hn⟩
      exact ⟨a, exTd_mentions d (exNear_sub d hd) a hm, typeName_of_names hn⟩
    have hs : TGrounded (exCm.map (·.1)) exNear py!"string" := .known _ (by decide)
    have hlow : TGrounded (exCm.map (·.1)) exNear py!"b:low" := by
      refine .typedef (exNear[2]'(by decide)) (List.getElem_mem _) fun k hk => ?_
      obtain ⟨a, ha, hn⟩ := needs _ (List.getElem_mem _) k hk
      simp [exNear, exTd, TypeS.subtypes] at ha
      subst ha
      cases hn
      exact hs
    have hmid : TGrounded (exCm.map (·.1)) exNear py!"b:mid" := by
      refine .typedef (exNear[1]'(by decide)) (List.getElem_mem _) fun k hk => ?_
      obtain ⟨a, ha, hn⟩ := needs _ (List.getElem_mem _) k hk
      simp [exNear, exTd, TypeS.subtypes] at ha
      subst ha
      cases hn
      exact hlow
    intro d hd k hk
    obtain ⟨a, ha, hn⟩ := needs d hd k hk
    simp only [exNear, exTd, List.tail_cons, List.mem_cons, List.not_mem_nil, or_false] at hd
    rcases hd with rfl | rfl | rfl <;> simp [TypeS.subtypes] at ha <;> subst ha <;> cases hn
    · exact hmid
    · exact hlow
    · exact hs
  fresh := by
    intro d hd x hx
    simp only [exNear, exTd, List.tail_cons, List.mem_cons, List.not_mem_nil, or_false] at hd
    rcases hd with rfl | rfl | rfl <;> rcases hx with rfl | rfl <;> decide
  keys := by decide
  alike := by
    intro d hd d' hd' he
    simp only [exNear, exTd, List.tail_cons, List.mem_cons, List.not_mem_nil, or_false] at hd hd'
    rcases hd with rfl | rfl | rfl <;> rcases hd' with rfl | rfl | rfl <;> simp at he <;> exact ⟨rfl, rfl⟩
  length := by decide

/-- **C60, part.**  Under `TypedefsOk`, all the classes are built, and each typedef can be
used by its name with and without prefix. -/
theorem C60_build_partial (cm₀ : Dict TEntry) (defs : List TypeDef) (h : TypedefsOk cm₀ defs) :
    ∃ N order cm, (∀ fuel, N ≤ fuel → typedefOrder (cm₀.map (·.1)) fuel defs = some (.ok order)) ∧ order.Perm defs ∧
      addTypedefs cm₀ order = .ok cm ∧ (∀ d ∈ defs, ∀ x, Denotes d x → cm.has x = true) ∧
      ∀ x, cm₀.has x = true → cm.get? x = cm₀.get? x := by
  obtain ⟨N, order, cm, h1, h2, h3, h4, _⟩ := build_all h
  refine ⟨N, order, cm, h1, h2, h3, ?_, ?_⟩
  · intro d hd x hx
    obtain ⟨p, h5, _⟩ := h4.built d (h2.mem_iff.2 hd) x hx
    simp [Dict.has, h5]
  · intro x hx
    refine h4.others x fun d hd hde => ?_
    simp [Dict.has, h.fresh d (h2.mem_iff.1 hd) x hde] at hx

example : ∃ N order cm, (∀ fuel, N ≤ fuel → typedefOrder (exCm.map (·.1)) fuel exNear = some (.ok order)) ∧ order.Perm exNear ∧
      addTypedefs exCm order = .ok cm ∧ (∀ d ∈ exNear, ∀ x, Denotes d x → cm.has x = true) ∧
      ∀ x, exCm.has x = true → cm.get? x = exCm.get? x := C60_build_partial exCm exNear exNear_ok

/-! ## C61 -/

/-- No default is hidden: a typedef that neither restricts its type nor has a default does
not name a typedef with a default. -/
def NoneHidden (defs : List TypeDef) : Prop :=
  ∀ e ∈ defs, e.default = none → ∀ b, e.type = .plain b false → ∀ e' ∈ defs, Denotes e' b → e'.default = none

/-- **C61, part.**  A leaf without a default of its own has that of the nearest typedef in
its chain that has one, whether it restricts its type further or not.  For `NoneHidden`
see `C61_unrestricted_refuted`. -/
theorem C61_nearest_partial (cm₀ : Dict TEntry) (hbm : BaseMap cm₀) (defs : List TypeDef) (h : TypedefsOk cm₀ defs)
    (hv : NoneHidden defs) :
    ∃ N order cm, (∀ fuel, N ≤ fuel → typedefOrder (cm₀.map (·.1)) fuel defs = some (.ok order)) ∧ addTypedefs cm₀ order = .ok cm ∧
      ∀ a r o, Nearest (cm₀.map (·.1)) defs a o → leafDefault cm (.plain a r) none = .ok o := by
  obtain ⟨N, order, cm, h1, h2, h3, h4, h5⟩ := build_all h
  refine ⟨N, order, cm, h1, h3, ?_⟩
  have hsub : ∀ d ∈ order, d ∈ defs := fun d hd => h2.mem_iff.1 hd
  have hpc := par_chain h.defsOk hbm hsub (fun d hd => h2.mem_iff.2 hd) h5 h4
  intro a r o hnear
  by_cases hb : ∃ e, cm₀.get? a = some e
  · obtain ⟨e, he⟩ := hb
    have old : ∀ b e, cm₀.get? b = some e → cm.get? b = some e := by
      intro b e he
      rw [h4.others b fun d hd hde => by rw [h.fresh d (hsub d hd) b hde] at he; cases he]
      exact he
    have hone : Nearest (cm₀.map (·.1)) defs a none := by
      refine .builtin a ?_
      rw [← Dict.has_iff]
      simp [Dict.has, he]
    rw [nearest_unique h.defsOk hnear hone]
    obtain ⟨hd0, hp0⟩ := hbm a e he
    have hcm := old a e he
    rcases hp0 with ⟨hp, hbs⟩ | ⟨q, e', hp, hq, hq1, hq2⟩
    · cases r with
      | false =>
        have hbe : buildElem cm (.plain a false) = .ok e := by simp [buildElem, hcm]
        simp [leafDefault, hbe, bind, Except.bind, hd0, hp, walkParents, firstDefault]
      | true =>
        have hbe : buildElem cm (.plain a true) = .ok ⟨false, some a, none⟩ := by simp [buildElem, Dict.has, hcm]
        rw [leafDefault_walk hbe rfl rfl (.last a e hcm hp hbs), fdv_cons [] hcm, hd0]
        rfl
    · have cq : PChain cm q [q] := .last q e' (old q e' hq) hq1 hq2
      have fq : fdv cm [q] = none := by
        rw [fdv_cons [] (old q e' hq), (hbm q e' hq).1]
        rfl
      cases r with
      | false =>
        have hbe : buildElem cm (.plain a false) = .ok e := by simp [buildElem, hcm]
        rw [leafDefault_walk hbe hd0 hp cq, fq]
      | true =>
        have hbe : buildElem cm (.plain a true) = .ok ⟨false, some a, none⟩ := by simp [buildElem, Dict.has, hcm]
        rw [leafDefault_walk hbe rfl rfl (.step a e q [q] hcm hp cq), fdv_cons _ hcm, hd0]
        simp [fq]
  · -- a typedef
    obtain ⟨d, hd, hde⟩ : ∃ d ∈ defs, Denotes d a := by
      cases hnear with
      | builtin _ ha =>
        rw [← Dict.has_iff] at ha
        exact absurd (Option.isSome_iff_exists.1 ha) hb
      | here d _ v hd hde => exact ⟨d, hd, hde⟩
      | next d _ _ _ _ hd hde => exact ⟨d, hd, hde⟩
    obtain ⟨p, hcm, hpar⟩ := h4.built d (h2.mem_iff.2 hd) a hde
    obtain ⟨u, w, huw⟩ := List.append_of_mem (h2.mem_iff.2 hd)
    obtain ⟨l, hch, hnl⟩ := hpc u.length u d w huw rfl p hpar
    obtain ⟨b, rb, hty⟩ := h.plain d hd
    have hval : (if d.default.isSome then d.default else fdv cm l) = o := by
      cases hdd : d.default with
      | some v => exact nearest_unique h.defsOk (.here d a v hd hde hdd) hnear
      | none => exact nearest_unique h.defsOk (.next d a b rb _ hd hde hdd hty (hnl hv hdd b rb hty)) hnear
    cases r with
    | true =>
      have hbe : buildElem cm (.plain a true) = .ok ⟨false, some a, none⟩ := by simp [buildElem, Dict.has, hcm]
      rw [leafDefault_walk hbe rfl rfl (.step a _ p l hcm rfl hch), fdv_cons l hcm]
      exact congrArg _ hval
    | false =>
      have hbe : buildElem cm (.plain a false) = .ok ⟨false, some p, d.default⟩ := by simp [buildElem, hcm]
      cases hdd : d.default with
      | some v =>
        rw [hdd] at hbe hval
        simp at hval
        simp [leafDefault, hbe, bind, Except.bind, checkBase_chain (e := ⟨false, some p, some v⟩) rfl hch, Except.map, ← hval]
      | none =>
        rw [hdd] at hbe hval
        rw [leafDefault_walk hbe rfl rfl hch]
        simpa using hval

/-- `typedef t1 { type t2; }`, `typedef t2 { type string; default x; }`. -/
def exHidden : List TypeDef :=
  let a := fun n t d => { pfx := py!"a", name := n, local_ := py!"a", real := py!"a", imports := [], type := .plain t false, default := d }
  [a py!"t2" py!"string" (some py!"x"), a py!"t1" py!"t2" none]

/-- **C61, refuted in general.**  The default of `t2` is not found for a leaf of type `t1`:
the class of `t1` takes over the parent type of `t2`. -/
theorem C61_unrestricted_refuted :
    Nearest (exCm.map (·.1)) exHidden py!"t1" (some py!"x") ∧
    ∃ fuel order cm, typedefOrder (exCm.map (·.1)) fuel exHidden = some (.ok order) ∧ addTypedefs exCm order = .ok cm ∧
      leafDefault cm (.plain py!"t1" false) none = .ok none := by
  constructor
  · exact .next exHidden[1] _ py!"t2" false _ (by simp [exHidden]) (.inr rfl) rfl rfl
      (.here exHidden[0] _ py!"x" (by simp [exHidden]) (.inr rfl) rfl)
  · exact ⟨2, exHidden, _, rfl, rfl, by decide⟩

theorem exCm_base : BaseMap exCm := by
  intro a e h
  have := Dict.mem_of_get? h
  simp only [exCm, List.mem_cons, List.not_mem_nil, or_false, Prod.mk.injEq] at this
  rcases this with ⟨rfl, rfl⟩ | ⟨rfl, rfl⟩ | ⟨rfl, rfl⟩ | ⟨rfl, rfl⟩
  · exact ⟨rfl, .inl ⟨rfl, rfl⟩⟩
  · exact ⟨rfl, .inl ⟨rfl, rfl⟩⟩
  · exact ⟨rfl, .inl ⟨rfl, rfl⟩⟩
  · exact ⟨rfl, .inr ⟨py!"string", ⟨true, none, none⟩, rfl, rfl, rfl, rfl⟩⟩

theorem exNear_visible : NoneHidden exNear := by
  intro e he hn b hb e' he' hde
  simp only [exNear, exTd, List.tail_cons, List.mem_cons, List.not_mem_nil, or_false] at he he'
  rcases he with rfl | rfl | rfl
  · cases hb
  · cases hn
  · cases hb
    rcases he' with rfl | rfl | rfl <;> simp [Denotes] at hde

example : Nearest (exCm.map (·.1)) exNear py!"a:outer" (some py!"x") :=
  .next (exNear[0]'(by decide)) _ py!"b:mid" true _ (List.getElem_mem _) (.inl rfl) rfl rfl
    (.here (exNear[1]'(by decide)) _ py!"x" (List.getElem_mem _) (.inl rfl) rfl)

example : ∃ N order cm, (∀ fuel, N ≤ fuel → typedefOrder (exCm.map (·.1)) fuel exNear = some (.ok order)) ∧ addTypedefs exCm order = .ok cm ∧
      ∀ a r o, Nearest (exCm.map (·.1)) exNear a o → leafDefault cm (.plain a r) none = .ok o :=
  C61_nearest_partial exCm exCm_base exNear exNear_ok exNear_visible

/-! ## C66 -/

/-- Two modules with a typedef `foo` each: a string with the default `x` in `a`, a boolean in
`b`. -/
def exTwo : List TypeDef :=
  [{ pfx := py!"a", name := py!"foo", local_ := py!"a", real := py!"a", imports := [], type := .plain py!"string" false, default := some py!"x" },
   { pfx := py!"b", name := py!"foo", local_ := py!"b", real := py!"b", imports := [], type := .plain py!"boolean" false, default := none }]

/-- **C66, refuted in general.**  The name without prefix is kept for one module only, the
last one built: a leaf of module `a` with `type foo` is a boolean without default, not the
string with default `x` that `a:foo` is. -/
theorem C66_same_name_refuted :
    ∃ fuel order cm, typedefOrder (exCm.map (·.1)) fuel exTwo = some (.ok order) ∧ addTypedefs exCm order = .ok cm ∧
      cm.get? py!"a:foo" = some ⟨false, some py!"string", some py!"x"⟩ ∧
      buildElem cm (.plain py!"foo" false) = .ok ⟨false, some py!"boolean", none⟩ :=
  ⟨2, exTwo, _, rfl, rfl, by decide, by decide⟩

/-- **C66, part.**  Under `TypedefsOk` (in particular, typedefs of one name are alike) the
name without prefix gives the same class as the name with the prefix of the module. -/
theorem C66_bare_name_partial (cm₀ : Dict TEntry) (defs : List TypeDef) (h : TypedefsOk cm₀ defs) :
    ∃ N order cm, (∀ fuel, N ≤ fuel → typedefOrder (cm₀.map (·.1)) fuel defs = some (.ok order)) ∧ addTypedefs cm₀ order = .ok cm ∧
      ∀ d ∈ defs, ∃ p, buildElem cm (.plain d.name false) = .ok ⟨false, some p, d.default⟩ ∧
        buildElem cm (.plain (d.pfx ++ ':' :: d.name) false) = .ok ⟨false, some p, d.default⟩ := by
  obtain ⟨N, order, cm, h1, h2, h3, h4, h5⟩ := build_all h
  refine ⟨N, order, cm, h1, h3, fun d hd => ?_⟩
  obtain ⟨p, h6, h7⟩ := h4.built d (h2.mem_iff.2 hd) d.name (.inr rfl)
  obtain ⟨p', h8, h9⟩ := h4.built d (h2.mem_iff.2 hd) (d.pfx ++ ':' :: d.name) (.inl rfl)
  have : p = p' := par_unique h.defsOk h7 h9
  subst this
  exact ⟨p, by simp [buildElem, h6], by simp [buildElem, h8]⟩

/-! ## C67 -/

/-- **C67, part.**  A leaf's own default is the one used, when its type has no default of
its own: a restricted type, or a type whose entry has none.  The type must come down to a
base type. -/
theorem C67_own_default_partial (cm : Dict TEntry) (a v : Str) (r : Bool) (e : TEntry) (l : List Str) (he : cm.get? a = some e)
    (hch : PChain cm a l) (h : r = true ∨ e.default = none) : leafDefault cm (.plain a r) (some v) = .ok (some v) := by
  cases r with
  | true =>
    have hbe : buildElem cm (.plain a true) = .ok ⟨false, some a, none⟩ := by simp [buildElem, Dict.has, he]
    simp [leafDefault, hbe, bind, Except.bind, checkBase_chain (e := ⟨false, some a, none⟩) rfl hch, Except.map]
  | false =>
    have hd : e.default = none := h.resolve_left (by simp)
    have hbe : buildElem cm (.plain a false) = .ok e := by simp [buildElem, he]
    simp [leafDefault, hbe, bind, Except.bind, hd, checkBase_mem hch (pchain_head hch) he, Except.map]

example : leafDefault exCm (.plain py!"yang:date" true) (some py!"y") = .ok (some py!"y") :=
  C67_own_default_partial exCm _ _ _ ⟨false, some py!"string", none⟩ _ rfl (.step _ _ _ _ rfl rfl (.last _ ⟨true, none, none⟩ rfl rfl rfl)) (.inl rfl)

example : ∃ N order cm, (∀ fuel, N ≤ fuel → typedefOrder (exCm.map (·.1)) fuel exNear = some (.ok order)) ∧ addTypedefs exCm order = .ok cm ∧
      ∀ d ∈ exNear, ∃ p, buildElem cm (.plain d.name false) = .ok ⟨false, some p, d.default⟩ ∧
        buildElem cm (.plain (d.pfx ++ ':' :: d.name) false) = .ok ⟨false, some p, d.default⟩ :=
  C66_bare_name_partial exCm exNear exNear_ok

/-- **C67, refuted in general.**  A leaf `type t2; default y;` gets the default `x` of the
typedef, not its own. -/
theorem C67_own_default_refuted :
    ∃ fuel order cm, typedefOrder (exCm.map (·.1)) fuel exHidden = some (.ok order) ∧ addTypedefs exCm order = .ok cm ∧
      leafDefault cm (.plain py!"t2" false) (some py!"y") = .ok (some py!"x") :=
  ⟨2, exHidden, _, rfl, rfl, by decide⟩

end Pyb
