import Verif.Lemmas.NativeLoadedCheck
import Verif.Props.Loaded

/-! # A loaded native JSON document is in the tree (C77) -/

namespace Pyb
open Py Spec

theorem n_root_cont {g : LoadOpt} {kids : List (Meta × Schema)} {ns : List Inst} (ms : List (Str × J)) :
    ∃ ch pr ns', (nativeMembers g false false false (rootCls kids) none (rootObj ns) ms).inst = .cont ch pr ns' := by
  suffices ∀ n : Inst, (∃ ch pr ns, n = .cont ch pr ns) → ∃ ch pr ns', (nativeMembers g false false false (rootCls kids) none n ms).inst = .cont ch pr ns' from
    this _ ⟨_, _, _, rfl⟩
  induction ms with
  | nil => intro n hn; rw [nMembers_nil]; exact hn
  | cons x ms ih =>
    rintro n ⟨ch, pr, ns, rfl⟩
    rw [nMembers_cons]
    have hw : ∃ ch' pr' ns', (if false && x.1 == yangOrder then Out.same (.cont ch pr ns) else withKid false (rootCls kids) none (.cont ch pr ns) x.1
        (nativeUnknown g.skip (.cont ch pr ns)) fun _ k c => nativeChild g false k.2 k.1.choice c x.2).inst = .cont ch' pr' ns' := by
      rw [if_neg (by simp)]
      simp only [withKid]
      split
      · exact ⟨ch, pr, ns, nativeUnknown_inst⟩
      · split
        · split
          · exact ⟨_, _, _, rfl⟩
          · exact ⟨_, _, _, rfl⟩
        · exact ⟨_, _, _, rfl⟩
    unfold Out.andThen
    split
    · exact hw
    · exact ih _ hw

/-- C77: if a native JSON document is loaded without an exception (and without
`overwrite`), every leaf it gives a value for holds that value, as if it had been assigned;
every leaf-list holds no other values than those of the document, and all of them if they
are stored as they are.

Missing: lists without key; documents that contradict themselves (two values for the same
leaf, two cases of a choice, two entries with the same key or place); leaf-lists with values
that are not stored as they are (`C45_converted_refuted`); entries whose key is not a
string (`C77_native_int_key_refuted`: the path of an entry is its name in the document). -/
theorem C77_native_values_partial (g : LoadOpt) (hov : g.over = false) (kids : List (Meta × Schema)) (hf : ApartRoot kids)
    (hO : Orderly (rootCls kids)) (hK : Keyed (rootCls kids)) (ns ns' : List Inst) (doc : J)
    (hc : ¬ NContradicts false (rootCls kids) doc)
    (h : nativeLoad g kids ns doc = (ns', none)) (p : Path) (x : J) (hs : NSays false (rootCls kids) doc p x) :
    ∃ T n, clsAt kids p = some T ∧ objAt ns' p = some n ∧ NHolds g.repr T x n := by
  cases hs with
  | @field _ _ _ ms y i k p _ h1 h2 h3 h4 =>
    simp only [nativeLoad, Prod.mk.injEq, hov] at h
    obtain ⟨rfl, he⟩ := h
    obtain ⟨ch, pr, ns1, e1⟩ := n_root_cont (g := g) (kids := kids) (ns := ns) ms
    have hmem := List.mem_of_getElem? h3
    have hkf := hf k hmem
    obtain ⟨T, hT⟩ := nSays_schema h4
    obtain ⟨T, m, g1, g2, g3⟩ := nativeMembers_post (st := false) (own := none) (above := []) (po := none) (wrapped := false) (pres := false) (v := x) (p := p) hO.1
      (fun h => by simp at h) h3
      (fun z hz _ c m g1 g3 => (native_frame g z.2).1 _ _ k.2 c p m T hkf (keyed_kid hK h3) hT g1 g3) hc h1 h2
      (fun c h5 => (native_post g y.2).1 _ _ k.2 c p x hkf (orderly_kid hO.2 hmem) (keyed_kid hK h3) (fun h => hc (.inside h1 h2 h3 h)) h4 h5) he
    refine ⟨T, m, g1, ?_, g3⟩
    rw [obj_kids e1]
    exact g2

/-- C77: what the document does not concern is the same as before, also if there is an
exception. -/
theorem C77_native_rest_partial (g : LoadOpt) (hov : g.over = false) (kids : List (Meta × Schema)) (hf : ApartRoot kids)
    (hK : Keyed (rootCls kids)) (ns : List Inst) (doc : J)
    (p : Path) (T : Schema) (n : Inst) (hT : clsAt kids p = some T) (hc : ¬ NConcerns false (rootCls kids) doc p)
    (hn : objAt ns p = some n) : objAt (nativeLoad g kids ns doc).1 p = some n := by
  cases doc with
  | obj ms =>
    obtain ⟨ch, pr, ns1, e1⟩ := n_root_cont (g := g) (kids := kids) (ns := ns) ms
    cases p with
    | nil => exact absurd .here hc
    | cons s p =>
    simp only [nativeLoad, hov]
    rw [obj_kids e1]
    cases s with
    | key k => simp [clsAt, schemaAt] at hT
    | field i =>
      have hT' : schemaAt (.cont false kids) (.field i :: p) = some T := hT
      rw [schemaAt_cont] at hT'
      cases hk : kids[i]? with
      | none => simp [hk] at hT'
      | some k =>
        rw [hk] at hT'
        have hmem := List.mem_of_getElem? hk
        exact nativeMembers_frame (st := false) (own := none) (above := []) (fun h => by simp at h) hk (fun z hz _ c g1 g3 =>
          (native_frame g z.2).1 _ _ k.2 c p n T (hf k hmem) (keyed_kid hK hk) hT' g1 g3) hc hn
  | _ => exact hn

/-! ## The example: a user-ordered list, a choice and a leaf-list -/

def natC : List (Meta × Schema) :=
  [(inM py!"a" (some ⟨py!"ch", py!"one"⟩), .leaf (tU64.cls noRx)),
   (inM py!"b" (some ⟨py!"ch", py!"two"⟩), .leaf (tBool.cls noRx)),
   (inM py!"l", .list { keys := [0], ordered := true } jsonL),
   (inM py!"v", .leafList (tU64.llCls noRx))]

def natKids : List (Meta × Schema) := [(inM py!"c", .cont false natC)]

theorem nat_flat : FlatRoot natKids := by
  intro k hk
  simp only [natKids, List.mem_singleton] at hk
  subst hk
  simp [Choices, ChoicesKids, natC, jsonL, inM, choiceNames]

theorem nat_orderly : Orderly (rootCls natKids) :=
  ⟨⟨by decide, by decide⟩, ⟨⟨by decide, by decide⟩, trivial, trivial,
    ⟨⟨by decide, by decide⟩, by intro i hi; simp at hi; subst hi; exact ⟨_, _, rfl⟩, trivial, trivial, trivial⟩, trivial, trivial⟩, trivial⟩

theorem nat_keyed : Keyed (rootCls natKids) := by
  simp only [rootCls, natKids, keyed_cont, List.forall_mem_cons, List.not_mem_nil, false_implies, implies_true, and_true, natC, keyed_list]
  exact ⟨keyed_leaf _, keyed_leaf _, ⟨by simp, by simp only [jsonL, List.forall_mem_cons, List.not_mem_nil, false_implies, implies_true, and_true]; exact ⟨keyed_leaf _, keyed_leaf _⟩⟩, keyed_leafList _⟩

def natDoc : J :=
  .obj [(py!"c", .obj
    [(py!"b", .bool true),
     (py!"l", .obj [(py!"w", .obj [(py!"z", .num 9), (py!"__yang_order", .num 1)]), (py!"y", .obj [(py!"z", .num 7), (py!"__yang_order", .num 0)])]),
     (py!"v", .arr [.num 5, .num 6])])]

/-- Before the load: `a` (the other case) is set, entries `x` and `y`. -/
def natOld : List Inst := history natKids (freshKids natKids)
  [([.field 0, .field 0], .set (.int 1) false), ([.field 0, .field 2], .add (.str py!"x")),
   ([.field 0, .field 2, .key (.str py!"x"), .field 1], .set (.int 50) false), ([.field 0, .field 2], .add (.str py!"y"))]

theorem nSaysField {o pres : Bool} {kids : List (Meta × Schema)} {ms : List (Str × J)} {p : Path} {v : J} (a i : Nat) {x : Str × J}
    {k : Meta × Schema} (hx : ms[a]? = some x) (hk : kids[i]? = some k) (ho : ¬ (o = true ∧ x.1 = py!"__yang_order")) (hn : safeName k.1.name = safeName x.1)
    (h : NSays false k.2 x.2 p v) : NSays o (.cont pres kids) (.obj ms) (.field i :: p) v :=
  .field (List.mem_of_getElem? hx) ⟨ho, k, hk, hn⟩ hk h

theorem nSaysEntry {o : Bool} {info : ListInfo} {kids : List (Meta × Schema)} {ms : List (Str × J)} {p : Path} {v : J} (a : Nat) {x : Str × J}
    (hx : ms[a]? = some x) (h : NSays info.ordered (.cont false kids) x.2 p v) : NSays o (.list info kids) (.obj ms) (.key (.str x.1) :: p) v :=
  .entry (List.mem_of_getElem? hx) h

theorem nat_says : NSays false (rootCls natKids) natDoc [.field 0, .field 2, .key (.str py!"w"), .field 1] (.num 9) :=
  nSaysField 0 0 rfl rfl (by simp) (by decide) (nSaysField 1 2 rfl rfl (by simp) (by decide)
    (nSaysEntry (x := (py!"w", _)) 0 rfl (nSaysField 0 1 rfl rfl (by decide) (by decide) .leaf)))

example : (nativeLoad demoLoad natKids natOld natDoc).2 = none := rfl

example : ∃ n, objAt (nativeLoad demoLoad natKids natOld natDoc).1 [.field 0, .field 2, .key (.str py!"w"), .field 1] = some n ∧
    NHolds demoLoad.repr (.leaf (tPercent.cls noRx)) (.num 9) n := by
  obtain ⟨T, n, h1, h2, h3⟩ := C77_native_values_partial demoLoad rfl natKids nat_flat.apart nat_orderly nat_keyed natOld _ natDoc
    (nTidy_ok nat_orderly (by decide)) rfl _ _ nat_says
  obtain rfl : T = .leaf (tPercent.cls noRx) := (Option.some.inj h1).symm
  exact ⟨n, h2, h3⟩

/-- The document does not concern the entry `x`. -/
theorem nat_spares : ¬ NConcerns false (rootCls natKids) natDoc [.field 0, .field 2, .key (.str py!"x"), .field 1] :=
  nSpares_of nat_orderly (by decide)

example : objAt (nativeLoad demoLoad natKids natOld natDoc).1 [.field 0, .field 2, .key (.str py!"x"), .field 1] = some (.leaf (.int 50) true) :=
  C77_native_rest_partial demoLoad rfl natKids nat_flat.apart nat_keyed natOld natDoc _ _ _ rfl nat_spares rfl

/-! ## Where it fails -/

/-- A list whose key is a number. -/
def pctKids : List (Meta × Schema) := [(inM py!"l", .list { keys := [0] } [(inM py!"k", .leaf (tPercent.cls noRx)), (inM py!"z", .leaf (tPercent.cls noRx))])]
def pctOld : List Inst := history pctKids (freshKids pctKids) [([.field 0], .add (.int 5)), ([.field 0, .key (.int 5), .field 1], .set (.int 1) false)]
def pctDoc : J := .obj [(py!"l", .obj [(py!"5", .obj [(py!"z", .num 9)])])]

/-- C77 fails for entries made by `add` with a number: a document for the entry does not
change it, but makes a second one with the same key leaf. -/
theorem C77_native_int_key_refuted :
    (nativeLoad demoLoad pctKids pctOld pctDoc).2 = none ∧
    objAt (nativeLoad demoLoad pctKids pctOld pctDoc).1 [.field 0, .key (.int 5), .field 1] = some (.leaf (.int 1) true) ∧
    objAt (nativeLoad demoLoad pctKids pctOld pctDoc).1 [.field 0, .key (.int 5), .field 0] = some (.leaf (.int 5) true) ∧
    objAt (nativeLoad demoLoad pctKids pctOld pctDoc).1 [.field 0, .key (.str py!"5"), .field 0] = some (.leaf (.int 5) true) ∧
    objAt (nativeLoad demoLoad pctKids pctOld pctDoc).1 [.field 0, .key (.str py!"5"), .field 1] = some (.leaf (.int 9) true) :=
  ⟨rfl, rfl, rfl, rfl, rfl⟩

/-- C77 fails for an object without members in the place of a list: it is accepted, and
empties the list. -/
theorem C77_native_list_emptied_refuted :
    (objAt natOld [.field 0, .field 2, .key (.str py!"x"), .field 1] = some (.leaf (.int 50) true)) ∧
    (nativeLoad demoLoad natKids natOld (.obj [(py!"c", .obj [(py!"l", .obj [])])])).2 = none ∧
    objAt (nativeLoad demoLoad natKids natOld (.obj [(py!"c", .obj [(py!"l", .obj [])])])).1 [.field 0, .field 2] = some (.list true []) :=
  ⟨rfl, rfl, rfl⟩

end Pyb
