import Verif.Lemmas.Reach
import Verif.Lemmas.DecText
import Verif.Props.Scalar

/-! # Properties of JSON serialisation

The document is the value the JSON library is given, or returns. -/

namespace Pyb
open Py Spec

/-! ## A module for the examples

```
module m {
  container c {
    choice ch { case one { leaf a { type uint64; } } case two { leaf b { type boolean; } } }
    leaf i { type identityref; }      (an identity of module n)
    leaf e { type empty; }
    container p { presence; leaf y { type int8 { range "0..10"; } } }
    list l { key "k"; leaf k { type string; } leaf z { type percent; } }  (typedef percent)
    leaf-list v { type uint64; }
  }
}
``` -/

def noRx : Str → Str → Bool := fun _ _ => true

def tU64 : YTy := .int py!"uint64" .uint64 []
def tStr : YTy := .str py!"string" (.base .str)
def tIdent : YTy := .ident py!"identityref" [(py!"red", py!"n"), (py!"blue", py!"m")]
def tBool : YTy := .bool py!"boolean"
def tEmpty : YTy := .empty py!"empty"
def tTen : YTy := .int py!"int8" .int8 [py!"0..10"]
def tPercent : YTy := .int py!"percent" .uint8 [py!"0..100"]

def inM (name : Str) (choice : Option Choice := none) : Meta := { name := name, ns := py!"urn:m", module_ := py!"m", choice := choice }

def jsonL : List (Meta × Schema) := [(inM py!"k", .leaf (tStr.cls noRx)), (inM py!"z", .leaf (tPercent.cls noRx))]

def jsonC : List (Meta × Schema) :=
  [(inM py!"a" (some ⟨py!"ch", py!"one"⟩), .leaf (tU64.cls noRx)),
   (inM py!"b" (some ⟨py!"ch", py!"two"⟩), .leaf (tBool.cls noRx)),
   (inM py!"i", .leaf (tIdent.cls noRx)),
   (inM py!"e", .leaf (tEmpty.cls noRx)),
   (inM py!"p", .cont true [(inM py!"y", .leaf (tTen.cls noRx))]),
   (inM py!"l", .list { keys := [0] } jsonL),
   (inM py!"v", .leafList (tU64.llCls noRx))]

def jsonKids : List (Meta × Schema) := [(inM py!"c", .cont false jsonC)]

def jsonOps : List (Path × Op) :=
  [([.field 0, .field 1], .set (.bool true) false),
   ([.field 0, .field 0], .set (.str py!"18446744073709551615") false),
   ([.field 0, .field 2], .set (.str py!"red") false),
   ([.field 0, .field 3], .set (.bool true) false),
   ([.field 0, .field 4, .field 0], .set (.int 11) false),
   ([.field 0, .field 4, .field 0], .set (.int 7) false),
   ([.field 0, .field 5], .add (.str py!"x")),
   ([.field 0, .field 5], .add (.str py!"y")),
   ([.field 0, .field 5, .key (.str py!"y"), .field 1], .set (.int 50) false),
   ([.field 0, .field 6], .ll (.append (.int 5))),
   ([.field 0, .field 6], .ll (.append (.str py!"6")))]

/-- What the operations leave. -/
def jsonTree : List Inst :=
  [.cont true false
    [.leaf (.int 18446744073709551615) true, .leaf (.bool false) false, .leaf (.str py!"red") true, .leaf (.bool true) true,
     .cont true true [.leaf (.int 7) true],
     .list false [(.str py!"x", .cont true false [.leaf (.str py!"x") true, .leaf (.int 0) false]),
                 (.str py!"y", .cont true false [.leaf (.str py!"y") true, .leaf (.int 50) true])],
     .leafList [.int 5, .int 6] true]]

/-- What is written for it. -/
def jsonDoc : J :=
  .obj [(py!"m:c", .obj
    [(py!"a", .str py!"18446744073709551615"), (py!"i", .str py!"n:red"), (py!"e", .arr [.null]),
     (py!"p", .obj [(py!"y", .num 7)]),
     (py!"l", .arr [.obj [(py!"k", .str py!"x")], .obj [(py!"k", .str py!"y"), (py!"z", .num 50)]]),
     (py!"v", .arr [.str py!"5", .str py!"6"])])]


theorem jsonTree_reached : history jsonKids (freshKids jsonKids) jsonOps = jsonTree := by rfl
theorem jsonTree_written : ietfDump {} jsonKids jsonTree = .ok jsonDoc := by rfl

/-- Fresh text for a list of keys: longer than all of them. -/
def demoUuid (ks : List PyVal) : Str := List.replicate ((ks.map fun k => k.toStr.length).sum + 1) 'u'

theorem demoUuid_fresh : FreshUuid demoUuid := by
  have hle : ∀ (l : List Nat) x, x ∈ l → x ≤ l.sum := by
    intro l
    induction l with
    | nil => simp
    | cons a l ih =>
      intro x hx
      rcases List.mem_cons.1 hx with rfl | hx
      · simp
      · have := ih x hx; simp; omega
  intro ks k hk
  have h1 := hle (ks.map fun k => k.toStr.length) _ (List.mem_map.2 ⟨k, hk, rfl⟩)
  cases k with
  | str s =>
    simp only [pyEq, PyVal.num?, PyVal.norm]
    apply decide_eq_false
    intro e
    simp only [PyVal.str.injEq] at e
    have := congrArg List.length e
    simp only [demoUuid, List.length_replicate, PyVal.toStr] at this h1
    omega
  | obj o =>
    simp only [pyEq, PyVal.num?, PyVal.norm]
    cases o.num? <;> simp
  | _ => simp [pyEq, PyVal.num?, PyVal.norm]

def demoLoad : LoadOpt where
  repr := fun _ => []
  uuid := demoUuid

theorem val_u64 (n : Int) (h : 0 ≤ n ∧ n ≤ 18446744073709551615) : Value tU64 (.int n) :=
  .int py!"uint64" .uint64 [] 0 18446744073709551615 n (.inl rfl) rfl (builtin_legal .uint64) ⟨by intro _ h; simp at h, h⟩

theorem val_ten (n : Int) (h : 0 ≤ n ∧ n ≤ 10) : Value tTen (.int n) :=
  .int py!"int8" .int8 [[⟨.span (some 0) (some 10), 0, 0, 0, 0⟩]] (-128) 127 n (.inl rfl) rfl
    (by refine ⟨by simp, ?_, by simp, builtin_legal .int8⟩
        simp [RangePart.bounds, InType, Allowed, RangePart.Contains])
    ⟨by simp [InType, Allowed, RangePart.Contains, h], by omega, by omega⟩

theorem val_percent (n : Int) (h : 0 ≤ n ∧ n ≤ 100) : Value tPercent (.int n) :=
  .int py!"percent" .uint8 [[⟨.span (some 0) (some 100), 0, 0, 0, 0⟩]] 0 255 n (.inr (by decide)) rfl
    (by refine ⟨by simp, ?_, by simp, builtin_legal .uint8⟩
        simp [RangePart.bounds, InType, Allowed, RangePart.Contains])
    ⟨by simp [InType, Allowed, RangePart.Contains, h], by omega, by omega⟩

theorem jsonC_names : GoodNames jsonC := ⟨by decide, by decide⟩

theorem json_flat : FlatRoot jsonKids := by
  intro k hk
  simp only [jsonKids, List.mem_singleton] at hk
  subst hk
  simp [Choices, ChoicesKids, jsonC, jsonL, inM, choiceNames]

theorem json_values : EveryKids (ValuesReady noRx) jsonKids jsonTree := by
  simp only [jsonKids, jsonTree, jsonC, jsonL, EveryKids, Every, and_true, List.mem_cons, List.not_mem_nil, or_false,
    forall_eq_or_imp, forall_eq, Inst.kids]
  refine ⟨jsonC_names, ?_, ?_, ?_, ?_, ⟨?_, ?_⟩, ⟨?_, ⟨?_, ?_⟩, ?_, ?_⟩, ?_⟩
  · exact fun _ => .inl ⟨tU64, none, rfl, val_u64 _ (by decide), fun _ => rfl⟩
  · exact fun h => by simp at h
  · exact fun _ => .inl ⟨tIdent, none, rfl, .ident _ _ _ (.inl rfl) (by decide) (by decide) (by decide), fun _ => rfl⟩
  · exact fun _ => .inl ⟨tEmpty, none, rfl, .empty _ (.inl rfl), fun _ => rfl⟩
  · exact ⟨by decide, by decide⟩
  · exact fun _ => .inl ⟨tTen, none, rfl, val_ten _ (by decide), fun _ => rfl⟩
  · refine ⟨⟨by decide, by decide⟩, by decide, ?_, ?_, ?_⟩
    · intro i hi
      simp only [List.mem_singleton] at hi
      subst hi
      refine ⟨_, tStr, none, rfl, rfl, by simp [tStr], ?_⟩
      intro q hq
      simp only [List.mem_cons, List.not_mem_nil, or_false] at hq
      rcases hq with rfl | rfl
      · exact ⟨_, rfl, ⟨.str _ _ _ (.inl (.inl rfl)), fun _ => rfl⟩, by simp [tStr]⟩
      · exact ⟨_, rfl, ⟨.str _ _ _ (.inl (.inl rfl)), fun _ => rfl⟩, by simp [tStr]⟩
    · intro i hi
      simp only [List.cons.injEq, and_true] at hi
      subst hi
      exact ⟨by simp [valAt, Inst.kids], by simp [valAt, Inst.kids, pyEq, PyVal.num?, PyVal.norm]⟩
    · intro h; simp at h
  · exact fun _ => .inl ⟨tStr, none, rfl, .str _ _ _ (.inl (.inl rfl)), fun _ => rfl⟩
  · exact fun h => by simp at h
  · exact fun _ => .inl ⟨tStr, none, rfl, .str _ _ _ (.inl (.inl rfl)), fun _ => rfl⟩
  · exact fun _ => .inl ⟨tPercent, none, rfl, val_percent _ (by decide), fun _ => rfl⟩
  · refine fun _ => ⟨.inl ⟨tU64, true, _, rfl, ?_⟩, by decide⟩
    intro v hv
    simp only [List.mem_cons, List.not_mem_nil, or_false] at hv
    rcases hv with rfl | rfl
    · exact ⟨val_u64 _ (by decide), by simp [tU64], rfl⟩
    · exact ⟨val_u64 _ (by decide), by simp [tU64], rfl⟩

/-! ## C38: the IETF JSON round trip -/

/-- C38 for any tree that is in order (`JsonReady`): loading what was written into a new
object gives a tree with the same data.

Not covered: trees for which the conditions of `JsonReady` fail (see the refutations
below), other types of leaves, and choices with the name of a choice above them. -/
theorem C38_ietf_roundtrip_partial (rx : Str → Str → Bool) (g : LoadOpt) (hov : g.over = false) (hu : FreshUuid g.uuid)
    (kids : List (Meta × Schema)) (hf : ApartRoot kids) (hnames : GoodNames kids) (ns : List Inst)
    (h : EveryKids (JsonReady rx) kids ns) :
    ∃ j ns', ietfDump {} kids ns = .ok j ∧ ietfLoad g kids (freshKids kids) j = (ns', none) ∧ SameKids kids ns ns' :=
  ietf_roundtrip hov hu hf hnames (everyKids_imp (fun _ _ _ => ietfReady_of) h)

/-- C38 for what any history of operations leaves in a new binding: of the conditions
only those on the values, names and keys (`ValuesReady`) remain.  Here there must be no
choice within a case of another (`C32_nested_refuted`). -/
theorem C38_reachable_partial (rx : Str → Str → Bool) (g : LoadOpt) (hov : g.over = false) (hu : FreshUuid g.uuid)
    (kids : List (Meta × Schema)) (hf : FlatRoot kids) (hnames : GoodNames kids) (ops : List (Path × Op))
    (hops : ∀ x ∈ ops, Plain x.2) (h : EveryKids (ValuesReady rx) kids (history kids (freshKids kids) ops)) :
    ∃ j ns', ietfDump {} kids (history kids (freshKids kids) ops) = .ok j ∧
      ietfLoad g kids (freshKids kids) j = (ns', none) ∧ SameKids kids (history kids (freshKids kids) ops) ns' := by
  refine C38_ietf_roundtrip_partial rx g hov hu kids hf.apart hnames _ ?_
  rw [everyKids_iff] at h ⊢
  exact ⟨h.1, fun i k c hk hc => jsonReady_of _ _ _ (history_sound hf hops hk hc) (h.2 i k c hk hc)⟩

example : ∃ ns', ietfDump {} jsonKids (history jsonKids (freshKids jsonKids) jsonOps) = .ok jsonDoc ∧
    ietfLoad demoLoad jsonKids (freshKids jsonKids) jsonDoc = (ns', none) ∧
    SameKids jsonKids (history jsonKids (freshKids jsonKids) jsonOps) ns' := by
  obtain ⟨j, ns', h1, h2, h3⟩ := C38_reachable_partial noRx demoLoad rfl demoUuid_fresh jsonKids json_flat ⟨by decide, by decide⟩
    jsonOps (by simp [jsonOps, Plain]) (by rw [jsonTree_reached]; exact json_values)
  have e : j = jsonDoc := by
    rw [jsonTree_reached, jsonTree_written] at h1
    simpa using h1.symm
  subst e
  exact ⟨ns', by rw [jsonTree_reached]; exact jsonTree_written, h2, h3⟩

/-- A round trip that fails: operations on a new binding, after which the tree is written
as `j`, and loading `j` into a new object raises or gives different data. -/
def RoundTripFails (kids : List (Meta × Schema)) (ops : List (Path × Op)) (j : J) (ns' : List Inst) (e : Option Err) : Prop :=
  FlatRoot kids ∧ GoodNames kids ∧ (∀ x ∈ ops, Plain x.2) ∧
  ietfDump {} kids (history kids (freshKids kids) ops) = .ok j ∧
  ietfLoad demoLoad kids (freshKids kids) j = (ns', e) ∧
  (e ≠ none ∨ ¬ SameKids kids (history kids (freshKids kids) ops) ns')

def tU8 : YTy := .int py!"uint8" .uint8 []

def dupKids : List (Meta × Schema) := [(inM py!"v", .leafList (tU8.llCls noRx))]

/-- C38 fails for a leaf-list with the same value twice (`[5, "5"]`): the second one is
lost. -/
theorem C38_repeated_value_refuted :
    RoundTripFails dupKids [([.field 0], .ll (.append (.int 5))), ([.field 0], .ll (.append (.str py!"5")))]
      (.obj [(py!"m:v", .arr [.num 5, .num 5])]) [.leafList [.int 5] true] none := by
  refine ⟨by simp [ChoicesRoot, dupKids, Choices], ⟨by decide, by decide⟩, by simp [Plain], rfl, rfl, .inr ?_⟩
  intro h
  have : history dupKids (freshKids dupKids) [([.field 0], .ll (.append (.int 5))), ([.field 0], .ll (.append (.str py!"5")))] =
      [.leafList [.int 5, .int 5] true] := rfl
  rw [this] at h
  simp [dupKids, SameKids, SameData] at h

def emptyKids : List (Meta × Schema) := [(inM py!"e", .leaf (tEmpty.cls noRx))]

/-- C38 fails for a leaf of type `empty` set to `False`: it is written as `false`, which
is refused. -/
theorem C38_empty_false_refuted :
    RoundTripFails emptyKids [([.field 0], .set (.bool false) false)] (.obj [(py!"m:e", .bool false)])
      [.leaf (.bool false) false] (some .valueError) := by
  refine ⟨by simp [ChoicesRoot, emptyKids, Choices], ⟨by decide, by decide⟩, by simp [Plain], rfl, rfl, .inl (by simp)⟩

def numKids : List (Meta × Schema) := [(inM py!"l", .list { keys := [0] } [(inM py!"k", .leaf (tU8.cls noRx))])]

/-- C38 fails for a list that has two entries with the same key value (added as `5` and
as `"5"`): one is left. -/
theorem C38_same_key_refuted :
    RoundTripFails numKids [([.field 0], .add (.int 5)), ([.field 0], .add (.str py!"5"))]
      (.obj [(py!"m:l", .arr [.obj [(py!"k", .num 5)], .obj [(py!"k", .num 5)]])])
      [.list false [(.int 5, .cont true false [.leaf (.int 5) true])]] none := by
  refine ⟨by simp [ChoicesRoot, numKids, Choices, ChoicesKids, inM], ⟨by decide, by decide⟩, by simp [Plain], rfl, rfl, .inr ?_⟩
  intro h
  have : history numKids (freshKids numKids) [([.field 0], .add (.int 5)), ([.field 0], .add (.str py!"5"))] =
      [.list false [(.int 5, .cont true false [.leaf (.int 5) true]), (.str py!"5", .cont true false [.leaf (.int 5) true])]] := rfl
  rw [this] at h
  simp [numKids, SameKids, SameData] at h

def tColour : YTy := .ident py!"identityref" [(py!"red", py!"n"), (py!"n:red", py!"n")]

def idKids : List (Meta × Schema) := [(inM py!"l", .list { keys := [0] } [(inM py!"k", .leaf (tColour.cls noRx))])]

/-- C38 fails for a list whose key is an identity of another module: the prefix becomes
part of the key. -/
theorem C38_identity_key_refuted :
    RoundTripFails idKids [([.field 0], .add (.str py!"red"))] (.obj [(py!"m:l", .arr [.obj [(py!"k", .str py!"n:red")]])])
      [.list false [(.str py!"n:red", .cont true false [.leaf (.str py!"n:red") true])]] none := by
  refine ⟨by simp [ChoicesRoot, idKids, Choices, ChoicesKids, inM], ⟨by decide, by decide⟩, by simp [Plain], rfl, rfl, .inr ?_⟩
  intro h
  have : history idKids (freshKids idKids) [([.field 0], .add (.str py!"red"))] =
      [.list false [(.str py!"red", .cont true false [.leaf (.str py!"red") true])]] := rfl
  rw [this] at h
  simp only [idKids, SameKids, SameData] at h
  have := h.1.2 0 _ _ rfl rfl
  simp [Inst.kids, SameKids, SameData] at this

/-! ## C46: the encoding of values -/

theorem lookup_of_mem {ids : List (Str × Str)} {s : Str} (hs : s ∈ ids.map Prod.fst) : ∃ m, ids.lookup s = some m := by
  induction ids with
  | nil => simp at hs
  | cons q ids ih =>
    obtain ⟨a, b⟩ := q
    by_cases e : s = a
    · exact ⟨b, by simp [e]⟩
    · have : (s == a) = false := by simpa using e
      simp only [List.lookup_cons, this]
      exact ih (by simpa [e] using hs)

/-- C46: the value of a leaf is written as RFC 7951 says, and what is written is read as
the same value.

Missing: the types and values excluded by `EncodedWell` (refuted below), unions and
leafrefs. -/
theorem C46_encoding_partial (rx : Str → Str → Bool) (repr : J → Str) (mod : Str) (t : YTy) (d : Option PyVal) (v : PyVal)
    (h : Stored rx t v) (hw : EncodedWell t v) :
    ∃ j j', serLeaf true mod (t.cls rx d) v = .ok j ∧ Rfc7951 mod t v j ∧
      ietfVal (t.cls rx d).yangType j = .ok j' ∧ (t.cls rx d).set (jPy repr j') = .ok v := by
  obtain ⟨j, j', h1, _, _, h4, _, h6⟩ := leafBack_value (repr := repr) (mod := mod) (d := d) h
  refine ⟨j, j', h1, ?_, h4, h6⟩
  have hv := h.1
  rw [serLeaf_value hv] at h1
  simp only [Except.ok.injEq] at h1
  subst h1
  cases hv with
  | int name t chain lo hi n ha hb hl hn =>
    simp only [leafJ, EncodedWell] at hw ⊢
    by_cases ht : t ∈ [IntTy.int64, .uint64]
    · rw [if_pos]
      · exact .large _ _ _ _ ht
      · simp only [asText, decide_eq_true_eq]
        refine ⟨?_, hw ht⟩
        simp only [List.mem_cons, List.not_mem_nil, or_false] at ht
        rcases ht with rfl | rfl <;> rfl
    · rw [if_neg]
      · exact .small _ _ _ _ ht
      · simp only [asText, decide_eq_true_eq]
        intro hb
        cases t <;> simp [IntTy.bits] at hb ht
  | str name T s ha => exact .str _ _ _
  | ident name ids s ha hs hc hm =>
    simp only [leafJ, EncodedWell] at hw ⊢
    rw [if_pos hw.1, serIdentity]
    have hin : ∃ m, ids.lookup (PyVal.str s).toStr = some m := lookup_of_mem hs
    obtain ⟨m, hm'⟩ := hin
    simp only [hm']
    by_cases e : m = mod
    · subst e
      simp only [ne_eq, not_true, if_false]
      exact .identHere _ _ _ hm'
    · rw [if_pos e, if_pos]
      · have := Rfc7951.ident (mod := mod) name ids s m hm'
        simpa [PyVal.toStr] using this
      · have := hw.2 m hm'
        simp only [Bool.not_eq_true', startsWith]
        rw [Bool.eq_false_iff]
        simpa [List.isPrefixOf_iff_prefix] using this
  | bool name b ha => exact .bool _ _
  | empty name ha =>
    simp only [leafJ, EncodedWell] at hw ⊢
    rw [if_pos hw]
    exact .empty _
  | ext name x o ha hx =>
    cases hx with
    | dec fd k h1 h2 => exact .dec _ _ _ _ (decStr_text fd k hw) (decOfStr_decStr _)
    | bin b => exact .bin _ _
    | bits allowed ns => exact .bits _ _ _ _ (List.Perm.refl ns)

example : ∃ j j', serLeaf true py!"m" (tIdent.cls noRx) (.str py!"red") = .ok j ∧ Rfc7951 py!"m" tIdent (.str py!"red") j ∧
    ietfVal py!"identityref" j = .ok j' ∧ (tIdent.cls noRx).set (jPy (fun _ => []) j') = .ok (.str py!"red") :=
  C46_encoding_partial noRx (fun _ => []) py!"m" tIdent none _ ⟨.ident _ _ _ (.inl rfl) (by decide) (by decide) (by decide), fun _ => rfl⟩
    ⟨rfl, by decide⟩

/-- The encoding of RFC 7951 is unique for the types other than identityref. -/
theorem rfc7951_num {mod name : Str} {t : IntTy} {rs : List Str} {n m : Int} (ht : t ∈ [IntTy.int64, .uint64]) :
    ¬ Rfc7951 mod (.int name t rs) (.int n) (.num m) := by
  intro h
  cases h
  contradiction

/-- `typedef counter { type uint64 { range "0..max"; } }` -/
def tCounter : YTy := .int py!"counter" .uint64 [py!"0..max"]

/-- C46 fails for a typedef that restricts a 64-bit integer: it is written as a number. -/
theorem C46_restricted_typedef_refuted :
    serLeaf true py!"m" (tCounter.cls noRx) (.int 5) = .ok (.num 5) ∧ ¬ Rfc7951 py!"m" tCounter (.int 5) (.num 5) ∧
    (tCounter.cls noRx).set (.int 5) = .ok (.int 5) :=
  ⟨rfl, rfc7951_num (by decide), rfl⟩

/-- An identity `ospf-area` of module `ospf`. -/
def tArea : YTy := .ident py!"identityref" [(py!"ospf-area", py!"ospf")]

/-- C46 fails for an identity whose name starts with the name of its module: it is not
qualified. -/
theorem C46_identity_name_refuted :
    serLeaf true py!"m" (tArea.cls noRx) (.str py!"ospf-area") = .ok (.str py!"ospf-area") ∧
    ¬ Rfc7951 py!"m" tArea (.str py!"ospf-area") (.str py!"ospf-area") := by
  refine ⟨rfl, ?_⟩
  intro h
  generalize hj : (J.str py!"ospf-area") = j at h
  cases h with
  | ident _ _ _ m hl =>
    simp only [J.str.injEq] at hj
    have : m = py!"ospf" := by simpa [List.lookup] using hl.symm
    subst this
    simp at hj
  | identHere _ _ _ hl => simp [List.lookup] at hl

/-- `typedef colour { type identityref { ... } }` -/
def tColourDef : YTy := .ident py!"colour" [(py!"red", py!"n")]

/-- C46 fails for a typedef of an identityref: identities of other modules are not
qualified. -/
theorem C46_identity_typedef_refuted :
    serLeaf true py!"m" (tColourDef.cls noRx) (.str py!"red") = .ok (.str py!"red") ∧
    ¬ Rfc7951 py!"m" tColourDef (.str py!"red") (.str py!"red") := by
  refine ⟨rfl, ?_⟩
  intro h
  generalize hj : (J.str py!"red") = j at h
  cases h with
  | ident _ _ _ m hl =>
    simp only [J.str.injEq] at hj
    have : m = py!"n" := by simpa [List.lookup] using hl.symm
    subst this
    simp at hj
  | identHere _ _ _ hl => simp [List.lookup] at hl

/-- C46 fails for a typedef of `empty`: it is written as `true`. -/
theorem C46_empty_typedef_refuted :
    serLeaf true py!"m" ((YTy.empty py!"flag").cls noRx) (.bool true) = .ok (.bool true) ∧
    ¬ Rfc7951 py!"m" (.empty py!"flag") (.bool true) (.bool true) := by
  refine ⟨rfl, ?_⟩
  intro h
  cases h

/-- C46 fails for the values of a leaf-list of booleans: they are written as numbers. -/
theorem C46_boolean_leaflist_refuted :
    serElem true py!"m" (tBool.llCls noRx) (.bool true) = .ok (.num 1) ∧ ¬ Rfc7951 py!"m" tBool (.bool true) (.num 1) := by
  refine ⟨rfl, ?_⟩
  intro h
  cases h

/-- C46, decimal64: what is written is read as the same value, for every value with at
most 28 digits; and it has the lexical form of a decimal64 if it has at most six
fraction digits, or at most five zeros between the point and the first digit.

Missing: smaller values, which are written in scientific notation (see
`C46_decimal_exponent_refuted`). -/
theorem C46_decimal_partial (fd : Nat) (k : Int) (hk : k.natAbs < 10 ^ 28) :
    loadDecimal fd (decStr ⟨k, -fd⟩) = .ok ⟨k, -fd⟩ ∧
    ((fd ≤ 6 ∨ fd < 6 + (natStr k.natAbs).length) → DecimalText (decStr ⟨k, -fd⟩)) := by
  constructor
  · simp only [loadDecimal, decOfStr_decStr]
    have := C17_representable_unchanged_partial fd k hk 0
    simpa using this
  · intro hs
    exact decStr_text fd k hs

example : decStr ⟨-31415, -4⟩ = py!"-3.1415" := by decide

/-- C46 fails for `0.0000001`: it is written as `1E-7`. -/
theorem C46_decimal_exponent_refuted :
    setDecimal 7 none ⟨1, -7⟩ = .ok ⟨1, -7⟩ ∧ decStr ⟨1, -7⟩ = py!"1E-7" ∧ ¬ DecimalText (decStr ⟨1, -7⟩) := by
  refine ⟨by decide, by decide, ?_⟩
  have e : decStr ⟨1, -7⟩ = py!"1E-7" := by decide
  rw [e]
  rintro ⟨sg, ip, fp, hsg, hne, hip, hfp, h⟩
  have hE : 'E' ∈ py!"1E-7" := by decide
  have : ¬ ('0' ≤ 'E' ∧ 'E' ≤ '9') := by decide
  have hs : 'E' ∉ sg := by rcases hsg with rfl | rfl | rfl <;> decide
  rcases h with ⟨rfl, h⟩ | ⟨_, h⟩
  · rw [h] at hE
    rcases List.mem_append.1 hE with h | h
    · exact hs h
    · exact this (hip _ h)
  · rw [h] at hE
    rcases List.mem_append.1 hE with h | h
    · rcases List.mem_append.1 h with h | h
      · exact hs h
      · exact this (hip _ h)
    · rcases List.mem_cons.1 h with h | h
      · simp at h
      · exact this (hfp _ h)

end Pyb
