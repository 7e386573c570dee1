import Verif.Lemmas.NativeTypes
import Verif.Lemmas.NativeOrder
import Verif.Props.JsonDoc

/-! # Properties of native JSON (C39, C40) -/

namespace Pyb
open Py Spec

/-! ## C39: the native JSON round trip -/

/-- C39 for any tree that is in order (`NativeReady`): loading what was written into a new
object gives a tree with the same data.

Not covered: trees for which the conditions of `NativeReady` fail (see the refutations
below), and choices with the name of a choice above them. -/
theorem C39_native_roundtrip_partial (g : LoadOpt) (hov : g.over = false)
    (kids : List (Meta × Schema)) (hf : ApartRoot kids) (hnames : GoodNames kids) (ns : List Inst)
    (h : EveryKids (NativeReady g.repr) kids ns) :
    ∃ j ns', nativeDump kids ns = .ok j ∧ nativeLoad g kids (freshKids kids) j = (ns', none) ∧ SameKids kids ns ns' :=
  native_roundtrip hov hf hnames h

theorem history_native {rx : Str → Str → Bool} {repr : J → Str} {kids : List (Meta × Schema)} (hf : FlatRoot kids) {ops : List (Path × Op)}
    (hops : ∀ x ∈ ops, Plain x.2) (h : EveryKids (NativeValues rx) kids (history kids (freshKids kids) ops)) :
    EveryKids (NativeReady repr) kids (history kids (freshKids kids) ops) := by
  rw [everyKids_iff] at h ⊢
  exact ⟨h.1, fun i k c hk hc => nativeReady_of _ _ _ (history_sound hf hops hk hc) (h.2 i k c hk hc)⟩

/-- C39 for what any history of operations leaves in a new binding: of the conditions
only those on the values, names and keys (`NativeValues`) remain.  Here there must be no
choice within a case of another (`C32_nested_refuted`). -/
theorem C39_reachable_partial (rx : Str → Str → Bool) (g : LoadOpt) (hov : g.over = false)
    (kids : List (Meta × Schema)) (hf : FlatRoot kids) (hnames : GoodNames kids) (ops : List (Path × Op))
    (hops : ∀ x ∈ ops, Plain x.2) (h : EveryKids (NativeValues rx) kids (history kids (freshKids kids) ops)) :
    ∃ j ns', nativeDump kids (history kids (freshKids kids) ops) = .ok j ∧
      nativeLoad g kids (freshKids kids) j = (ns', none) ∧ SameKids kids (history kids (freshKids kids) ops) ns' :=
  C39_native_roundtrip_partial g hov kids hf.apart hnames _ (history_native hf hops h)

/-! The module and tree of `Props/Json`. -/

def jsonNative : J :=
  .obj [(py!"c", .obj
    [(py!"a", .num 18446744073709551615), (py!"i", .str py!"red"), (py!"e", .bool true),
     (py!"p", .obj [(py!"y", .num 7)]),
     (py!"l", .obj [(py!"x", .obj [(py!"k", .str py!"x")]), (py!"y", .obj [(py!"k", .str py!"y"), (py!"z", .num 50)])]),
     (py!"v", .arr [.num 5, .num 6])])]

theorem jsonNative_written : nativeDump jsonKids jsonTree = .ok jsonNative := rfl

theorem json_native_values : EveryKids (NativeValues noRx) jsonKids jsonTree := by
  simp only [jsonKids, jsonTree, jsonC, jsonL, EveryKids, Every, and_true, List.mem_cons, List.not_mem_nil, or_false,
    forall_eq_or_imp, forall_eq, Inst.kids]
  refine ⟨jsonC_names, ?_, ?_, ?_, ?_, ⟨?_, ?_⟩, ⟨?_, ⟨?_, ?_⟩, ?_, ?_⟩, ?_⟩
  · exact fun _ => .inl ⟨tU64, none, rfl, ⟨val_u64 _ (by decide), fun _ => rfl⟩, by simp [FitsFloat]⟩
  · exact fun h => by simp at h
  · exact fun _ => .inl ⟨tIdent, none, rfl, ⟨.ident _ _ _ (.inl rfl) (by decide) (by decide) (by decide), fun _ => rfl⟩, by simp [FitsFloat]⟩
  · exact fun _ => .inl ⟨tEmpty, none, rfl, ⟨.empty _ (.inl rfl), fun _ => rfl⟩, by simp [FitsFloat]⟩
  · exact ⟨by decide, by decide⟩
  · exact fun _ => .inl ⟨tTen, none, rfl, ⟨val_ten _ (by decide), fun _ => rfl⟩, by simp [FitsFloat]⟩
  · refine ⟨⟨by decide, by decide⟩, by simp, by simp, ?_, by simp [jsonKey]⟩
    intro q hq
    simp only [List.mem_cons, List.not_mem_nil, or_false] at hq
    have one : ∀ (p i : Nat), [0][p]? = some i → p = 0 ∧ i = 0 := by
      intro p i h
      cases p with
      | zero => simp at h; exact ⟨rfl, h.symm⟩
      | succ p => simp at h
    rcases hq with rfl | rfl
    · refine ⟨py!"x", rfl, by simp, rfl, ?_⟩
      intro p i hi
      obtain ⟨rfl, rfl⟩ := one p i hi
      exact ⟨_, tStr, none, _, _, rfl, rfl, rfl, rfl⟩
    · refine ⟨py!"y", rfl, by simp, rfl, ?_⟩
      intro p i hi
      obtain ⟨rfl, rfl⟩ := one p i hi
      exact ⟨_, tStr, none, _, _, rfl, rfl, rfl, rfl⟩
  · exact fun _ => .inl ⟨tStr, none, rfl, ⟨.str _ _ _ (.inl (.inl rfl)), fun _ => rfl⟩, by simp [FitsFloat]⟩
  · exact fun h => by simp at h
  · exact fun _ => .inl ⟨tStr, none, rfl, ⟨.str _ _ _ (.inl (.inl rfl)), fun _ => rfl⟩, by simp [FitsFloat]⟩
  · exact fun _ => .inl ⟨tPercent, none, rfl, ⟨val_percent _ (by decide), fun _ => rfl⟩, by simp [FitsFloat]⟩
  · refine fun _ => ⟨⟨.inl ⟨tU64, true, _, rfl, ?_⟩, by simp⟩, by decide⟩
    intro v hv
    simp only [List.mem_cons, List.not_mem_nil, or_false] at hv
    rcases hv with rfl | rfl
    · exact ⟨val_u64 _ (by decide), by simp [tU64], rfl⟩
    · exact ⟨val_u64 _ (by decide), by simp [tU64], rfl⟩

example : ∃ ns', nativeDump jsonKids (history jsonKids (freshKids jsonKids) jsonOps) = .ok jsonNative ∧
    nativeLoad demoLoad jsonKids (freshKids jsonKids) jsonNative = (ns', none) ∧
    SameKids jsonKids (history jsonKids (freshKids jsonKids) jsonOps) ns' := by
  obtain ⟨j, ns', h1, h2, h3⟩ := C39_reachable_partial noRx demoLoad rfl jsonKids json_flat ⟨by decide, by decide⟩
    jsonOps (by simp [jsonOps, Plain]) (by rw [jsonTree_reached]; exact json_native_values)
  have e : j = jsonNative := by
    rw [jsonTree_reached, jsonNative_written] at h1
    simpa using h1.symm
  subst e
  exact ⟨ns', by rw [jsonTree_reached]; exact jsonNative_written, h2, h3⟩

/-- A round trip that fails: operations on a new binding, after which the tree is written
as `j`, and loading `j` into a new object raises or gives different data. -/
def NativeTripFails (kids : List (Meta × Schema)) (ops : List (Path × Op)) (j : J) (ns' : List Inst) (e : Option Err) : Prop :=
  FlatRoot kids ∧ GoodNames kids ∧
  nativeDump kids (history kids (freshKids kids) ops) = .ok j ∧
  nativeLoad demoLoad kids (freshKids kids) j = (ns', e) ∧
  (e ≠ none ∨ ¬ SameKids kids (history kids (freshKids kids) ops) ns')

def bareKids : List (Meta × Schema) := [(inM py!"l", .list { keys := [] } [(inM py!"z", .leaf (tU8.cls noRx))])]

/-- C39 fails for a list without key that has an entry: loading raises `KeyError`. -/
theorem C39_keyless_list_refuted :
    NativeTripFails bareKids [([.field 0], .addAnon py!"w"), ([.field 0, .key (.str py!"w"), .field 0], .set (.int 3) false)]
      (.obj [(py!"l", .obj [(py!"w", .obj [(py!"z", .num 3)])])])
      [.list false [(.str py!"u", .cont false false [.leaf (.int 0) false])]] (some .keyError) := by
  refine ⟨by simp [ChoicesRoot, bareKids, Choices, ChoicesKids, inM, choiceNames], ⟨by decide, by decide⟩, rfl, rfl, .inl (by simp)⟩

def twoKeys : List (Meta × Schema) :=
  [(inM py!"l", .list { keys := [0, 1] } [(inM py!"k", .leaf (tStr.cls noRx)), (inM py!"j", .leaf (tStr.cls noRx))])]

/-- C39 fails for a list with two keys if a key value has a space in it: loading raises
`KeyError`. -/
theorem C39_space_in_key_refuted :
    NativeTripFails twoKeys [([.field 0], .addNamed [some (.str py!"a b"), some (.str py!"c")])]
      (.obj [(py!"l", .obj [(py!"a b c", .obj [(py!"k", .str py!"a b"), (py!"j", .str py!"c")])])])
      [.list false []] (some .keyError) := by
  refine ⟨by simp [ChoicesRoot, twoKeys, Choices, ChoicesKids, inM, choiceNames], ⟨by decide, by decide⟩, rfl, rfl, .inl (by simp)⟩

/-- C39 fails for a leaf-list with the same value twice (`[5, "5"]`): the second one is
lost. -/
theorem C39_repeated_value_refuted :
    NativeTripFails dupKids [([.field 0], .ll (.append (.int 5))), ([.field 0], .ll (.append (.str py!"5")))]
      (.obj [(py!"v", .arr [.num 5, .num 5])]) [.leafList [.int 5] true] none := by
  refine ⟨by simp [ChoicesRoot, dupKids, Choices], ⟨by decide, by decide⟩, rfl, rfl, .inr ?_⟩
  intro h
  have : history dupKids (freshKids dupKids) [([.field 0], .ll (.append (.int 5))), ([.field 0], .ll (.append (.str py!"5")))] =
      [.leafList [.int 5, .int 5] true] := rfl
  rw [this] at h
  simp [dupKids, SameKids, SameData] at h

/-! ## C40: user-ordered lists -/

/-- C40: what is written says the position of every entry of user-ordered lists, so it can
be loaded in any order of the members: the entries get their order back (`SameKids`
compares the entries one by one, in order).

Not covered: the same trees as in C39. -/
theorem C40_any_order_partial (g : LoadOpt) (hov : g.over = false)
    (kids : List (Meta × Schema)) (hf : ApartRoot kids) (hnames : GoodNames kids) (ns : List Inst)
    (h : EveryKids (NativeReady g.repr) kids ns) :
    ∃ j, nativeDump kids ns = .ok j ∧ ∀ j', Shuffled (.cont false kids) j j' →
      ∃ ns', nativeLoad g kids (freshKids kids) j' = (ns', none) ∧ SameKids kids ns ns' := by
  obtain ⟨j, ns', h1, h2, h3⟩ := C39_native_roundtrip_partial g hov kids hf hnames ns h
  refine ⟨j, h1, fun j' hs => ⟨ns', ?_, h3⟩⟩
  have hn : ¬ Unnumbered (.cont false kids) j := by
    cases hm : nativeKids kids ns with
    | error e => simp [nativeDump, hm, Except.map] at h1
    | ok ms =>
      simp only [nativeDump, hm, Except.map, Except.ok.injEq] at h1
      subst h1
      intro hu
      cases hu with
      | @member _ _ _ x k hx hc hu =>
        rw [everyKids_iff] at h
        obtain ⟨i, k', n, a, b, c, d⟩ := nKids_sub hm hx
        rw [c, childOf_self hnames a] at hc
        simp at hc; subst hc
        exact written_numbered k'.2 k'.1 n x.2 (h.2 i k' n a b) d hu
  rw [← (shuffled_load hs hn).root _ _ rfl]
  exact h2

/-- C40 for any document: documents in which the entries of user-ordered lists have
different positions are loaded in the same way, in whichever order the entries come. -/
theorem C40_order_irrelevant (g : LoadOpt) (kids : List (Meta × Schema)) (ns : List Inst) (j j' : J)
    (hn : ¬ Unnumbered (.cont false kids) j) (hs : Shuffled (.cont false kids) j j') :
    nativeLoad g kids ns j = nativeLoad g kids ns j' :=
  (shuffled_load hs hn).root _ _ rfl g ns

/-! The example: `list l { key "k"; ordered-by user; leaf k { type string; } leaf z { type
uint8; } list n { key "k"; ordered-by user; ... } }`. -/

def ordN : List (Meta × Schema) := [(inM py!"k", .leaf (tStr.cls noRx))]
def ordL : List (Meta × Schema) :=
  [(inM py!"k", .leaf (tStr.cls noRx)), (inM py!"n", .list { keys := [0], ordered := true } ordN)]
def ordKids : List (Meta × Schema) := [(inM py!"l", .list { keys := [0], ordered := true } ordL)]

def ordOps : List (Path × Op) :=
  [([.field 0], .add (.str py!"z")), ([.field 0], .add (.str py!"a")),
   ([.field 0, .key (.str py!"z"), .field 1], .add (.str py!"q")),
   ([.field 0, .key (.str py!"z"), .field 1], .add (.str py!"p"))]

def ordTree : List Inst :=
  [.list false
    [(.str py!"z", .cont true false [.leaf (.str py!"z") true, .list false
        [(.str py!"q", .cont true false [.leaf (.str py!"q") true]), (.str py!"p", .cont true false [.leaf (.str py!"p") true])]]),
     (.str py!"a", .cont true false [.leaf (.str py!"a") true, .list false []])]]

theorem ordTree_reached : history ordKids (freshKids ordKids) ordOps = ordTree := rfl

/-- The same entries as written, in another order. -/
def ordDoc : J :=
  .obj [(py!"l", .obj
    [(py!"a", .obj [(py!"k", .str py!"a"), (py!"__yang_order", .num 1)]),
     (py!"z", .obj [(py!"k", .str py!"z"), (py!"n", .obj
        [(py!"p", .obj [(py!"k", .str py!"p"), (py!"__yang_order", .num 1)]),
         (py!"q", .obj [(py!"k", .str py!"q"), (py!"__yang_order", .num 0)])]), (py!"__yang_order", .num 0)])])]

def ordWritten : J :=
  .obj [(py!"l", .obj
    [(py!"z", .obj [(py!"k", .str py!"z"), (py!"n", .obj
        [(py!"q", .obj [(py!"k", .str py!"q"), (py!"__yang_order", .num 0)]),
         (py!"p", .obj [(py!"k", .str py!"p"), (py!"__yang_order", .num 1)])]), (py!"__yang_order", .num 0)]),
     (py!"a", .obj [(py!"k", .str py!"a"), (py!"__yang_order", .num 1)])])]

theorem ordTree_written : nativeDump ordKids ordTree = .ok ordWritten := rfl

theorem ord_flat : FlatRoot ordKids := by simp [ChoicesRoot, ordKids, ordL, ordN, Choices, ChoicesKids, inM, choiceNames]

theorem keyHeld_one {kids : List (Meta × Schema)} {o : Bool} {s : Str} {e : List Inst} {m : Meta} (hs : s ≠ [])
    (hk : kids[0]? = some (m, .leaf (tStr.cls noRx))) (he : e[0]? = some (.leaf (.str s) true)) :
    KeyHeld noRx { keys := [0], ordered := o } kids (.str s) e := by
  refine ⟨s, rfl, hs, rfl, ?_⟩
  intro p i hi
  cases p with
  | zero => simp at hi; subst hi; exact ⟨m, tStr, none, .str s, s, hk, he, rfl, rfl⟩
  | succ p => simp at hi

theorem ord_values : EveryKids (NativeValues noRx) ordKids ordTree := by
  have str : ∀ s ch, ch = true → NativeHolds noRx (tStr.cls noRx) (.str s) :=
    fun s ch _ => .inl ⟨tStr, none, rfl, ⟨.str _ _ _ (.inl (.inl rfl)), fun _ => rfl⟩, by simp [FitsFloat]⟩
  simp only [ordKids, ordTree, ordL, ordN, EveryKids, Every, and_true, List.mem_cons, List.not_mem_nil, or_false,
    forall_eq_or_imp, forall_eq, Inst.kids]
  refine ⟨⟨⟨by decide, by decide⟩, by simp [inM], by simp, ?_, by simp [jsonKey]⟩, ⟨str _ _, ⟨⟨by decide, by decide⟩, by simp [inM], by simp, ?_, by simp [jsonKey]⟩, str _ _, str _ _⟩,
    str _ _, ⟨⟨by decide, by decide⟩, by simp [inM], by simp, by simp, by simp⟩, by simp⟩
  · intro q hq
    simp only [List.mem_cons, List.not_mem_nil, or_false] at hq
    rcases hq with rfl | rfl <;> exact keyHeld_one (by simp) rfl rfl
  · intro q hq
    simp only [List.mem_cons, List.not_mem_nil, or_false] at hq
    rcases hq with rfl | rfl <;> exact keyHeld_one (by simp) rfl rfl

example : ∃ ns', nativeLoad demoLoad ordKids (freshKids ordKids) ordDoc = (ns', none) ∧ SameKids ordKids ordTree ns' := by
  have hr := history_native (repr := demoLoad.repr) ord_flat (ops := ordOps) (by simp [ordOps, Plain]) (by rw [ordTree_reached]; exact ord_values)
  rw [ordTree_reached] at hr
  obtain ⟨j, h1, h2⟩ := C40_any_order_partial demoLoad rfl ordKids ord_flat.apart ⟨by decide, by decide⟩ ordTree hr
  have e := h1.symm.trans ordTree_written
  simp only [Except.ok.injEq] at e
  subst e
  refine h2 _ (.member (pre := []) (post := []) (k := (inM py!"l", .list { keys := [0], ordered := true } ordL)) (by decide) rfl ?_)
  refine .trans (.entries rfl (List.Perm.swap _ _ _)) (.entry (pre := [_]) (post := []) ?_)
  exact .member (pre := [_]) (post := [_]) (k := (inM py!"n", .list { keys := [0], ordered := true } ordN)) (by decide) rfl
    (.entries rfl (List.Perm.swap _ _ _))

/-- C40 fails for documents without positions: the entries end up in the reverse order. -/
theorem C40_no_position_refuted :
    nativeLoad demoLoad ordKids (freshKids ordKids)
      (.obj [(py!"l", .obj [(py!"a", .obj [(py!"k", .str py!"a")]), (py!"b", .obj [(py!"k", .str py!"b")])])]) =
    ([.list false
      [(.str py!"b", .cont true false [.leaf (.str py!"b") true, .list false []]),
       (.str py!"a", .cont true false [.leaf (.str py!"a") true, .list false []])]], none) := rfl

/-- If two entries have the same position, one is dropped without an error. -/
theorem C40_same_position_refuted :
    nativeLoad demoLoad ordKids (freshKids ordKids)
      (.obj [(py!"l", .obj [(py!"a", .obj [(py!"k", .str py!"a"), (py!"__yang_order", .num 0)]),
        (py!"b", .obj [(py!"k", .str py!"b"), (py!"__yang_order", .num 0)])])]) =
    ([.list false [(.str py!"b", .cont true false [.leaf (.str py!"b") true, .list false []])]], none) := rfl

end Pyb
