import Verif.Lemmas.Save
import Verif.Props.Gen
import Verif.Props.JsonText
import Verif.Props.SessionKeys

/-! # C99: what a program does to a binding can be saved and restored

From the statements of a YANG module to a file and back: the classes are those generated for the
module, the data is what any sequence of API calls and documents leaves in a new binding, and the
conditions are on the module and on the data, not on objects of the library. -/

namespace Pyb
open Py Spec

/-- C99: let `f` be the statements of a supported module, and let a program use its binding in any
proper way.  If the data is kept apart (see `Kept`), `dumps(..., mode="ietf")` succeeds, and loading
the document into a new binding gives the same data. -/
theorem C99_ietf_partial (rx : Str → Str → Bool) (g : LoadOpt) (hov : g.over = false) (hu : FreshUuid g.uuid) (genPres : Bool)
    (f : List YNode) (H : Supported f) (acts : List Act) (hp : Proper (genModule genPres f) acts)
    (h : EveryKids (Kept rx) (genModule genPres f) (session (genModule genPres f) (freshKids (genModule genPres f)) acts)) :
    ∃ j ns', ietfDump {} (genModule genPres f) (session (genModule genPres f) (freshKids (genModule genPres f)) acts) = .ok j ∧
      ietfLoad g (genModule genPres f) (freshKids (genModule genPres f)) j = (ns', none) ∧
      SameKids (genModule genPres f) (session (genModule genPres f) (freshKids (genModule genPres f)) acts) ns' :=
  C38_session_partial rx g hov hu _ (genModule_flat genPres f H.nesting H.shadow) (genModule_keyed (supported_keys H))
    (gen_good H (.inl rfl)) acts (fun p op h => (hp.1 p op h).1) (session_ready H hp h)

/-- C99 with files: `dump` to a file, whatever was in it, then `load_ietf` of it. -/
theorem C99_file_partial (fl : Int × Int → Str) (rf : Str → Option (Int × Int)) (ind : Option Nat) (before : Option Str)
    (rx : Str → Str → Bool) (g : LoadOpt) (hov : g.over = false) (hu : FreshUuid g.uuid) (genPres : Bool)
    (f : List YNode) (H : Supported f) (acts : List Act) (hp : Proper (genModule genPres f) acts)
    (h : EveryKids (Kept rx) (genModule genPres f) (session (genModule genPres f) (freshKids (genModule genPres f)) acts)) :
    ∃ steps ns', dumpSteps true ((ietfDump {} (genModule genPres f) (session (genModule genPres f) (freshKids (genModule genPres f)) acts)).map
        (jsonText ind fl 0)) = (steps, none) ∧
      (loadDoc rf (fileAfter before steps)).map (ietfLoad g (genModule genPres f) (freshKids (genModule genPres f))) = .ok (ns', none) ∧
      SameKids (genModule genPres f) (session (genModule genPres f) (freshKids (genModule genPres f)) acts) ns' := by
  obtain ⟨j, ns', h1, h2, h3⟩ := C99_ietf_partial rx g hov hu genPres f H acts hp h
  obtain ⟨hj, hm, hfl⟩ := C95_names_partial fl rf {} (genModule genPres f) _ j (gen_good H (.inl rfl))
    (everyKids_imp (fun _ _ _ => values_named) (session_ready H hp h)) h1
  refine ⟨FileStep.truncate :: (jsonText ind fl 0 j).map FileStep.put, ns', ?_, ?_, h3⟩
  · rw [h1]
    rfl
  · rw [show (FileStep.truncate :: (jsonText ind fl 0 j).map FileStep.put) = (dumpSteps true (.ok (jsonText ind fl 0 j))).1 from rfl,
      (C95_file_partial fl rf ind j before hj hm hfl).2, ← h2]
    rfl

/-- C99 for modules of leaves of safe types in containers and choices: nothing is asked of the
data.  Whatever values a program gives to the leaves, in whatever order and from whatever
documents, the binding can be saved and restored. -/
theorem C99_leaves_partial (fl : Int × Int → Str) (rf : Str → Option (Int × Int)) (ind : Option Nat) (before : Option Str)
    (rx : Str → Str → Bool) (g : LoadOpt) (hov : g.over = false) (hu : FreshUuid g.uuid) (genPres : Bool)
    (f : List YNode) (H : Supported f) (hl : SafeLeaves rx f) (acts : List Act) (hp : Proper (genModule genPres f) acts) :
    ∃ steps ns', dumpSteps true ((ietfDump {} (genModule genPres f) (session (genModule genPres f) (freshKids (genModule genPres f)) acts)).map
        (jsonText ind fl 0)) = (steps, none) ∧
      (loadDoc rf (fileAfter before steps)).map (ietfLoad g (genModule genPres f) (freshKids (genModule genPres f))) = .ok (ns', none) ∧
      SameKids (genModule genPres f) (session (genModule genPres f) (freshKids (genModule genPres f)) acts) ns' :=
  C99_file_partial fl rf ind before rx g hov hu genPres f H acts hp (session_leaves H hl acts)

/-! ## Integers, whatever they are assigned -/

/-- C12 for integer types with ranges that contain zero: whatever Python value is assigned, if the
assignment does not raise, the leaf holds an integer, in all ranges of the type. -/
theorem C12_any_value_partial (rx : Str → Str → Bool) (name : Str) (t : IntTy) (chain : List (List WrittenPart)) (lo hi : Int)
    (hb : builtinBounds t.name = some (lo, hi)) (hl : LegalChain (chain ++ [[⟨.span (some lo) (some hi), 0, 0, 0, 0⟩]]))
    (h0 : InType chain 0) (d : Option PyVal) (x v : PyVal) (h : ((YTy.int name t (chain.map rangeText)).cls rx d).set x = .ok v) :
    ∃ n, v = .int n ∧ InType chain n ∧ lo ≤ n ∧ n ≤ hi := by
  have h' : (towerOf (chain ++ [[⟨.span (some lo) (some hi), 0, 0, 0, 0⟩]])).build rx x = .ok v := by
    rw [← int_tower hb]; exact h
  obtain ⟨n, rfl, hn⟩ := tower_build hl (inType_append ⟨h0, builtin_zero hb⟩) h'
  exact ⟨n, rfl, inType_split hn⟩

/-- `None`, a float and a text, for `range "0..100"`. -/
example : (tPercent.cls noRx).set .none = .ok (.int 0) ∧ (tPercent.cls noRx).set (.str py!" 42 ") = .ok (.int 42) ∧
    (tPercent.cls noRx).set (.bool true) = .ok (.int 1) := ⟨rfl, rfl, rfl⟩

/-! ## Modules that meet the hypotheses -/

def inModule (n : Str) : Src := { name := n, ns := py!"urn:m", module_ := py!"m" }

def tState : YTy := .str py!"enumeration" (enumTy [py!"up", py!"down"])

theorem safe_percent : SafeTy tPercent :=
  .int py!"percent" .uint8 [[⟨.span (some 0) (some 100), 0, 0, 0, 0⟩]] 0 255 (.inr (by decide)) rfl
    (by refine ⟨by simp, ?_, by simp, builtin_legal .uint8⟩
        simp [RangePart.bounds, InType, Allowed, RangePart.Contains])
    (by simp [InType, Allowed, RangePart.Contains])

theorem safe_str : SafeTy tStr := .str _ (.inl rfl)
theorem safe_bool : SafeTy tBool := .bool _ (.inl rfl)
theorem safe_state : SafeTy tState := .enum _ _ (.inl rfl) (by decide)

/-- `container c { leaf p; leaf s; choice ch { case one { leaf a; } case two { container d { presence; leaf b; } } } }` -/
def saveLeaves : List YNode :=
  [.cont (inModule py!"c") false
    [.leaf (inModule py!"p") (tPercent.cls noRx), .leaf (inModule py!"s") (tState.cls noRx),
     .choice py!"ch"
      [.case py!"one" [.leaf (inModule py!"a") (tStr.cls noRx)],
       .case py!"two" [.cont (inModule py!"d") true [.leaf (inModule py!"b") (tBool.cls noRx)]]]]]

theorem saveLeaves_supported : Supported saveLeaves := supported_of (by decide)

theorem saveLeaves_safe : SafeLeaves noRx saveLeaves := by
  intro d hd
  have := allL_of hd
  simp [saveLeaves, allL, allB] at this
  rcases this with rfl | rfl | rfl | rfl | rfl | rfl | rfl | rfl | rfl
  all_goals first | trivial | exact ⟨_, _, rfl, safe_percent⟩ | exact ⟨_, _, rfl, safe_state⟩ | exact ⟨_, _, rfl, safe_str⟩ | exact ⟨_, _, rfl, safe_bool⟩

/-- Values of all sorts, refused ones among them, in both cases of the choice. -/
def leafActs (x y z w : PyVal) : List Act :=
  [.api [.field 0, .field 0] (.set x false), .api [.field 0, .field 1] (.set y false), .api [.field 0, .field 2] (.set z false),
   .ietf demoLoad (.obj [(py!"m:c", .obj [(py!"p", .num 300), (py!"s", .str py!"down")])]),
   .api [.field 0, .field 3, .field 0] (.set w false)]

/-- The hypotheses are met for any values. -/
theorem leafActs_proper (x y z w : PyVal) : Proper (genModule true saveLeaves) (leafActs x y z w) := by
  refine ⟨fun p op h => ?_, by simp [leafActs]⟩
  simp only [leafActs, List.mem_cons, reduceCtorEq, Act.api.injEq, false_or, List.not_mem_nil, or_false] at h
  rcases h with ⟨rfl, rfl⟩ | ⟨rfl, rfl⟩ | ⟨rfl, rfl⟩ | ⟨rfl, rfl⟩ <;>
    exact ⟨⟨by simp, by simp⟩, fun q k j info lk hp hq hj => ⟨by simp, by simp⟩⟩

example (x y z w : PyVal) (before : Option Str) : ∃ steps ns',
    dumpSteps true ((ietfDump {} (genModule true saveLeaves) (session (genModule true saveLeaves) (freshKids (genModule true saveLeaves)) (leafActs x y z w))).map
      (jsonText none noFl 0)) = (steps, none) ∧
    (loadDoc noRf (fileAfter before steps)).map (ietfLoad demoLoad (genModule true saveLeaves) (freshKids (genModule true saveLeaves))) = .ok (ns', none) ∧
    SameKids (genModule true saveLeaves) (session (genModule true saveLeaves) (freshKids (genModule true saveLeaves)) (leafActs x y z w)) ns' :=
  C99_leaves_partial noFl noRf none before noRx demoLoad rfl demoUuid_fresh true saveLeaves saveLeaves_supported saveLeaves_safe _ (leafActs_proper x y z w)

/-- What such a program leaves. -/
example : session (genModule true saveLeaves) (freshKids (genModule true saveLeaves)) (leafActs (.str py!"42") (.str py!"up") (.int 3) (.str py!"true")) =
    [.cont true false [.leaf (.int 42) true, .leaf (.str py!"up") true, .leaf (.str []) false, .cont true true [.leaf (.bool true) true]]] := by rfl

/-- The same with a leaf-list, and a list in a list; the keys are of a safe type and of an
identityref. -/
def saveLists : List YNode :=
  [.cont (inModule py!"c") false
    [.leafList (inModule py!"n") (tPercent.llCls noRx),
     .list (inModule py!"l") [py!"k"] false
      [.leaf (inModule py!"z") (tBool.cls noRx), .leaf (inModule py!"k") (tStr.cls noRx),
       .list (inModule py!"r") [py!"j", py!"i"] true [.leaf (inModule py!"i") (tPercent.cls noRx), .leaf (inModule py!"j") (tState.cls noRx)]]]]

theorem saveLists_supported : Supported saveLists := supported_of (by decide)

def listActs : List Act :=
  [.api [.field 0, .field 0] (.ll (.append (.str py!"7"))), .api [.field 0, .field 0] (.ll (.append (.int 9))),
   .ietf demoLoad (.obj [(py!"m:c", .obj [(py!"l", .arr [.obj [(py!"k", .str py!"x y"), (py!"z", .bool true)]])])]),
   .api [.field 0, .field 1] (.add (.int 5)),
   .api [.field 0, .field 1, .key (.int 5), .field 2] (.add (.str py!"up 30")),
   .api [.field 0, .field 1, .key (.int 5), .field 2] (.add (.str py!"down 30"))]

theorem listActs_after : session (genModule false saveLists) (freshKids (genModule false saveLists)) listActs =
    [.cont true false [.leafList [.int 7, .int 9] true, .list false
      [(.str py!"x y", .cont true false [.leaf (.bool true) true, .leaf (.str py!"x y") true, .list false []]),
       (.int 5, .cont true false [.leaf (.bool false) false, .leaf (.str py!"5") true, .list false
         [(.str py!"up 30", .cont true false [.leaf (.int 30) true, .leaf (.str py!"up") true]),
          (.str py!"down 30", .cont true false [.leaf (.int 30) true, .leaf (.str py!"down") true])]])]]] := by rfl

theorem listActs_proper : Proper (genModule false saveLists) listActs := by
  refine ⟨fun p op h => ?_, by simp [listActs]⟩
  simp only [listActs, List.mem_cons, reduceCtorEq, Act.api.injEq, false_or, List.not_mem_nil, or_false] at h
  rcases h with ⟨rfl, rfl⟩ | ⟨rfl, rfl⟩ | ⟨rfl, rfl⟩ | ⟨rfl, rfl⟩ | ⟨rfl, rfl⟩ <;>
    exact ⟨⟨by simp, by simp⟩, fun q k j info lk hp hq hj => ⟨by simp, by simp⟩⟩

theorem listActs_kept : EveryKids (Kept noRx) (genModule false saveLists) (session (genModule false saveLists) (freshKids (genModule false saveLists)) listActs) := by
  rw [listActs_after]
  have hp : ∃ t u tx, tPercent.llCls noRx = YTy.llCls noRx t u tx ∧ SafeTy t := ⟨_, _, _, rfl, safe_percent⟩
  have rows : ∀ i ∈ [1, 0], ∃ mi t d, (genNodes false none [.leaf (inModule py!"i") (tPercent.cls noRx), .leaf (inModule py!"j") (tState.cls noRx)])[i]? =
      some (mi, .leaf (YTy.cls noRx t d)) ∧ SafeTy t := by
    intro i hi
    simp at hi
    rcases hi with rfl | rfl
    · exact ⟨_, _, _, rfl, safe_state⟩
    · exact ⟨_, _, _, rfl, safe_percent⟩
  have ls : ∀ {L : LeafCls} {v ch} {m : Meta} {t d}, L = YTy.cls noRx t d → SafeTy t → Every (Kept noRx) m (.leaf L) (.leaf v ch) :=
    fun h1 h2 _ => .inl ⟨_, _, h1, h2⟩
  refine ⟨⟨trivial, ?_, ?_, trivial⟩, trivial⟩
  · exact fun _ => ⟨.inl hp, by decide⟩
  · refine ⟨⟨?_, ?_, ?_⟩, ?_⟩
    · intro i hi
      have hi : i ∈ [1] := hi
      simp at hi
      subst hi
      exact .inl ⟨_, _, _, rfl, safe_str⟩
    · intro i hi
      have : i = 1 := by
        have : [1] = [i] := hi
        simpa using this.symm
      subst this
      exact ⟨by decide, by decide⟩
    · intro h; exact absurd h (by decide)
    · intro q hq
      simp only [List.mem_cons, List.not_mem_nil, or_false] at hq
      rcases hq with rfl | rfl
      · refine ⟨ls rfl safe_bool, ls rfl safe_str, ⟨⟨fun i hi => .inl (rows i hi), fun i hi => absurd (congrArg List.length hi) (show ¬ (2 : Nat) = 1 by decide), fun _ => ⟨by simp, by simp⟩⟩, by simp⟩, trivial⟩
      · refine ⟨ls rfl safe_bool, ls rfl safe_str, ⟨⟨fun i hi => .inl (rows i hi), fun i hi => absurd (congrArg List.length hi) (show ¬ (2 : Nat) = 1 by decide), fun _ => ⟨?_, by decide⟩⟩, ?_⟩, trivial⟩
        · intro q hq
          simp only [List.mem_cons, List.not_mem_nil, or_false] at hq
          rcases hq with rfl | rfl <;> exact ⟨['3'], '0', rfl, by decide⟩
        · intro q hq
          simp only [List.mem_cons, List.not_mem_nil, or_false] at hq
          rcases hq with rfl | rfl <;> exact ⟨ls rfl safe_percent, ls rfl safe_state, trivial⟩

example (before : Option Str) : ∃ steps ns',
    dumpSteps true ((ietfDump {} (genModule false saveLists) (session (genModule false saveLists) (freshKids (genModule false saveLists)) listActs)).map
      (jsonText (some 4) noFl 0)) = (steps, none) ∧
    (loadDoc noRf (fileAfter before steps)).map (ietfLoad demoLoad (genModule false saveLists) (freshKids (genModule false saveLists))) = .ok (ns', none) ∧
    SameKids (genModule false saveLists) (session (genModule false saveLists) (freshKids (genModule false saveLists)) listActs) ns' :=
  C99_file_partial noFl noRf (some 4) before noRx demoLoad rfl demoUuid_fresh false saveLists saveLists_supported _ listActs_proper listActs_kept

/-! ## What cannot be saved -/

/-- C99 fails for a leaf whose range leaves out zero: `None` is stored as zero, which is written, and
then refused. -/
theorem C99_range_refuted : ∃ f acts j e, Supported f ∧ Proper (genModule false f) acts ∧
    ietfDump {} (genModule false f) (session (genModule false f) (freshKids (genModule false f)) acts) = .ok j ∧
    (ietfLoad demoLoad (genModule false f) (freshKids (genModule false f)) j).2 = some e := by
  refine ⟨[.leaf (inModule py!"v") ((YTy.int py!"uint8" .uint8 [py!"1..10"]).cls noRx)], [.api [.field 0] (.set .none false)], _, _,
    supported_of (by decide), ⟨fun p op h => ?_, by simp⟩, rfl, rfl⟩
  simp at h
  obtain ⟨rfl, rfl⟩ := h
  exact ⟨⟨by simp, by simp⟩, fun q k j info lk hp hq hj => ⟨by simp, by simp⟩⟩

/-- C99 fails for two entries with one key, added as number and as text: one entry is restored. -/
theorem C99_keys_refuted : ∃ f acts j es es', Supported f ∧ Proper (genModule false f) acts ∧
    session (genModule false f) (freshKids (genModule false f)) acts = [.list false es] ∧ es.length = 2 ∧
    ietfDump {} (genModule false f) (session (genModule false f) (freshKids (genModule false f)) acts) = .ok j ∧
    ietfLoad demoLoad (genModule false f) (freshKids (genModule false f)) j = ([.list false es'], none) ∧ es'.length = 1 := by
  refine ⟨[.list (inModule py!"l") [py!"k"] false [.leaf (inModule py!"k") (tPercent.cls noRx)]],
    [.api [.field 0] (.add (.int 7)), .api [.field 0] (.add (.str py!"7"))], _, _, _,
    supported_of (by decide), ⟨fun p op h => ?_, by simp⟩, rfl, rfl, rfl, rfl, rfl⟩
  simp at h
  rcases h with ⟨rfl, rfl⟩ | ⟨rfl, rfl⟩ <;> exact ⟨⟨by simp, by simp⟩, fun q k j info lk hp hq hj => ⟨by simp, by simp⟩⟩

end Pyb
