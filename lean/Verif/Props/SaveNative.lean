import Verif.Lemmas.SaveNative
import Verif.Props.Save

/-! # C99 for the default JSON encoding -/

namespace Pyb
open Py Spec

/-- C95: the floats of a document in the default encoding are those of the decimals in the tree. -/
theorem C95_floats_partial (fl : Int × Int → Str) (rf : Str → Option (Int × Int)) (kids : List (Meta × Schema)) (ns : List Inst) (j : J)
    (hn : EveryKids (DecimalsBack fl rf) kids ns) (h : nativeDump kids ns = .ok j) : FloatsBack fl rf j :=
  nativeDump_floats hn h

/-- C99 for the default encoding: what any program leaves in the binding of a supported module,
written by `dumps` and loaded into a new binding, comes back.  The program may use documents of both
encodings. -/
theorem C99_native_partial (rx : Str → Str → Bool) (g : LoadOpt) (hov : g.over = false) (genPres : Bool) (f : List YNode) (H : Supported f)
    (acts : List Act) (hp : ∀ p op, Act.api p op ∈ acts → Plain op)
    (h : EveryKids (NKept rx) (genModule genPres f) (session (genModule genPres f) (freshKids (genModule genPres f)) acts)) :
    ∃ j ns', nativeDump (genModule genPres f) (session (genModule genPres f) (freshKids (genModule genPres f)) acts) = .ok j ∧
      nativeLoad g (genModule genPres f) (freshKids (genModule genPres f)) j = (ns', none) ∧
      SameKids (genModule genPres f) (session (genModule genPres f) (freshKids (genModule genPres f)) acts) ns' :=
  C39_session_partial rx g hov _ (genModule_flat genPres f H.nesting H.shadow) (genModule_keyed (supported_keys H)) (gen_good H (.inl rfl)) acts hp
    (session_nready H h)

/-- The same with files: `dump` to a file, whatever was in it, then `load` of it; Python reads the
decimals as it writes them. -/
theorem C99_native_file_partial (fl : Int × Int → Str) (rf : Str → Option (Int × Int)) (ind : Option Nat) (before : Option Str)
    (rx : Str → Str → Bool) (g : LoadOpt) (hov : g.over = false) (genPres : Bool) (f : List YNode) (H : Supported f)
    (acts : List Act) (hp : ∀ p op, Act.api p op ∈ acts → Plain op)
    (h : EveryKids (NKept rx) (genModule genPres f) (session (genModule genPres f) (freshKids (genModule genPres f)) acts))
    (hd : EveryKids (DecimalsBack fl rf) (genModule genPres f) (session (genModule genPres f) (freshKids (genModule genPres f)) acts)) :
    ∃ steps ns', dumpSteps true ((nativeDump (genModule genPres f) (session (genModule genPres f) (freshKids (genModule genPres f)) acts)).map
        (jsonText ind fl 0)) = (steps, none) ∧
      (loadDoc rf (fileAfter before steps)).map (nativeLoad g (genModule genPres f) (freshKids (genModule genPres f))) = .ok (ns', none) ∧
      SameKids (genModule genPres f) (session (genModule genPres f) (freshKids (genModule genPres f)) acts) ns' := by
  obtain ⟨j, ns', h1, h2, h3⟩ := C99_native_partial rx g hov genPres f H acts hp h
  have hr : EveryKids (NativeReady g.repr) (genModule genPres f) (session (genModule genPres f) (freshKids (genModule genPres f)) acts) := by
    have := session_nready H h
    rw [everyKids_iff] at this ⊢
    exact ⟨this.1, fun i k c hk hc => nativeReady_of _ _ _
      (session_sound (genModule_flat genPres f H.nesting H.shadow) (genModule_keyed (supported_keys H)) hp hk hc) (this.2 i k c hk hc)⟩
  obtain ⟨hj, hm⟩ := C95_native_names_partial _ _ j (gen_good H (.inl rfl)) (everyKids_imp (fun _ _ _ => native_named) hr) h1
  refine ⟨FileStep.truncate :: (jsonText ind fl 0 j).map FileStep.put, ns', ?_, ?_, h3⟩
  · rw [h1]
    rfl
  · rw [show (FileStep.truncate :: (jsonText ind fl 0 j).map FileStep.put) = (dumpSteps true (.ok (jsonText ind fl 0 j))).1 from rfl,
      (C95_file_partial fl rf ind j before hj hm (nativeDump_floats hd h1)).2, ← h2]
    rfl

/-- C99 for the default encoding and modules of leaves of safe types: nothing is asked of the data. -/
theorem C99_native_leaves_partial (fl : Int × Int → Str) (rf : Str → Option (Int × Int)) (ind : Option Nat) (before : Option Str)
    (rx : Str → Str → Bool) (g : LoadOpt) (hov : g.over = false) (genPres : Bool) (f : List YNode) (H : Supported f) (hl : SafeLeaves rx f)
    (acts : List Act) (hp : ∀ p op, Act.api p op ∈ acts → Plain op) :
    ∃ steps ns', dumpSteps true ((nativeDump (genModule genPres f) (session (genModule genPres f) (freshKids (genModule genPres f)) acts)).map
        (jsonText ind fl 0)) = (steps, none) ∧
      (loadDoc rf (fileAfter before steps)).map (nativeLoad g (genModule genPres f) (freshKids (genModule genPres f))) = .ok (ns', none) ∧
      SameKids (genModule genPres f) (session (genModule genPres f) (freshKids (genModule genPres f)) acts) ns' :=
  C99_native_file_partial fl rf ind before rx g hov genPres f H acts hp (session_nleaves H hl acts) (session_decimals H hl acts)

/-! ## The modules of `Props/Save` -/

example (x y z w : PyVal) (before : Option Str) : ∃ steps ns',
    dumpSteps true ((nativeDump (genModule true saveLeaves) (session (genModule true saveLeaves) (freshKids (genModule true saveLeaves))
      (leafActs x y z w))).map (jsonText none noFl 0)) = (steps, none) ∧
    (loadDoc noRf (fileAfter before steps)).map (nativeLoad demoLoad (genModule true saveLeaves) (freshKids (genModule true saveLeaves))) = .ok (ns', none) ∧
    SameKids (genModule true saveLeaves) (session (genModule true saveLeaves) (freshKids (genModule true saveLeaves))
      (leafActs x y z w)) ns' :=
  C99_native_leaves_partial noFl noRf none before noRx demoLoad rfl true saveLeaves saveLeaves_supported saveLeaves_safe _
    (fun p op h => ((leafActs_proper _ _ _ _).1 p op h).1)

/-- Lists in lists; the key of one entry is a number, the text of which is written. -/
theorem listActs_nkept : EveryKids (NKept noRx) (genModule false saveLists) (session (genModule false saveLists) (freshKids (genModule false saveLists)) listActs) := by
  rw [listActs_after]
  have ls : ∀ {L : LeafCls} {v ch} {m : Meta} {t d}, L = YTy.cls noRx t d → SafeTy t → Every (NKept noRx) m (.leaf L) (.leaf v ch) :=
    fun h1 h2 _ => .inl ⟨_, _, h1, h2⟩
  have rows : ∀ q ∈ [((.str py!"up 30" : PyVal), Inst.cont true false [.leaf (.int 30) true, .leaf (.str py!"up") true]),
      (.str py!"down 30", .cont true false [.leaf (.int 30) true, .leaf (.str py!"down") true])], KeyHeld noRx ⟨[1, 0], true⟩
        (genNodes false none [.leaf (inModule py!"i") (tPercent.cls noRx), .leaf (inModule py!"j") (tState.cls noRx)]) q.1 q.2.kids := by
    intro q hq
    simp only [List.mem_cons, List.not_mem_nil, or_false] at hq
    rcases hq with rfl | rfl
    · refine ⟨_, rfl, by simp, rfl, fun p i hp => ?_⟩
      match p with
      | 0 => cases hp; exact ⟨_, _, _, _, _, rfl, rfl, rfl, rfl⟩
      | 1 => cases hp; exact ⟨_, _, _, _, _, rfl, rfl, rfl, rfl⟩
      | p + 2 => cases hp
    · refine ⟨_, rfl, by simp, rfl, fun p i hp => ?_⟩
      match p with
      | 0 => cases hp; exact ⟨_, _, _, _, _, rfl, rfl, rfl, rfl⟩
      | 1 => cases hp; exact ⟨_, _, _, _, _, rfl, rfl, rfl, rfl⟩
      | p + 2 => cases hp
  refine ⟨⟨trivial, ?_, ?_, trivial⟩, trivial⟩
  · exact fun _ => ⟨.inl ⟨_, _, _, rfl, safe_percent⟩, by decide⟩
  · refine ⟨⟨(fun h => by cases h), ?_, by decide⟩, ?_⟩
    · intro q hq
      simp only [List.mem_cons, List.not_mem_nil, or_false] at hq
      rcases hq with rfl | rfl
      · refine ⟨_, rfl, by simp, rfl, fun p i hp => ?_⟩
        match p with
        | 0 => cases hp; exact ⟨_, _, _, _, _, rfl, rfl, rfl, rfl⟩
        | p + 1 => cases hp
      · refine ⟨_, rfl, by decide, rfl, fun p i hp => ?_⟩
        match p with
        | 0 => cases hp; exact ⟨_, _, _, _, _, rfl, rfl, rfl, rfl⟩
        | p + 1 => cases hp
    · intro q hq
      simp only [List.mem_cons, List.not_mem_nil, or_false] at hq
      rcases hq with rfl | rfl
      · exact ⟨ls rfl safe_bool, ls rfl safe_str, ⟨⟨fun _ k hk => by revert k; decide, by simp, .nil⟩, by simp⟩, trivial⟩
      · refine ⟨ls rfl safe_bool, ls rfl safe_str, ⟨⟨fun _ k hk => by revert k; decide, rows, by decide⟩, ?_⟩, trivial⟩
        intro q hq
        simp only [List.mem_cons, List.not_mem_nil, or_false] at hq
        rcases hq with rfl | rfl <;> exact ⟨ls rfl safe_percent, ls rfl safe_state, trivial⟩

example : ∃ j ns', nativeDump (genModule false saveLists) (session (genModule false saveLists) (freshKids (genModule false saveLists)) listActs) = .ok j ∧
    nativeLoad demoLoad (genModule false saveLists) (freshKids (genModule false saveLists)) j = (ns', none) ∧
    SameKids (genModule false saveLists) (session (genModule false saveLists) (freshKids (genModule false saveLists)) listActs) ns' :=
  C99_native_partial noRx demoLoad rfl false saveLists saveLists_supported listActs (fun p op h => (listActs_proper.1 p op h).1) listActs_nkept

/-! ## What cannot be saved -/

/-- C99 fails, in the default encoding, for keys with spaces in them: the entry is written under the
texts of its keys with spaces between them, which are then taken for more keys than the list has. -/
theorem C99_native_key_refuted : ∃ f acts j e, Supported f ∧ Proper (genModule false f) acts ∧
    nativeDump (genModule false f) (session (genModule false f) (freshKids (genModule false f)) acts) = .ok j ∧
    (nativeLoad demoLoad (genModule false f) (freshKids (genModule false f)) j).2 = some e := by
  refine ⟨[.list (inModule py!"l") [py!"k", py!"j"] false [.leaf (inModule py!"k") (tStr.cls noRx), .leaf (inModule py!"j") (tStr.cls noRx)]],
    [.ietf demoLoad (.obj [(py!"m:l", .arr [.obj [(py!"k", .str py!"x y"), (py!"j", .str py!"z")]])])], _, _,
    supported_of (by decide), ⟨fun p op h => ?_, by simp⟩, rfl, rfl⟩
  simp at h

end Pyb
