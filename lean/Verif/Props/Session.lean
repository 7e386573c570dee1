import Verif.Lemmas.LoadInv
import Verif.Props.Xml
import Verif.Props.TreeKeys

/-! # C74: documents and the API together -/

namespace Pyb
open Py Spec

theorem session_obj_at {P : LInv} (hP : LStable P) {kids : List (Meta × Schema)} {acts : List Act} {p : Path} {T : Schema} {m : Inst}
    (hS : clsAt kids p = some T) (hn : objAt (session kids (freshKids kids) acts) p = some m) : ObjInv P T m := by
  have := session_obj hP acts (rootObj_fresh hP kids)
  exact obj_at (.cont false kids false false _ this.1 this.2) hS hn

/-- The first container on the way to an object. -/
theorem binding_inv_at {I : CInv} {kids : List (Meta × Schema)} {ns : List Inst} (h : RootInv I kids ns) {p : Path} (hp : p ≠ []) {T : Schema} {m : Inst}
    (hS : clsAt kids p = some T) (hn : objAt ns p = some m) : TreeInv I T m := by
  cases p with
  | nil => exact absurd rfl hp
  | cons s p =>
    cases s with
    | key k => simp [objAt, nodeAt_cont_key] at hn
    | field i =>
      rw [objAt_field] at hn
      rw [clsAt_field] at hS
      cases hc : ns[i]? with
      | none => simp [hc] at hn
      | some c =>
        cases hk : kids[i]? with
        | none => simp [hk] at hS
        | some k =>
          simp only [hc, hk, Option.bind_some] at hn hS
          exact treeInv_at (h.2 i k c hk hc) hS hn

/-! ## The values of leaves -/

/-- C74: after any session, a leaf that is set holds what its class made of some value it
accepted. -/
theorem C74_leaf_values (kids : List (Meta × Schema)) (acts : List Act) (p : Path) (L : LeafCls) (v : PyVal)
    (hS : clsAt kids p = some (.leaf L)) (hn : objAt (session kids (freshKids kids) acts) p = some (.leaf v true)) :
    ∃ x, L.set x = .ok v := by
  cases session_obj_at fromClass_stable hS hn with
  | leaf _ _ _ h => exact h rfl

/-- C74: all values of a leaf-list are what its class made of values it accepted. -/
theorem C74_leaflist_values (kids : List (Meta × Schema)) (acts : List Act) (p : Path) (L : LLCls) (vs : List PyVal) (ch : Bool)
    (hS : clsAt kids p = some (.leafList L)) (hn : objAt (session kids (freshKids kids) acts) p = some (.leafList vs ch)) :
    ∀ v ∈ vs, ∃ x, L.conv x = some v := by
  cases session_obj_at fromClass_stable hS hn with
  | leafList _ _ _ h => exact h.2

/-- A leaf that is not set holds the value of a new one. -/
def unsetZero : LInv where
  leaf L v ch := ch = false → v = L.zero
  ll _ _ _ := True

theorem unsetZero_stable : LStable unsetZero where
  zero _ _ := rfl
  nil _ := trivial
  set _ _ _ _ h := by simp at h
  init _ _ _ _ := trivial
  step _ _ _ _ _ _ _ _ _ := trivial

/-- C74: a leaf that is not set holds the value it has in a new binding
(`False`, 0, an empty text; its default is not its value, see C49). -/
theorem C74_unset_default (kids : List (Meta × Schema)) (acts : List Act) (p : Path) (L : LeafCls) (v : PyVal)
    (hS : clsAt kids p = some (.leaf L)) (hn : objAt (session kids (freshKids kids) acts) p = some (.leaf v false)) :
    v = L.zero := by
  cases session_obj_at unsetZero_stable hS hn with
  | leaf _ _ _ h => exact h rfl

/-! ## Lists -/

/-- C74: after any session the entries of a list have different keys. -/
theorem C74_distinct_keys (kids : List (Meta × Schema)) (acts : List Act) (p : Path) (info : ListInfo) (lk : List (Meta × Schema))
    (ch : Bool) (es : List (PyVal × Inst)) (hS : clsAt kids p = some (.list info lk))
    (hn : objAt (session kids (freshKids kids) acts) p = some (.list ch es)) :
    (es.map Prod.fst).Pairwise fun a b => pyEq a b = false := by
  cases session_obj_at fromClass_stable hS hn with
  | list _ _ _ _ _ h => exact h

/-! ## Containers -/

theorem mark_session {kids : List (Meta × Schema)} {acts : List Act} (hops : ∀ p op, Act.api p op ∈ acts → op ≠ .present false)
    {p : Path} (hp : p ≠ []) {pres : Bool} {ks : List (Meta × Schema)} {ch pr : Bool} {ms : List Inst}
    (hS : clsAt kids p = some (.cont pres ks)) (hn : objAt (session kids (freshKids kids) acts) p = some (.cont ch pr ms))
    (hset : HasSet (.cont ch pr ms)) : ch = true ∧ (pres = true → pr = true) := by
  have hinv := session_inv (st := true) stable_mark (fun op h => h.1)
    (fun pres kids ch pr ns _ h => by obtain ⟨c, hc, hd⟩ := h; exact absurd hd (noData_freshKids hc))
    (by simp) (.inl fun u => by simp) acts hops (rootInv_fresh (st := true) stable_mark kids)
  obtain ⟨_, _, _, he, hI, _⟩ := (binding_inv_at hinv hp hS hn).cont_inv
  simp only [Inst.cont.injEq] at he
  obtain ⟨rfl, rfl, rfl⟩ := he
  rw [hasSet_iff, has_cont] at hset
  exact hI (by simpa using hset)

/-- C74: after any session without `_set_present(False)`, a container with a set leaf below
it is changed. -/
theorem C74_marked (kids : List (Meta × Schema)) (acts : List Act) (hops : ∀ p op, Act.api p op ∈ acts → op ≠ .present false)
    (p : Path) (hp : p ≠ []) (pres : Bool) (ks : List (Meta × Schema)) (ch pr : Bool) (ms : List Inst)
    (hS : clsAt kids p = some (.cont pres ks)) (hn : objAt (session kids (freshKids kids) acts) p = some (.cont ch pr ms))
    (hset : HasSet (.cont ch pr ms)) : ch = true := (mark_session hops hp hS hn hset).1

/-- C74: and a presence container with a set leaf below it is present. -/
theorem C74_present (kids : List (Meta × Schema)) (acts : List Act) (hops : ∀ p op, Act.api p op ∈ acts → op ≠ .present false)
    (p : Path) (hp : p ≠ []) (ks : List (Meta × Schema)) (ch pr : Bool) (ms : List Inst)
    (hS : clsAt kids p = some (.cont true ks)) (hn : objAt (session kids (freshKids kids) acts) p = some (.cont ch pr ms))
    (hset : HasSet (.cont ch pr ms)) : pr = true := (mark_session hops hp hS hn hset).2 rfl

theorem oneKid_fresh {kids : List (Meta × Schema)} {pres ch pr} : IExcl pres kids ch pr (freshKids kids) := stable_excl.fresh pres kids

/-- C74: after any session, at most one case of every choice in a container holds data.
Missing: as in C32, and lists without key (see `C74_keyless_refuted`). -/
theorem C74_exclusive_partial (kids : List (Meta × Schema)) (hf : FlatRoot kids) (hk : ∀ k ∈ kids, Keyed k.2) (acts : List Act)
    (hops : ∀ p op, Act.api p op ∈ acts → ∀ u, op ≠ .addAnon u) (i : Nat) (k : Meta × Schema) (c : Inst) (hki : kids[i]? = some k)
    (hc : (session kids (freshKids kids) acts)[i]? = some c) : Exclusive k.2 c :=
  exclusive_of_inv ((session_inv stable_excl (fun op h => h.2) (fun _ _ _ _ _ _ => oneKid_fresh) (fun _ => hf) (.inr hk) acts hops
    (rootInv_fresh stable_excl kids)).2 i k c hki hc)

/-! ## Round trips -/

theorem session_sound {kids : List (Meta × Schema)} (hf : FlatRoot kids) (hK : ∀ k ∈ kids, Keyed k.2) {acts : List Act}
    (hops : ∀ p op, Act.api p op ∈ acts → Plain op) {i : Nat} {k : Meta × Schema} {c : Inst} (hk : kids[i]? = some k)
    (hc : (session kids (freshKids kids) acts)[i]? = some c) : Sound k.2 c where
  pres := (session_inv (st := true) stable_pres (fun _ _ => trivial) (fun _ _ _ _ _ h => h) (by simp) (.inl fun _ => trivial) acts (fun _ _ _ => trivial)
    (rootInv_fresh (st := true) stable_pres kids)).2 i k c hk hc
  markD := (session_inv (st := true) stable_markD (fun _ h => h) (fun _ _ _ _ _ _ h => by obtain ⟨c, hc, hd⟩ := h; exact absurd hd (noData_freshKids hc))
    (by simp) (.inr hK) acts hops (rootInv_fresh (st := true) stable_markD kids)).2 i k c hk hc
  up := (session_inv (st := true) stable_up (fun _ h => h.1) (fun _ _ _ _ _ _ c hc hd => by rw [changed_freshKids hc] at hd; simp at hd)
    (by simp) (.inr hK) acts (fun p op h => (hops p op h).1) (rootInv_fresh (st := true) stable_up kids)).2 i k c hk hc
  excl := (session_inv stable_excl (fun op h => h.2) (fun _ _ _ _ _ _ => oneKid_fresh) (fun _ => hf) (.inr hK) acts (fun p op h => (hops p op h).2)
    (rootInv_fresh stable_excl kids)).2 i k c hk hc
  vals := (session_obj fromClass_stable acts (rootObj_fresh fromClass_stable kids)).2 i k c hk hc

/-- C38 for what any session leaves in a new binding. -/
theorem C38_session_partial (rx : Str → Str → Bool) (g : LoadOpt) (hov : g.over = false) (hu : FreshUuid g.uuid)
    (kids : List (Meta × Schema)) (hf : FlatRoot kids) (hK : ∀ k ∈ kids, Keyed k.2) (hnames : GoodNames kids) (acts : List Act)
    (hops : ∀ p op, Act.api p op ∈ acts → Plain op) (h : EveryKids (ValuesReady rx) kids (session kids (freshKids kids) acts)) :
    ∃ j ns', ietfDump {} kids (session kids (freshKids kids) acts) = .ok j ∧
      ietfLoad g kids (freshKids kids) j = (ns', none) ∧ SameKids kids (session kids (freshKids kids) acts) ns' := by
  refine C38_ietf_roundtrip_partial rx g hov hu kids hf.apart hnames _ ?_
  rw [everyKids_iff] at h ⊢
  exact ⟨h.1, fun i k c hk hc => jsonReady_of _ _ _ (session_sound hf hK hops hk hc) (h.2 i k c hk hc)⟩

/-- C39 for what any session leaves in a new binding. -/
theorem C39_session_partial (rx : Str → Str → Bool) (g : LoadOpt) (hov : g.over = false)
    (kids : List (Meta × Schema)) (hf : FlatRoot kids) (hK : ∀ k ∈ kids, Keyed k.2) (hnames : GoodNames kids) (acts : List Act)
    (hops : ∀ p op, Act.api p op ∈ acts → Plain op) (h : EveryKids (NativeValues rx) kids (session kids (freshKids kids) acts)) :
    ∃ j ns', nativeDump kids (session kids (freshKids kids) acts) = .ok j ∧
      nativeLoad g kids (freshKids kids) j = (ns', none) ∧ SameKids kids (session kids (freshKids kids) acts) ns' := by
  refine C39_native_roundtrip_partial g hov kids hf.apart hnames _ ?_
  rw [everyKids_iff] at h ⊢
  exact ⟨h.1, fun i k c hk hc => nativeReady_of _ _ _ (session_sound hf hK hops hk hc) (h.2 i k c hk hc)⟩

/-- C69 for what any session leaves in a new binding. -/
theorem C69_session_partial (rx : Str → Str → Bool) (nsOf : Str → Str) (infer : Str → PyVal) (hi : Objectify infer)
    (name mns : Str) (kids : List (Meta × Schema)) (hf : FlatRoot kids) (hK : ∀ k ∈ kids, Keyed k.2) (hnames : GoodNames kids) (acts : List Act)
    (hops : ∀ p op, Act.api p op ∈ acts → Plain op) (h : EveryKids (XmlValues rx infer) kids (session kids (freshKids kids) acts)) :
    ∃ x ns', xmlDump nsOf true name mns kids (session kids (freshKids kids) acts) = .ok x ∧
      xmlLoad infer kids (freshKids kids) x = (ns', none) ∧ SameKids kids (session kids (freshKids kids) acts) ns' := by
  refine C69_xml_roundtrip_partial rx nsOf infer hi name mns kids hf.apart hnames _ ?_
  rw [everyKids_iff] at h ⊢
  exact ⟨h.1, fun i k c hk hc => xmlOrderly_of _ _ _ (session_sound hf hK hops hk hc) (h.2 i k c hk hc)⟩

/-! ## A session that meets the hypotheses -/

/-- The module of `Props/Json`: a document loaded into it, some operations, the same document
again, and one that is not in order (an unknown member after a known one). -/
def demoSession : List Act :=
  [.ietf demoLoad jsonDoc,
   .api [.field 0, .field 4, .field 0] (.set (.int 9) false),
   .api [.field 0, .field 5] (.delete (.str py!"x")),
   .native demoLoad (.obj [(py!"c", .obj [(py!"l", .obj [(py!"w", .obj [(py!"z", .num 20)])]), (py!"none", .num 1)])]),
   .xml demoInfer (.elem [] [] [] none [.elem py!"urn:m" py!"c" [] none [.elem py!"urn:m" py!"v" [] (some py!"8") []]])]

def demoAfter : List Inst :=
  [.cont true false
    [.leaf (.int 18446744073709551615) true, .leaf (.bool false) false, .leaf (.str py!"red") true, .leaf (.bool true) true,
     .cont true true [.leaf (.int 9) true],
     .list false [(.str py!"y", .cont true false [.leaf (.str py!"y") true, .leaf (.int 50) true]),
                 (.str py!"w", .cont true false [.leaf (.str py!"w") true, .leaf (.int 20) true])],
     .leafList [.int 5, .int 6, .int 8] true]]

example : session jsonKids (freshKids jsonKids) demoSession = demoAfter := by rfl

theorem jsonKids_keyed : ∀ k ∈ jsonKids, Keyed k.2 := by
  intro k hk
  simp only [jsonKids, List.mem_singleton] at hk
  subst hk
  simp [keyed_cont, keyed_list, keyed_leaf, keyed_leafList, jsonC, jsonL]

theorem demoSession_plain : ∀ p op, Act.api p op ∈ demoSession → Plain op := by
  intro p op h
  simp only [demoSession, List.mem_cons, reduceCtorEq, Act.api.injEq, false_or, List.not_mem_nil, or_false] at h
  rcases h with ⟨_, rfl⟩ | ⟨_, rfl⟩ <;> exact ⟨by simp, by simp⟩

example : ∃ L x, clsAt jsonKids [.field 0, .field 4, .field 0] = some (.leaf L) ∧ L.set x = .ok (.int 9) := by
  obtain ⟨x, h⟩ := C74_leaf_values jsonKids demoSession [.field 0, .field 4, .field 0] _ (.int 9) rfl rfl
  exact ⟨_, x, rfl, h⟩

example : ∃ L x, clsAt jsonKids [.field 0, .field 6] = some (.leafList L) ∧ L.conv x = some (.int 8) := by
  obtain ⟨x, h⟩ := C74_leaflist_values jsonKids demoSession [.field 0, .field 6] _ [.int 5, .int 6, .int 8] _ rfl rfl (.int 8) (by simp)
  exact ⟨_, x, rfl, h⟩

example : ∃ L, clsAt jsonKids [.field 0, .field 1] = some (.leaf L) ∧ L.zero = .bool false :=
  ⟨_, rfl, (C74_unset_default jsonKids demoSession [.field 0, .field 1] _ (.bool false) rfl rfl).symm⟩

example : [PyVal.str py!"y", .str py!"w"].Pairwise fun a b => pyEq a b = false :=
  C74_distinct_keys jsonKids demoSession [.field 0, .field 5] _ _ _ _ rfl rfl

example : ∃ ch pr ms, objAt (session jsonKids (freshKids jsonKids) demoSession) [.field 0, .field 4] = some (.cont ch pr ms) ∧
    HasSet (.cont ch pr ms) ∧ ch = true ∧ pr = true :=
  have hs : HasSet (.cont true true [.leaf (.int 9) true]) := ⟨.int 9, .field (List.mem_cons_self ..) .here⟩
  ⟨_, _, _, rfl, hs, C74_marked jsonKids demoSession (fun p op h => (demoSession_plain p op h).1) [.field 0, .field 4] (by simp) true _ _ _ _ rfl rfl hs,
    C74_present jsonKids demoSession (fun p op h => (demoSession_plain p op h).1) [.field 0, .field 4] (by simp) _ _ _ _ rfl rfl hs⟩

/-- A session with a choice: each document takes over from the one before. -/
def choiceSession : List Act :=
  [.ietf demoLoad (.obj [(py!"m:c", .obj [(py!"a", .str py!"1")])]),
   .native demoLoad (.obj [(py!"c", .obj [(py!"b", .str py!"2")])]),
   .xml demoInfer (.elem [] [] [] none [.elem [] py!"c" [] none [.elem [] py!"a" [] (some py!"3") []]])]

theorem demoM_keyed : ∀ k ∈ demoM, Keyed k.2 := by
  simp [keyed_cont, keyed_list, keyed_leaf, keyed_leafList, demoM, demoC, demoL]

example : ∃ c, (session demoM (freshKids demoM) choiceSession)[0]? = some c ∧ HasData c ∧ Exclusive (.cont false demoC) c := by
  refine ⟨_, rfl, ⟨.leaf (.str py!"3") true, .field (List.mem_cons_self ..) .here, rfl⟩, ?_⟩
  exact C74_exclusive_partial demoM demoM_flat demoM_keyed choiceSession (by simp [choiceSession]) 0
    ({ name := py!"c" }, .cont false demoC) _ rfl rfl

example : ∃ j ns', ietfDump {} jsonKids (session jsonKids (freshKids jsonKids) [.ietf demoLoad jsonDoc]) = .ok j ∧
    ietfLoad demoLoad jsonKids (freshKids jsonKids) j = (ns', none) ∧
    SameKids jsonKids (session jsonKids (freshKids jsonKids) [.ietf demoLoad jsonDoc]) ns' :=
  C38_session_partial noRx demoLoad rfl demoUuid_fresh jsonKids json_flat jsonKids_keyed ⟨by decide, by decide⟩ _ (by simp) json_values

example : ∃ j ns', nativeDump jsonKids (session jsonKids (freshKids jsonKids) [.native demoLoad jsonNative]) = .ok j ∧
    nativeLoad demoLoad jsonKids (freshKids jsonKids) j = (ns', none) ∧
    SameKids jsonKids (session jsonKids (freshKids jsonKids) [.native demoLoad jsonNative]) ns' :=
  C39_session_partial noRx demoLoad rfl jsonKids json_flat jsonKids_keyed ⟨by decide, by decide⟩ _ (by simp) json_native_values

example : ∃ x ns', xmlDump demoNs true py!"m" py!"urn:m" jsonKids (session jsonKids (freshKids jsonKids) [.ietf demoLoad jsonDoc]) = .ok x ∧
    xmlLoad demoInfer jsonKids (freshKids jsonKids) x = (ns', none) ∧
    SameKids jsonKids (session jsonKids (freshKids jsonKids) [.ietf demoLoad jsonDoc]) ns' :=
  C69_session_partial noRx demoNs demoInfer demo_objectify py!"m" py!"urn:m" jsonKids json_flat jsonKids_keyed ⟨by decide, by decide⟩ _ (by simp)
    xml_values

/-! ## What loading breaks -/

/-- C74 fails for lists without key: an entry without members, loaded in IETF JSON, is data
of one case while the other one keeps its own. -/
theorem C74_keyless_refuted : ∃ kids acts c k, FlatRoot kids ∧ (∀ p op, Act.api p op ∈ acts → Plain op) ∧ kids[0]? = some k ∧
    (session kids (freshKids kids) acts)[0]? = some c ∧ ¬ Exclusive k.2 c := by
  refine ⟨anonM, [.api [.field 0, .field 1] (.set (.str py!"2") false),
    .ietf demoLoad (.obj [(py!"o", .obj [(py!"l", .arr [.obj []])])])], _, _, ?_, ?_, rfl, rfl, ?_⟩
  · intro k hk
    simp [anonM] at hk
    subst hk
    simp [Choices, ChoicesKids, choiceNames, cA, cB]
  · intro p op h
    simp at h
    rw [h.2]
    exact ⟨by simp, by simp⟩
  · intro h
    exact h [] false _ _ _ _ rfl rfl 0 1 _ _ _ _ rfl rfl rfl rfl ⟨cA, cB, rfl, rfl, rfl, by decide⟩
      ⟨⟨.list false [(.str (demoUuid []), .cont false false [.leaf (.str []) false])], .here, by simp [IsDatum]⟩,
       ⟨.leaf (.str py!"2") true, .here, by simp [IsDatum]⟩⟩

/-- C74 fails for key leaves in native JSON: a document can give an entry another value for
its key than the one it is stored under. -/
theorem C74_native_key_refuted : ∃ kids doc p info lk ch k e v, clsAt kids p = some (.list info lk) ∧ info.keys = [0] ∧
    nativeLoad demoLoad kids (freshKids kids) doc = (session kids (freshKids kids) [.native demoLoad doc], none) ∧
    objAt (session kids (freshKids kids) [.native demoLoad doc]) p = some (.list ch [(.str k, e)]) ∧
    nodeAt e [.field 0] = some (.leaf (.str v) true) ∧ k ≠ v := by
  refine ⟨jsonKids, .obj [(py!"c", .obj [(py!"l", .obj [(py!"x", .obj [(py!"k", .str py!"y")])])])], [.field 0, .field 5], _, _, _,
    py!"x", _, py!"y", rfl, rfl, rfl, rfl, rfl, by decide⟩

end Pyb
