import Verif.Model.Rpc
import Verif.Spec.Rpc
import Verif.Props.Reg

/-! # C106: rpcs and notifications stay out of the path helper -/

namespace Pyb
open Py Spec

/-- None of the calls is made for an rpc. -/
def RpcQuiet (es : List Ev) : Prop := ∀ r, Ev.call r ∈ es → entryCall r = false

theorem entryCall_plain (loc : List PStep) (n : Str) (o : XObj) : entryCall (.register (loc ++ [⟨n, []⟩]) o) = false := by
  simp [entryCall]

mutual
theorem regNew_quiet (loc : List PStep) (n : Str) : (S : Schema) → ∀ r ∈ regNew (loc ++ [⟨n, []⟩]) S, entryCall r = false
  | .leaf L, r, h => by
    simp only [regNew, List.mem_singleton] at h
    subst h; exact entryCall_plain ..
  | .leafList L, r, h => by
    simp only [regNew, List.mem_singleton] at h
    subst h; exact entryCall_plain ..
  | .cont p kids, r, h => by
    rcases List.mem_cons.1 (by simpa only [regNew] using h) with rfl | h
    · exact entryCall_plain ..
    · exact regKids_quiet _ kids r h
  | .list i kids, r, h => by simp [regNew] at h
theorem regKids_quiet (loc : List PStep) : (kids : List (Meta × Schema)) → ∀ r ∈ regKids loc kids, entryCall r = false
  | [], r, h => by simp [regKids] at h
  | k :: ks, r, h => by
    rcases List.mem_append.1 (by simpa only [regKids] using h) with h | h
    · exact regNew_quiet loc k.1.name k.2 r h
    · exact regKids_quiet loc ks r h
end

theorem regClear_quiet (loc : List PStep) (c : Choice) : ∀ (kids : List (Meta × Schema)), ∀ r ∈ regClear loc c kids, entryCall r = false
  | [], r, h => by simp [regClear] at h
  | k :: ks, r, h => by
    rcases List.mem_append.1 (by simpa only [regClear] using h) with h | h
    · split at h
      · exact regNew_quiet loc k.1.name k.2 r h
      · simp at h
    · exact regClear_quiet loc c ks r h

theorem passUp_quiet (loc : List PStep) (own : Option Choice) (kids : List (Meta × Schema)) : ∀ es, RpcQuiet es → RpcQuiet (passUp loc own kids es)
  | [], h => h
  | .call r :: es, h => fun r' h' => by
    rcases List.mem_cons.1 (by simpa only [passUp] using h') with e | h'
    · cases e; exact h _ (by simp)
    · exact passUp_quiet loc own kids es (fun r hr => h r (List.mem_cons_of_mem _ hr)) r' h'
  | .sig none :: es, h => fun r' h' => by
    rcases List.mem_cons.1 (by simpa only [passUp] using h') with e | h'
    · cases e
    · exact passUp_quiet loc own kids es (fun r hr => h r (List.mem_cons_of_mem _ hr)) r' h'
  | .sig (some c) :: es, h => fun r' h' => by
    rcases List.mem_append.1 (by simpa only [passUp] using h') with h' | h'
    · obtain ⟨r, hr, e⟩ := List.mem_map.1 h'
      cases e
      exact regClear_quiet loc c kids _ hr
    · rcases List.mem_cons.1 h' with e | h'
      · cases e
      · exact passUp_quiet loc own kids es (fun r hr => h r (List.mem_cons_of_mem _ hr)) r' h'

theorem leafEvs_quiet (loc : List PStep) (n : Str) (L : LeafCls) (own : Option Choice) (v : PyVal) : RpcQuiet (leafEvs (loc ++ [⟨n, []⟩]) L own v) := by
  intro r h
  unfold leafEvs at h
  split at h
  · simp at h
  all_goals
    simp only [List.mem_cons, Ev.call.injEq, reduceCtorEq, false_or, or_false, List.not_mem_nil] at h
    subst h; exact entryCall_plain ..

theorem llEvs_quiet (loc : List PStep) (n : Str) (L : LLCls) (own : Option Choice) (xs : List PyVal) (op : LLOp) :
    RpcQuiet (llEvs (loc ++ [⟨n, []⟩]) L own xs op) := by
  intro r h
  unfold llEvs at h
  simp only at h
  split at h
  · split at h
    all_goals
      simp only [List.mem_cons, Ev.call.injEq, reduceCtorEq, false_or, or_false, List.not_mem_nil] at h
      subst h; exact entryCall_plain ..
  · split at h
    all_goals
      simp only [List.mem_cons, Ev.call.injEq, reduceCtorEq, false_or, or_false, List.not_mem_nil] at h
      subst h; exact entryCall_plain ..
  · split at h <;> simp at h

theorem nodeEvs_quiet {S : Schema} (hS : KeylessIn S) (up : List PStep) (name : Str) (own : Option Choice) (n : Inst) (op : Op) (ho : NoDelete op) :
    RpcQuiet (nodeEvs up name S own n op) := by
  intro r h
  unfold nodeEvs at h
  split at h
  · obtain ⟨r', hr, e⟩ := List.mem_map.1 h
    cases e
    exact regNew_quiet up name _ r hr
  · exact leafEvs_quiet _ _ _ _ _ r h
  · exact llEvs_quiet _ _ _ _ _ _ r h
  · simp at h
  · cases hS with
    | list _ _ hk _ => rw [if_pos hk] at h; simp at h
  · cases hS with
    | list _ _ hk _ => rw [if_pos (.inl hk)] at h; simp at h
  · exact ho.elim
  · simp at h

theorem runEvs_quiet (up : List PStep) (name : Str) (S : Schema) (own : Option Choice) (n : Inst) (p : Path) (op : Op) (hS : KeylessIn S) (ho : NoDelete op) :
    RpcQuiet (runEvs up name S own n p op) := by
  match S, n, p with
  | S, n, [] => rw [runEvs]; exact nodeEvs_quiet hS _ _ _ _ _ ho
  | .cont _ kids, .cont _ _ ns, .field i :: p =>
    rw [runEvs]
    split
    · rename_i k c hk hc
      cases hS with
      | cont _ _ hkids => exact passUp_quiet _ _ _ _ (runEvs_quiet _ _ k.2 _ c p op (hkids k (List.mem_of_getElem? hk)) ho)
    · intro r h; simp at h
  | .list info kids, .list _ es, .key k :: .field i :: p =>
    rw [runEvs]
    split
    · intro r h; simp at h
    · split
      · split
        · intro r h; simp at h
        · split
          · rename_i k c hk hc
            cases hS with
            | list _ _ _ hkids => exact passUp_quiet _ _ _ _ (runEvs_quiet _ _ k.2 _ c p op (hkids k (List.mem_of_getElem? hk)) ho)
          · intro r h; simp at h
      · intro r h; simp at h
  | .leaf _, _, _ :: _ => intro r h; simp [runEvs] at h
  | .leafList _, _, _ :: _ => intro r h; simp [runEvs] at h
  | .cont _ _, .leaf _ _, _ :: _ => intro r h; simp [runEvs] at h
  | .cont _ _, .leafList _ _, _ :: _ => intro r h; simp [runEvs] at h
  | .cont _ _, .list _ _, _ :: _ => intro r h; simp [runEvs] at h
  | .cont _ _, .cont _ _ _, .key _ :: _ => intro r h; simp [runEvs] at h
  | .list _ _, .leaf _ _, _ :: _ => intro r h; simp [runEvs] at h
  | .list _ _, .leafList _ _, _ :: _ => intro r h; simp [runEvs] at h
  | .list _ _, .cont _ _ _, _ :: _ => intro r h; simp [runEvs] at h
  | .list _ _, .list _ _, [_] => intro r h; simp [runEvs] at h
  | .list _ _, .list _ _, .field _ :: _ :: _ => intro r h; simp [runEvs] at h
  | .list _ _, .list _ _, .key _ :: .key _ :: _ => intro r h; simp [runEvs] at h
termination_by p.length

theorem callsOf_mem {es : List Ev} {r : RegOp} (h : r ∈ callsOf es) : Ev.call r ∈ es := by
  induction es with
  | nil => simp [callsOf] at h
  | cons e es ih =>
    cases e with
    | call r' =>
      rcases List.mem_cons.1 (by simpa only [callsOf] using h) with rfl | h
      · simp
      · exact List.mem_cons_of_mem _ (ih h)
    | sig c => exact List.mem_cons_of_mem _ (ih (by simpa only [callsOf] using h))

theorem rpcCalls_nil {kids : List (Meta × Schema)} (hk : ∀ k ∈ kids, KeylessIn k.2) (loc : List PStep) (ns : List Inst) (p : Path) (op : Op) (ho : NoDelete op) :
    rpcCalls loc kids ns p op = [] := by
  unfold rpcCalls
  split
  · split
    · rename_i k c h1 h2
      refine List.filter_eq_nil_iff.2 fun r hr => ?_
      rw [runEvs_quiet _ _ _ _ _ _ _ (hk k (List.mem_of_getElem? h1)) ho r (callsOf_mem hr)]
      simp
    · rfl
  · rfl

/-- C106, in part: whatever a program does to the object of an rpc or a notification in which no list
has a key, the path helper it was given stays as it was, and the object is as without helper.
Missing: lists with keys, and deleting entries of those without. -/
theorem C106_untouched_partial (eqv : XObj → XObj → Bool) (loc : List PStep) (kids : List (Meta × Schema)) (hk : ∀ k ∈ kids, KeylessIn k.2)
    (h : Helper) (ops : List (Path × Op)) (ho : ∀ o ∈ ops, NoDelete o.2) (ns : List Inst) :
    rpcHistory eqv loc kids (h, ns) ops = (h, history kids ns ops) := by
  induction ops generalizing ns with
  | nil => rfl
  | cons o ops ih =>
    obtain ⟨p, op⟩ := o
    have e : rpcRun eqv loc kids h ns p op = (h, runRoot kids ns p op) := by
      rw [rpcRun, rpcCalls_nil hk loc ns p op (ho (p, op) (by simp))]
    rw [rpcHistory, history]
    simp only [e]
    exact ih (fun o h => ho o (by simp [h])) _

theorem registry_none {ops : List RegOp} {s : PStep} (h : ∀ op ∈ ops, op.path.head? ≠ some s) : ∀ p, p.head? = some s → registryAfter ops p = none := by
  have gen : ∀ (ops : List RegOp) (m : Registry), (∀ op ∈ ops, op.path.head? ≠ some s) → (∀ p, p.head? = some s → m p = none) →
      ∀ p, p.head? = some s → ops.foldl regStep m p = none := by
    intro ops
    induction ops with
    | nil => intro m _ hm p hp; exact hm p hp
    | cons op ops ih =>
      intro m h hm p hp
      refine ih _ (fun o ho => h o (by simp [ho])) (fun q hq => ?_) p hp
      unfold regStep
      split
      · cases op with
        | register p' o =>
          have : q ≠ p' := fun e => h (.register p' o) (by simp) (by simpa [RegOp.path, ← e] using hq)
          simp [effect, this, hm q hq]
        | unregister p' =>
          simp only [effect]
          split
          · rfl
          · exact hm q hq
      · exact hm q hq
  exact gen ops _ h fun _ _ => rfl

/-- C106 is false for a list with a key in the input of an rpc, the case the code forgets: with a path
helper, whatever was registered with it before (nothing of it below the rpc's path), `add` tries to
register the new entry, which raises `XPathError`, as there is no parent; and the list is as before. -/
theorem C106_list_refuted {K : List Str → List Str} (eqv : XObj → XObj → Bool) (ops : List RegOp) (hv : ∀ op ∈ ops, ValidPath K op.path)
    (top : PStep) (hfree : ∀ op ∈ ops, op.path.head? ≠ some top) (loc : List PStep)
    (kids : List (Meta × Schema)) (ns : List Inst) (i : Nat) (m : Meta) (info : ListInfo) (ks : List (Meta × Schema)) (ch : Bool) (es : Members Inst)
    (hi : kids[i]? = some (m, .list info ks)) (hn : ns[i]? = some (.list ch es)) (hk : info.keys ≠ []) (k : PyVal) (raws : List PyVal)
    (h1 : k ≠ .none) (h2 : hashable k = true) (h3 : mem es k = false) (h4 : keyParts info.keys.length k = .ok raws)
    (hp : ValidPath K (top :: loc ++ [entryStep m.name info ks k])) (hkeys : (entryStep m.name info ks k).keys ≠ []) :
    (rpcRun eqv (top :: loc) kids (runOps eqv ops) ns [.field i] (.add k)).2 = (ns, some .xpathError) := by
  have hc : ∃ cs, rpcCalls (top :: loc) kids ns [.field i] (.add k) = .register (top :: loc ++ [entryStep m.name info ks k]) contObj :: cs := by
    have e : ∃ es', runEvs (top :: loc) m.name (.list info ks) m.choice (.list ch es) [] (.add k) =
        .call (.register (top :: loc ++ [entryStep m.name info ks k]) contObj) :: es' := by
      simp [runEvs, nodeEvs, hk, addEvs, h1, h2, h3, h4, entryEvs]
    obtain ⟨es', e⟩ := e
    refine ⟨(callsOf es').filter entryCall, ?_⟩
    have hp : entryCall (.register (top :: loc ++ [entryStep m.name info ks k]) contObj) = true := by
      simp only [entryCall, List.getLast?_append, List.getLast?_singleton, Option.some_or, Option.map_some, Option.getD_some]
      simpa using hkeys
    simp only [rpcCalls, hi, hn, e, callsOf]
    rw [List.filter_cons_of_pos hp]
  obtain ⟨cs, hc⟩ := hc
  have hr : (doCall eqv (runOps eqv ops) (.register (top :: loc ++ [entryStep m.name info ks k]) contObj)).2 = .error .xpathError := by
    have := C51_succeeds_partial (eqv := eqv) hv (op := .register (top :: loc ++ [entryStep m.name info ks k]) contObj) hp
    rw [if_neg] at this
    · exact this
    · simp only [OpAllowed]
      rw [registry_none hfree _ rfl]
      have e : (top :: loc ++ [entryStep m.name info ks k]).dropLast = top :: loc := List.dropLast_concat ..
      rw [e, registry_none hfree _ rfl]
      simp
  simp only [rpcRun, hc, hr, rpcFailed]

/-! Examples: the input of the rpc `ping` of a module `m`, with a list with key and one without. -/

def pingKids : List (Meta × Schema) := [({ name := py!"l" }, .list { keys := [0] } demoL)]
def pingFlat : List (Meta × Schema) := [({ name := py!"c" }, .cont false [({ name := py!"z" }, .leaf strLeaf), ({ name := py!"l" }, .list { keys := [] } demoL)])]
def pingTop : PStep := ⟨py!"m_rpc", []⟩
def pingLoc : List PStep := [⟨py!"ping", []⟩, ⟨py!"input", []⟩]
def pingK : List Str → List Str := fun t => if t = [py!"m_rpc", py!"ping", py!"input", py!"l"] then [py!"k"] else exK t

theorem ping_valid : ValidPath pingK (pingTop :: pingLoc ++ [entryStep py!"l" { keys := [0] } demoL (.str py!"e1")]) where
  ne := by simp
  good := by
    have e : pingTop :: pingLoc ++ [entryStep py!"l" { keys := [0] } demoL (.str py!"e1")] =
      [⟨py!"m_rpc", []⟩, ⟨py!"ping", []⟩, ⟨py!"input", []⟩, ⟨py!"l", [(py!"k", py!"e1")]⟩] := by decide
    rw [e]
    intro s hs
    simp only [List.mem_cons, List.not_mem_nil, or_false] at hs
    rcases hs with rfl | rfl | rfl | rfl
    · exact ⟨ident_of (by decide) (by decide), by simp, by simp, by simp⟩
    · exact ⟨ident_of (by decide) (by decide), by simp, by simp, by simp⟩
    · exact ⟨ident_of (by decide) (by decide), by simp, by simp, by simp⟩
    · refine ⟨ident_of (by decide) (by decide), ?_, by simp, ?_⟩
      · intro k hk
        rw [List.mem_singleton.1 hk]
        exact ⟨ident_of (by decide) (by decide), by decide, by decide⟩
      · intro k hk
        rw [List.mem_singleton.1 hk]
        exact goodValue_of (by decide) (by decide)
  conf := .cons _ _ _ (by decide) (.cons _ _ _ (by decide) (.cons _ _ _ (by decide) (.cons _ _ _ (by decide) (.nil _))))

set_option maxRecDepth 4000 in
example : (∀ op ∈ [RegOp.register exIfs ⟨1, []⟩], op.path.head? ≠ some pingTop) ∧ hashable (.str py!"e1") = true ∧
    mem ([] : Members Inst) (.str py!"e1") = false ∧ (keyParts 1 (.str py!"e1")).isOk = true ∧ (entryStep py!"l" { keys := [0] } demoL (.str py!"e1")).keys ≠ [] ∧
    (rpcRun exEqv (pingTop :: pingLoc) pingKids (runOps exEqv [.register exIfs ⟨1, []⟩]) (freshKids pingKids) [.field 0] (.add (.str py!"e1"))).2.2 = some .xpathError ∧
    (runRoot pingKids (freshKids pingKids) [.field 0] (.add (.str py!"e1"))).2 = none := by decide

example : ∀ k ∈ pingFlat, KeylessIn k.2 := by
  intro k hk
  rw [List.mem_singleton.1 hk]
  refine .cont _ _ fun k hk => ?_
  simp only [List.mem_cons, List.not_mem_nil, or_false] at hk
  rcases hk with rfl | rfl
  · exact .leaf _
  · refine .list _ _ rfl fun k hk => ?_
    simp only [demoL, List.mem_cons, List.not_mem_nil, or_false] at hk
    rcases hk with rfl | rfl <;> exact .leaf _

end Pyb
