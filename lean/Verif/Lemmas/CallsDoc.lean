import Verif.Lemmas.Calls
import Verif.Lemmas.XmlLoaded

/-! # Documents are followed by their calls -/

namespace Pyb
open Py Spec

variable {R : Op → Prop}

/-! ## IETF JSON -/

theorem stdCalls_follows {g : LoadOpt} {S : Schema} {own : Option Choice} {b : Bool} {c : Inst} {j : J} :
    Traced R (run S own) c (ietfStd g S own b c j) (stdCalls g S b j) := by
  unfold ietfStd stdCalls
  split
  · exact follows_same
  · simp only
    generalize ietfVal (match S with | .leaf L => L.yangType | .leafList L => L.yangType | _ => []) j = r
    cases r with
    | error e => exact follows_fail
    | ok v => cases v <;> first | exact setCalls_follows | exact follows_same

theorem stdCalls_quiet {g : LoadOpt} {S : Schema} {j : J} : Quiet (stdCalls g S true j) := by
  simp only [stdCalls, if_true]; exact quiet_nil

theorem markCalls_quiet {S : Schema} {n : Inst} : Quiet (markCalls S n) := by
  unfold markCalls
  split
  · intro c hc _; simp at hc; subst hc; exact ⟨by simp, by simp⟩
  · exact quiet_nil

theorem ietfAdd_follows {g : LoadOpt} {info : ListInfo} {kids : List (Meta × Schema)} {own : Option Choice} {ch : Bool} {es : Members Inst} {x : J} :
    Traced R (run (.list info kids) own) (.list ch es) (ietfEntry g info kids ch es x).1 (ietfAddCalls g info kids es x) := by
  unfold ietfEntry ietfAddCalls
  cases hk : info.keys with
  | nil => exact listAdd_follows (.inr (.inr ⟨_, rfl⟩))
  | cons i rest =>
    cases x with
    | obj ms =>
      simp only
      cases elemKeys (keyNames info kids) ms with
      | error e => exact follows_fail
      | ok js =>
        simp only
        split
        · split
          · exact follows_fail
          · split
            · exact follows_same
            · exact listAdd_follows (.inl ⟨_, rfl⟩)
        · split
          · exact follows_same
          · exact listAdd_follows (.inr (.inl ⟨_, rfl⟩))
    | _ => exact follows_fail

theorem ietfEntry_hashable {g : LoadOpt} {info : ListInfo} {kids : List (Meta × Schema)} {ch : Bool} {es : Members Inst} {x : J} :
    hashable (ietfEntry g info kids ch es x).2 = true := by
  unfold ietfEntry
  split
  · rfl
  · split
    · split
      · rfl
      · simp only
        split
        · split
          · rfl
          · rename_i h
            split
            · simpa using h
            · simpa using h
        · split
          · rfl
          · rfl
    · rfl

theorem ietfAdd_quiet {g : LoadOpt} {info : ListInfo} {kids : List (Meta × Schema)} {es : Members Inst} {x : J} :
    Quiet (ietfAddCalls g info kids es x) := by
  have one : ∀ op : Op, (∀ v, op ≠ .set v false) → (∀ v, op ≠ .assign v) → Quiet [([], op)] := by
    intro op h1 h2 c hc _; simp at hc; subst hc; exact ⟨h1, h2⟩
  unfold ietfAddCalls
  split
  · exact one _ (by simp) (by simp)
  · split
    · split
      · exact quiet_nil
      · simp only
        split
        · split
          · exact quiet_nil
          · split
            · exact quiet_nil
            · exact one _ (by simp) (by simp)
        · split
          · exact quiet_nil
          · exact one _ (by simp) (by simp)
    · exact quiet_nil

theorem ietfMembers_quiet {g : LoadOpt} {wrapped : Bool} {S : Schema} {keys : List Nat} {own : Option Choice} (ms : List (Str × J)) :
    ∀ n, Quiet (ietfMembersCalls g wrapped S keys own n ms) := by
  induction ms with
  | nil => intro n; simp only [ietfMembersCalls]; exact quiet_nil
  | cons m ms ih =>
    intro n
    simp only [ietfMembersCalls]
    split
    · exact ih n
    · exact quiet_append kidCalls_quiet (quiet_then (ih _))

theorem ietfElems_quiet {g : LoadOpt} {info : ListInfo} {kids : List (Meta × Schema)} (xs : List J) : ∀ n, Quiet (ietfElemsCalls g info kids n xs) := by
  induction xs with
  | nil => intro n; simp only [ietfElemsCalls]; exact quiet_nil
  | cons x xs ih =>
    intro n
    cases n with
    | list ch es => simp only [ietfElemsCalls]; exact quiet_append (quiet_append ietfAdd_quiet (quiet_then entryCalls_quiet)) (quiet_then (ih _))
    | _ => simp only [ietfElemsCalls]; exact quiet_nil

theorem ietfChild_quiet {g : LoadOpt} {S : Schema} {own : Option Choice} {c : Inst} {j : J} : Quiet (ietfChildCalls g S own true c j) := by
  cases j with
  | obj ms => simp only [ietfChildCalls]; exact quiet_append markCalls_quiet (ietfMembers_quiet ms _)
  | arr xs =>
    simp only [ietfChildCalls]
    split
    · exact ietfElems_quiet xs _
    · split
      · exact quiet_nil
      · exact stdCalls_quiet
  | _ => simp only [ietfChildCalls]; exact stdCalls_quiet

theorem ietfMembers_fitting {g : LoadOpt} {wrapped : Bool} {S : Schema} {keys : List Nat} {own : Option Choice} (ms : List (Str × J)) :
    ∀ n, Fitting keys (ietfMembersCalls g wrapped S keys own n ms) := by
  induction ms with
  | nil => intro n; simp only [ietfMembersCalls]; exact fitting_nil
  | cons m ms ih =>
    intro n
    simp only [ietfMembersCalls]
    split
    · exact ih n
    · refine fitting_append (kidCalls_fitting ?_) (fitting_then (ih _))
      intro pres kids i k c _ _ hi
      rw [hi]; exact ietfChild_quiet

theorem ietfElem_fitting {g : LoadOpt} {kids : List (Meta × Schema)} {keys : List Nat} {c : Inst} {x : J} :
    Fitting keys (ietfElemCalls g kids keys c x) := by
  cases x <;> simp only [ietfElemCalls] <;> first | exact ietfMembers_fitting _ _ | exact fitting_nil

/-- Loading a value into a child. -/
def IetfFollows (R : Op → Prop) (g : LoadOpt) (j : J) : Prop :=
  ∀ a w S b c, Choices false a w S → Traced R (run S w) c (ietfChild g S w b c j) (ietfChildCalls g S w b c j)

theorem ietfMembers_follows {g : LoadOpt} {ms : List (Str × J)} (hms : ∀ m ∈ ms, IetfFollows R g m.2) :
    ∀ {wrapped a w po S keys n}, ApartHere wrapped a w S →
      Traced R (holdRun wrapped S po) n (ietfMembers g wrapped S keys po n ms) (ietfMembersCalls g wrapped S keys po n ms) := by
  induction ms with
  | nil => intros; simp only [ietfMembers, ietfMembersCalls]; exact follows_same
  | cons m ms ih =>
    intro wrapped a w po S keys n hh
    simp only [ietfMembers, ietfMembersCalls]
    split
    · exact follows_after (cs := []) rfl follows_same (ih (fun m hm => hms m (List.mem_cons_of_mem _ hm)) hh)
    · refine follows_andThen (follows_withKid hh ?_ ?_) (ih (fun m hm => hms m (List.mem_cons_of_mem _ hm)) hh)
      · unfold ietfUnknown
        split
        · exact follows_same
        · exact follows_fail
        · split
          · exact follows_same
          · exact follows_fail
      · intro pres kids i k c e hk
        subst e
        obtain ⟨a', ha⟩ := hh.kid hk
        exact hms m (List.mem_cons_self ..) _ _ _ _ _ ha

theorem ietfElems_follows {g : LoadOpt} (hg : g.over = false) {xs : List J}
    (hxs : ∀ x ∈ xs, ∀ a w kids keys c, Choices false a w (.cont false kids) →
      Traced R (run (.cont false kids) none) c (ietfElem g kids keys c x) (ietfElemCalls g kids keys c x)) :
    ∀ {a w info kids n}, Choices false a w (.list info kids) →
      Traced R (run (.list info kids) w) n (ietfElems g info kids n xs) (ietfElemsCalls g info kids n xs) := by
  induction xs with
  | nil => intros; simp only [ietfElems, ietfElemsCalls]; exact follows_same
  | cons x xs ih =>
    intro a w info kids n hf
    cases n with
    | list ch es =>
      simp only [ietfElems, ietfElemsCalls, hg]
      have e1 : ∀ f : Inst → Out, (Out.same (.list ch es)).andThen f = f (.list ch es) := by intro f; simp [Out.andThen, Out.same]
      simp only [Bool.false_eq_true, if_false, e1]
      have h1 : Traced R (run (.list info kids) w) (.list ch es)
          ((ietfEntry g info kids ch es x).1.andThen fun n => withEntry n (ietfEntry g info kids ch es x).2 fun c => ietfElem g kids info.keys c x)
          (ietfAddCalls g info kids es x ++ thenCalls (ietfEntry g info kids ch es x).1
            (entryCalls (ietfEntry g info kids ch es x).1.inst (ietfEntry g info kids ch es x).2
              fun c => ietfElemCalls g kids info.keys c x)) :=
        follows_andThen ietfAdd_follows (follows_withEntry ietfEntry_hashable
          (fun c => hxs x (List.mem_cons_self ..) a w kids info.keys c hf) fun c => ietfElem_fitting)
      exact follows_andThen h1 (ih (fun x hx => hxs x (List.mem_cons_of_mem _ hx)) hf)
    | _ => simp [ietfElems, hg, ietfElemsCalls, Out.andThen, Out.same, fail, Traced, plays]

theorem ietfChild_follows {g : LoadOpt} (hg : g.over = false) (j : J) : IetfFollows R g j ∧
    ∀ a w kids keys c, Choices false a w (.cont false kids) →
      Traced R (run (.cont false kids) none) c (ietfElem g kids keys c j) (ietfElemCalls g kids keys c j) := by
  induction j using J.ind with
  | harr xs ih =>
    refine ⟨fun a w S b c hf => ?_, fun _ _ _ _ _ _ => by simp only [ietfElem, ietfElemCalls]; exact follows_fail⟩
    cases S with
    | list info kids => simp only [ietfChild, ietfChildCalls]; exact ietfElems_follows hg (fun x hx => (ih x hx).2) hf
    | _ =>
      simp only [ietfChild, ietfChildCalls]
      split
      · exact follows_same
      · exact stdCalls_follows
  | hobj ms ih =>
    refine ⟨fun a w S b c hf => ?_, fun a w kids keys c hf => ?_⟩
    · simp only [ietfChild, ietfChildCalls]
      exact follows_after markPresent_err markCalls_follows (follows_run rfl (ietfMembers_follows (fun m hm => (ih m hm).1) (wrapped := true) (a := a) (w := w) hf))
    · simp only [ietfElem, ietfElemCalls]
      exact follows_run rfl (ietfMembers_follows (fun m hm => (ih m hm).1) (wrapped := true) (a := a) (w := w) hf)
  | _ => exact ⟨fun _ _ _ _ _ _ => by simp only [ietfChild, ietfChildCalls]; exact stdCalls_follows,
      fun _ _ _ _ _ _ => by simp only [ietfElem, ietfElemCalls]; exact follows_fail⟩

theorem ietfLoad_follows {g : LoadOpt} (hg : g.over = false) {kids : List (Meta × Schema)} (hf : ApartRoot kids) (ns : List Inst) (doc : J) :
    Replays R kids ns (ietfCalls g kids ns doc) (ietfLoad g kids ns doc) := by
  cases doc with
  | obj ms =>
    exact replays_of (ietfMembers_follows (R := R) (fun m _ => (ietfChild_follows hg m.2).1) (wrapped := false) (a := []) (w := none)
      (po := none) (S := .cont false kids) (keys := []) (n := .cont false false ns) (ms := ms) hf)
  | _ => exact replays_nil

/-! ## XML -/

/-- Appending to a leaf-list. -/
def Appends (op : Op) : Prop := ∃ v, op = .ll (.append v)

theorem llApply_refused {L : LLCls} {own : Option Choice} {xs : List PyVal} {ch : Bool} {v : PyVal}
    (h : (llApply L own xs ch (.append v)).err = some .valueError) : (llApply L own xs ch (.append v)).inst = .leafList xs true := by
  simp only [llApply, llStep, llMarks, if_true] at h ⊢
  unfold tlAppend at h ⊢
  split at h
  · split at h
    · simp at h
    · rename_i hq _ _ he
      simp only [if_pos hq]
  · simp at h

theorem append_follows {infer : Str → PyVal} {L : LLCls} {own : Option Choice} {xs : List PyVal} {ch : Bool} {t : Option Str} :
    Traced Appends (run (.leafList L) own) (.leafList xs ch) (xmlAppend infer L own xs ch t) (appendCalls infer L own xs ch t) := by
  unfold xmlAppend appendCalls
  simp only
  split
  · rename_i h
    have e1 : run (.leafList L) own (.leafList xs ch) [] (.ll (.append (pyval infer t))) = llApply L own xs ch (.append (pyval infer t)) := rfl
    have e2 : run (.leafList L) own (.leafList xs true) [] (.ll (.append (.str (pyval infer t).toStr))) =
      llApply L own xs true (.append (.str (pyval infer t).toStr)) := rfl
    simp only [Traced, plays, e1, llApply_refused h.1, e2, List.dropLast]
    refine ⟨trivial, by simp, fun op h => ?_, fun _ op hop => ?_⟩
    · simp only [List.append_nil] at h
      unfold raisedBy at h
      split at h
      · simp at h
      · simp at h; exact ⟨_, h⟩
    rcases List.mem_append.1 hop with h | h
    · unfold raisedBy at h
      split at h
      · simp at h
      · simp at h; exact ⟨_, h⟩
    · simp only [List.append_nil] at h
      unfold raisedBy at h
      split at h
      · simp at h
      · simp at h; exact ⟨_, h⟩
  · exact follows_op [] (.ll (.append (pyval infer t)))

theorem xmlSet_follows {L : LeafCls} {own : Option Choice} {b : Bool} {c : Inst} {t : Option Str} :
    Traced R (run (.leaf L) own) c (xmlSet L own b c t) (xmlSetCalls L b t) := by
  have hset : ∀ v, Traced R (run (.leaf L) own) c (leafSet L own c v) [([], .set v false)] := by
    intro v
    have h := follows_op (R := R) (f := run (.leaf L) own) (n := c) [] (.set v false)
    rw [run_nil] at h
    exact h
  unfold xmlSet xmlSetCalls
  cases t <;> simp only <;> split <;> try exact follows_same
  · split
    · exact hset _
    · split
      · exact follows_fail
      · exact follows_same
  · split
    · exact follows_fail
    · split
      · exact hset _
      · exact hset _

theorem xmlAdd_follows {infer : Str → PyVal} {info : ListInfo} {kids : List (Meta × Schema)} {own : Option Choice} {ch : Bool} {es : Members Inst}
    {ns : Str} {xs : List Xml} :
    Traced R (run (.list info kids) own) (.list ch es) (xmlEntry infer info kids ch es ns xs).1 (xmlAddCalls infer info kids es ns xs) := by
  unfold xmlEntry xmlAddCalls
  split
  · exact follows_fail
  · cases xmlKeys infer ns (keyNames info kids) xs with
    | error e => exact follows_fail
    | ok raws =>
      simp only
      split
      · exact follows_same
      · exact listAdd_follows (.inr (.inl ⟨_, rfl⟩))

theorem xmlEntry_hashable {infer : Str → PyVal} {info : ListInfo} {kids : List (Meta × Schema)} {ch : Bool} {es : Members Inst} {ns : Str} {xs : List Xml} :
    hashable (xmlEntry infer info kids ch es ns xs).2 = true := by
  unfold xmlEntry
  split
  · rfl
  · split
    · rfl
    · split <;> rfl

theorem quiet_one {op : Op} (h1 : ∀ v, op ≠ .set v false) (h2 : ∀ v, op ≠ .assign v) : Quiet [([], op)] := by
  intro c hc _; simp at hc; subst hc; exact ⟨h1, h2⟩

theorem xmlMembers_quiet {infer : Str → PyVal} {wrapped : Bool} {S : Schema} {keys : List Nat} {own : Option Choice} (xs : List Xml) :
    ∀ n, Quiet (xmlMembersCalls infer wrapped S keys own n xs) := by
  induction xs with
  | nil => intro n; simp only [xmlMembersCalls]; exact quiet_nil
  | cons m ms ih => intro n; simp only [xmlMembersCalls]; exact quiet_append kidCalls_quiet (quiet_then (ih _))

theorem xmlChild_quiet {infer : Str → PyVal} {S : Schema} {own : Option Choice} {c : Inst} {x : Xml} : Quiet (xmlChildCalls infer S own true c x) := by
  obtain ⟨ns, nm, ds, t, xs⟩ := x
  unfold xmlChildCalls
  split
  · exact quiet_append markCalls_quiet (xmlMembers_quiet xs _)
  · refine quiet_append ?_ (quiet_then entryCalls_quiet)
    unfold xmlAddCalls
    split
    · exact quiet_nil
    · split
      · exact quiet_nil
      · split
        · exact quiet_nil
        · exact quiet_one (by simp) (by simp)
  · rename_i L vs ch
    have h : ∀ b : Prop, [Decidable b] → Quiet (if b then [([], Op.ll (.append (.str (pyval infer t).toStr)))] else []) := by
      intro b _
      split
      · exact quiet_one (by simp) (by simp)
      · exact quiet_nil
    split
    · exact quiet_append (cs := [_]) (quiet_one (by simp) (by simp)) (h _)
    · exact quiet_nil
  · simp only [xmlSetCalls, if_true]; exact quiet_nil
  · exact quiet_nil

theorem xmlMembers_fitting {infer : Str → PyVal} {wrapped : Bool} {S : Schema} {keys : List Nat} {own : Option Choice} (xs : List Xml) :
    ∀ n, Fitting keys (xmlMembersCalls infer wrapped S keys own n xs) := by
  induction xs with
  | nil => intro n; simp only [xmlMembersCalls]; exact fitting_nil
  | cons m ms ih =>
    intro n
    simp only [xmlMembersCalls]
    refine fitting_append (kidCalls_fitting ?_) (fitting_then (ih _))
    intro pres kids i k c _ _ hi
    rw [hi]; exact xmlChild_quiet

/-- Loading an element into a child. -/
def XmlFollows (infer : Str → PyVal) (x : Xml) : Prop :=
  ∀ a w S b c, Choices false a w S → Traced Appends (run S w) c (xmlChild infer S w b c x) (xmlChildCalls infer S w b c x)

theorem xmlMembers_follows {infer : Str → PyVal} {xs : List Xml} (hxs : ∀ x ∈ xs, XmlFollows infer x) :
    ∀ {wrapped a w po S keys n}, ApartHere wrapped a w S →
      Traced Appends (holdRun wrapped S po) n (xmlMembers infer wrapped S keys po n xs) (xmlMembersCalls infer wrapped S keys po n xs) := by
  induction xs with
  | nil => intros; simp only [xmlMembers, xmlMembersCalls]; exact follows_same
  | cons m ms ih =>
    intro wrapped a w po S keys n hh
    simp only [xmlMembers, xmlMembersCalls]
    refine follows_andThen (follows_withKid hh follows_fail ?_) (ih (fun m hm => hxs m (List.mem_cons_of_mem _ hm)) hh)
    intro pres kids i k c e hk
    subst e
    obtain ⟨a', ha⟩ := hh.kid hk
    exact hxs m (List.mem_cons_self ..) _ _ _ _ _ ha

theorem xmlChild_follows {infer : Str → PyVal} (x : Xml) : XmlFollows infer x := by
  induction x using Xml.ind with
  | h ns nm ds t xs ih =>
    intro a w S b c hf
    cases S with
    | cont pres kids =>
      simp only [xmlChild, xmlChildCalls]
      exact follows_after markPresent_err markCalls_follows (follows_run rfl (xmlMembers_follows ih (wrapped := true) (a := a) (w := w) hf))
    | list info kids =>
      cases c with
      | list ch es =>
        simp only [xmlChild, xmlChildCalls]
        exact follows_andThen xmlAdd_follows (follows_withEntry xmlEntry_hashable
          (fun c => follows_run rfl (xmlMembers_follows ih (wrapped := true) (a := a) (w := w) hf)) fun c => xmlMembers_fitting xs c)
      | _ => simp only [xmlChild, xmlChildCalls]; exact follows_fail
    | leafList L =>
      cases c with
      | leafList vs ch =>
        simp only [xmlChild, xmlChildCalls]
        split
        · exact append_follows
        · exact follows_fail
      | _ => simp only [xmlChild, xmlChildCalls]; exact follows_fail
    | leaf L => simp only [xmlChild, xmlChildCalls]; exact xmlSet_follows

theorem xmlLoad_follows {infer : Str → PyVal} {kids : List (Meta × Schema)} (hf : ApartRoot kids) (ns : List Inst) (doc : Xml) :
    Replays Appends kids ns (xmlCalls infer kids ns doc) (xmlLoad infer kids ns doc) :=
  replays_of (xmlMembers_follows (infer := infer) (xs := doc.kids) (fun m _ => xmlChild_follows m) (wrapped := false) (a := []) (w := none)
    (po := none) (S := .cont false kids) (keys := []) (n := .cont false false ns) hf)

/-! ## Native JSON -/

theorem keyLeaves_kid {pres : Bool} {kids : List (Meta × Schema)} {i : Nat} {k : Meta × Schema} (h : KeyLeaves (.cont pres kids)) (hk : kids[i]? = some k) :
    KeyLeaves k.2 := by
  intro p info ks hp
  exact h (.field i :: p) info ks (by simp only [schemaAt, hk]; exact hp)

theorem keyLeaves_entry {info : ListInfo} {kids : List (Meta × Schema)} (h : KeyLeaves (.list info kids)) : KeyLeaves (.cont false kids) := by
  intro p info' ks hp
  exact h (.key .none :: p) info' ks (by simp only [schemaAt]; exact hp)

theorem nativeAdd_follows {uuid : List PyVal → Str} {info : ListInfo} {kids : List (Meta × Schema)} {own : Option Choice} {k : Str} {n : Inst} :
    Traced R (run (.list info kids) own) n (nativeEntry uuid info kids k n) (nativeAddCalls uuid info k n) := by
  cases n with
  | list ch es =>
    simp only [nativeEntry, nativeAddCalls]
    split
    · exact follows_same
    · split
      · exact listAdd_follows (.inr (.inr ⟨_, rfl⟩))
      · exact listAdd_follows (.inl ⟨_, rfl⟩)
  | _ => exact follows_fail

theorem nativeLoop_follows {uuid : List PyVal → Str} {info : ListInfo} {kids : List (Meta × Schema)} {own : Option Choice}
    {xs : List (Str × (Inst → Out) × (Inst → List ApiCall))}
    (hxs : ∀ x ∈ xs, ∀ c, Traced R (run (.cont false kids) none) c (x.2.1 c) (x.2.2 c) ∧ Fitting info.keys (x.2.2 c)) :
    ∀ n, Traced R (run (.list info kids) own) n (nativeLoop uuid info kids (xs.map fun x => (x.1, x.2.1)) n) (nativeLoopCalls uuid info kids xs n) := by
  induction xs with
  | nil => intro n; simp only [List.map_nil, nativeLoop, nativeLoopCalls]; exact follows_same
  | cons x xs ih =>
    intro n
    simp only [List.map_cons, nativeLoop, nativeLoopCalls]
    have h1 : Traced R (run (.list info kids) own) n
        ((nativeEntry uuid info kids x.1 n).andThen fun n => withEntry n (.str x.1) x.2.1)
        (nativeAddCalls uuid info x.1 n ++ thenCalls (nativeEntry uuid info kids x.1 n)
          (entryCalls (nativeEntry uuid info kids x.1 n).inst (.str x.1) x.2.2)) :=
      follows_andThen nativeAdd_follows (follows_withEntry rfl (fun c => (hxs x (List.mem_cons_self ..) c).1)
        fun c => (hxs x (List.mem_cons_self ..) c).2)
    exact follows_andThen h1 (ih (fun x hx => hxs x (List.mem_cons_of_mem _ hx)) _)

theorem mergeAdd_follows {L : LLCls} {own : Option Choice} (vs : List PyVal) :
    ∀ n, Traced R (run (.leafList L) own) n (mergeAdd L own vs n) (mergeAddCalls L own vs n) := by
  induction vs with
  | nil => intro n; simp only [mergeAdd, mergeAddCalls]; exact follows_same
  | cons v vs ih =>
    intro n
    cases n with
    | leafList xs ch =>
      simp only [mergeAdd, mergeAddCalls]
      split
      · exact follows_after (cs := []) rfl follows_same (ih _)
      · exact follows_andThen (cs := [_]) (follows_op [] (.ll (.append v))) (ih _)
    | _ => exact follows_fail

theorem mergeDrop_follows {L : LLCls} {own : Option Choice} {items : List PyVal} (vs : List PyVal) :
    ∀ n, Traced R (run (.leafList L) own) n (mergeDrop L own items vs n) (mergeDropCalls L own items vs n) := by
  induction vs with
  | nil => intro n; simp only [mergeDrop, mergeDropCalls]; exact follows_same
  | cons v vs ih =>
    intro n
    cases n with
    | leafList xs ch =>
      simp only [mergeDrop, mergeDropCalls]
      split
      · exact follows_after (cs := []) rfl follows_same (ih _)
      · exact follows_andThen (cs := [_]) (follows_op [] (.ll (.remove v))) (ih _)
    | _ => exact follows_fail

theorem merge_follows {L : LLCls} {own : Option Choice} {repr : J → Str} {n : Inst} {j : J} :
    Traced R (run (.leafList L) own) n (nativeMerge L own repr n j) (mergeCalls L own repr n j) := by
  cases j with
  | arr items =>
    simp only [nativeMerge, mergeCalls]
    refine follows_andThen (mergeAdd_follows _ n) ?_
    cases (mergeAdd L own (items.map (jPy repr)) n).inst with
    | leafList xs ch => exact mergeDrop_follows _ _
    | _ => exact follows_fail
  | _ => exact follows_fail

theorem orderPut_map {α β : Type} (f : α → β) (o : Int) (x : α) (kd : List (Int × α)) :
    putOrder o (f x) (kd.map fun p => (p.1, f p.2)) = (putOrder o x kd).map fun p => (p.1, f p.2) := by
  induction kd with
  | nil => rfl
  | cons z kd ih =>
    simp only [List.map_cons, putOrder]
    split
    · rfl
    · split
      · rfl
      · rw [ih]; rfl

theorem orderSplit_map {α β : Type} (f : α → β) : ∀ (xs : List (Option Int × α)) kd ok,
    splitOrder (xs.map fun p => (p.1, f p.2)) (kd.map fun p => (p.1, f p.2)) (ok.map f) =
      ((splitOrder xs kd ok).1.map (fun p => (p.1, f p.2)), (splitOrder xs kd ok).2.map f) := by
  intro xs
  induction xs with
  | nil => intro kd ok; rfl
  | cons z zs ih =>
    intro kd ok
    obtain ⟨o, x⟩ := z
    cases o with
    | none =>
      have := ih kd (ok ++ [x])
      simpa [splitOrder] using this
    | some o =>
      have := ih (putOrder o x kd) ok
      rw [← orderPut_map] at this
      simpa [splitOrder] using this

theorem orderKeys_map {α β : Type} (f : α → β) (ordered : Bool) (xs : List (Option Int × α)) :
    keyOrder ordered (xs.map fun p => (p.1, f p.2)) = (keyOrder ordered xs).map f := by
  unfold keyOrder
  split
  · have := orderSplit_map f xs [] []
    simp only [List.map_nil] at this
    simp [this]
  · simp

theorem fnsCalls_fns {g : LoadOpt} {ordered : Bool} {kids : List (Meta × Schema)} : ∀ ms : List (Str × J),
    (nativeFnsCalls g ordered kids ms).map (fun p => (p.1, (p.2.1, p.2.2.1))) = nativeFns g ordered kids ms := by
  intro ms
  induction ms with
  | nil => simp only [nativeFnsCalls, nativeFns, List.map_nil]
  | cons m ms ih => simp only [nativeFnsCalls, nativeFns, List.map_cons, ih]

theorem fnsCalls_mem {g : LoadOpt} {ordered : Bool} {kids : List (Meta × Schema)} : ∀ {ms : List (Str × J)} {o x}, (o, x) ∈ nativeFnsCalls g ordered kids ms →
    ∃ m ∈ ms, x = (m.1, (fun c => nativeElem g ordered kids c m.2), fun c => nativeElemCalls g ordered kids c m.2) := by
  intro ms
  induction ms with
  | nil => intro o x h; simp [nativeFnsCalls] at h
  | cons m ms ih =>
    intro o x h
    simp only [nativeFnsCalls, List.mem_cons] at h
    rcases h with h | h
    · simp only [Prod.mk.injEq] at h
      exact ⟨m, List.mem_cons_self .., h.2⟩
    · obtain ⟨m', hm', e⟩ := ih h
      exact ⟨m', List.mem_cons_of_mem _ hm', e⟩

theorem nativeLeaf_quiet {g : LoadOpt} {L : LeafCls} {own : Option Choice} {c : Inst} {j : J} : Quiet (nativeChildCalls g (.leaf L) own c j) := by
  cases j <;> simp only [nativeChildCalls, setCalls] <;> exact quiet_one (by simp) (by simp)

theorem nativeMembers_fitting {g : LoadOpt} {ordered wrapped : Bool} {kids : List (Meta × Schema)} {keys : List Nat} {own : Option Choice}
    (hl : ∀ j ∈ keys, ∃ m L, kids[j]? = some (m, .leaf L)) (ms : List (Str × J)) :
    ∀ n, Fitting keys (nativeMembersCalls g wrapped ordered (.cont false kids) own n ms) := by
  induction ms with
  | nil => intro n; simp only [nativeMembersCalls]; exact fitting_nil
  | cons m ms ih =>
    intro n
    simp only [nativeMembersCalls]
    split
    · exact ih n
    · refine fitting_append (kidCalls_fitting ?_) (fitting_then (ih _))
      intro pres ks i k c e hk hi
      injection e with e1 e2
      subst e2
      obtain ⟨m', L, hm⟩ := hl i (by simpa using hi)
      rw [hk] at hm
      obtain rfl := Option.some.inj hm
      exact nativeLeaf_quiet

theorem nativeElem_fitting {g : LoadOpt} {ordered : Bool} {kids : List (Meta × Schema)} {keys : List Nat}
    (hl : ∀ j ∈ keys, ∃ m L, kids[j]? = some (m, .leaf L)) {c : Inst} {j : J} : Fitting keys (nativeElemCalls g ordered kids c j) := by
  cases j <;> simp only [nativeElemCalls] <;> first | exact nativeMembers_fitting hl _ _ | exact fitting_nil

/-- Loading a value into a child. -/
def NativeFollows (R : Op → Prop) (g : LoadOpt) (j : J) : Prop :=
  ∀ a w S c, Choices false a w S → KeyLeaves S → Traced R (run S w) c (nativeChild g false S w c j) (nativeChildCalls g S w c j)

theorem nativeMembers_follows {g : LoadOpt} {ms : List (Str × J)} (hms : ∀ m ∈ ms, NativeFollows R g m.2) :
    ∀ {wrapped ordered a w po S n}, ApartHere wrapped a w S → KeyLeaves S →
      Traced R (holdRun wrapped S po) n (nativeMembers g false wrapped ordered S po n ms) (nativeMembersCalls g wrapped ordered S po n ms) := by
  induction ms with
  | nil => intros; simp only [nativeMembers, nativeMembersCalls]; exact follows_same
  | cons m ms ih =>
    intro wrapped ordered a w po S n hh hl
    simp only [nativeMembers, nativeMembersCalls]
    split
    · exact follows_after (cs := []) rfl follows_same (ih (fun m hm => hms m (List.mem_cons_of_mem _ hm)) hh hl)
    · refine follows_andThen (follows_withKid hh ?_ ?_) (ih (fun m hm => hms m (List.mem_cons_of_mem _ hm)) hh hl)
      · unfold nativeUnknown
        split
        · exact follows_same
        · exact follows_fail
      · intro pres kids i k c e hk
        subst e
        obtain ⟨a', ha⟩ := hh.kid hk
        exact hms m (List.mem_cons_self ..) _ _ _ _ ha (keyLeaves_kid hl hk)

theorem nativeScalar_follows {g : LoadOpt} {j : J}
    (he : ∀ S w c, nativeChild g false S w c j = match S with
      | .cont _ _ => (markPresent S w c).andThen fun c => jsonSet g.repr S w c j
      | .list _ _ => fail c .attributeError
      | .leafList L => nativeMerge L w g.repr c j
      | S => jsonSet g.repr S w c j)
    (hc : ∀ S w c, nativeChildCalls g S w c j = match S with
      | .cont _ _ => markCalls S c ++ setCalls g.repr true S j
      | .list _ _ => []
      | .leafList L => mergeCalls L w g.repr c j
      | S => setCalls g.repr true S j) : NativeFollows R g j := by
  intro a w S c _ _
  rw [he, hc]
  cases S with
  | cont pres kids =>
    exact follows_after (R := R) (o := markPresent (.cont pres kids) w c) (g := fun c => jsonSet g.repr (.cont pres kids) w c j)
      markPresent_err markCalls_follows setCalls_follows
  | list info kids => exact follows_fail
  | leafList L => exact merge_follows
  | leaf L => exact setCalls_follows

theorem nativeChild_follows {g : LoadOpt} (j : J) : NativeFollows R g j ∧
    ∀ ordered a w kids c, Choices false a w (.cont false kids) → KeyLeaves (.cont false kids) →
      Traced R (run (.cont false kids) none) c (nativeElem g ordered kids c j) (nativeElemCalls g ordered kids c j) := by
  induction j using J.ind with
  | hobj ms ih =>
    refine ⟨fun a w S c hf hl => ?_, fun ordered a w kids c hf hl => ?_⟩
    · cases S with
      | cont pres kids =>
        simp only [nativeChild, nativeChildCalls]
        exact follows_after markPresent_err markCalls_follows (follows_run rfl (nativeMembers_follows (fun m hm => (ih m hm).1) (wrapped := true) (a := a) (w := w) hf hl))
      | list info kids =>
        simp only [nativeChild, nativeChildCalls]
        have h1 := nativeLoop_follows (R := R) (uuid := g.uuid) (info := info) (kids := kids) (own := w)
          (xs := keyOrder info.ordered (nativeFnsCalls g info.ordered kids ms)) (by
            intro x hx c
            obtain ⟨o, ho⟩ := orderKeys_mem hx
            obtain ⟨m, hm, rfl⟩ := fnsCalls_mem ho
            exact ⟨(ih m hm).2 _ a w _ _ hf (keyLeaves_entry hl), nativeElem_fitting (hl [] info kids rfl)⟩) c
        rw [← orderKeys_map, fnsCalls_fns] at h1
        refine follows_andThen h1 ?_
        have e1 : ∀ (n : Inst) (f : Inst → Out), (nativeClear false (ms.map Prod.fst) n).andThen f = f n := by
          intro n f; simp [nativeClear, Out.andThen, Out.same]
        rw [e1]
        split
        · exact setCalls_follows
        · exact follows_same
      | leafList L => simp only [nativeChild, nativeChildCalls, Bool.false_eq_true, if_false]; exact merge_follows
      | leaf L => simp only [nativeChild, nativeChildCalls]; exact setCalls_follows
    · simp only [nativeElem, nativeElemCalls]
      exact follows_run rfl (nativeMembers_follows (fun m hm => (ih m hm).1) (wrapped := true) (a := a) (w := w) hf hl)
  | _ =>
    exact ⟨nativeScalar_follows (fun S w c => by cases S <;> rfl) (fun S w c => by cases S <;> rfl), fun _ _ _ _ _ _ _ => by simp only [nativeElem, nativeElemCalls]; exact follows_fail⟩

theorem nativeLoad_follows {g : LoadOpt} (hg : g.over = false) {kids : List (Meta × Schema)} (hf : ApartRoot kids) (hl : KeyLeaves (.cont false kids))
    (ns : List Inst) (doc : J) : Replays R kids ns (nativeCalls g kids ns doc) (nativeLoad g kids ns doc) := by
  cases doc with
  | obj ms =>
    simp only [nativeLoad, hg]
    exact replays_of (nativeMembers_follows (R := R) (g := g) (fun m _ => (nativeChild_follows m.2).1) (wrapped := false) (ordered := false) (a := [])
      (w := none) (po := none) (S := .cont false kids) (n := .cont false false ns) (ms := ms) hf hl)
  | _ => exact replays_nil

end Pyb
