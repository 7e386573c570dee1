import Verif.Lemmas.CallsDoc
import Verif.Lemmas.Reg

/-! # What kind of calls documents are -/

namespace Pyb
open Py Spec

/-- All calls fill the binding. -/
def AllFill (cs : List ApiCall) : Prop := ∀ c ∈ cs, Fills c.2

theorem fill_nil : AllFill [] := by intro c hc; simp at hc
theorem fill_one {p : Path} {op : Op} (h : Fills op) : AllFill [(p, op)] := by intro c hc; simp at hc; subst hc; exact h
theorem fill_append {cs ds : List ApiCall} (h1 : AllFill cs) (h2 : AllFill ds) : AllFill (cs ++ ds) := by
  intro c hc
  rcases List.mem_append.1 hc with h | h
  · exact h1 c h
  · exact h2 c h
theorem fill_then {o : Out} {cs : List ApiCall} (h : AllFill cs) : AllFill (thenCalls o cs) := fun c hc => h c (then_mem hc)
theorem fill_callsAt {s : Step} {cs : List ApiCall} (h : AllFill cs) : AllFill (callsAt s cs) := by
  intro c hc
  obtain ⟨d, hd, rfl⟩ := List.mem_map.1 hc
  exact h d hd

theorem kidCalls_fill {S : Schema} {n : Inst} {name : Str} {fc : Nat → Meta × Schema → Inst → List ApiCall} (h : ∀ i k c, AllFill (fc i k c)) :
    AllFill (kidCalls S n name fc) := by
  unfold kidCalls
  split
  · split
    · exact fill_nil
    · split
      · split
        · exact fill_callsAt (h _ _ _)
        · exact fill_nil
      · exact fill_nil
  · exact fill_nil

theorem entryCalls_fill {n : Inst} {k : PyVal} {fc : Inst → List ApiCall} (h : ∀ c, AllFill (fc c)) : AllFill (entryCalls n k fc) := by
  unfold entryCalls
  split
  · split
    · exact fill_callsAt (h _)
    · exact fill_nil
  · exact fill_nil

theorem setCalls_fill {repr : J → Str} {load : Bool} {S : Schema} {j : J} : AllFill (setCalls repr load S j) := by
  cases S <;> simp only [setCalls] <;> first | exact fill_nil | exact fill_one trivial | exact fill_one (.inl rfl) | exact fill_one (.inr rfl)

theorem markCalls_fill {S : Schema} {n : Inst} : AllFill (markCalls S n) := by
  unfold markCalls
  split
  · exact fill_one rfl
  · exact fill_nil

theorem stdCalls_fill {g : LoadOpt} {S : Schema} {b : Bool} {j : J} : AllFill (stdCalls g S b j) := by
  unfold stdCalls
  split
  · exact fill_nil
  · simp only
    split
    · exact fill_nil
    · exact fill_nil
    · exact setCalls_fill

theorem ietfAdd_fill {g : LoadOpt} {info : ListInfo} {kids : List (Meta × Schema)} {es : Members Inst} {x : J} :
    AllFill (ietfAddCalls g info kids es x) := by
  unfold ietfAddCalls
  split
  · exact fill_one trivial
  · split
    · split
      · exact fill_nil
      · simp only
        split
        · split
          · exact fill_nil
          · split
            · exact fill_nil
            · exact fill_one trivial
        · split
          · exact fill_nil
          · exact fill_one trivial
    · exact fill_nil

theorem ietfMembers_fill {g : LoadOpt} {ms : List (Str × J)} (h : ∀ m ∈ ms, ∀ S own b c, AllFill (ietfChildCalls g S own b c m.2))
    {wrapped : Bool} {S : Schema} {keys : List Nat} {own : Option Choice} : ∀ n, AllFill (ietfMembersCalls g wrapped S keys own n ms) := by
  induction ms with
  | nil => intro n; simp only [ietfMembersCalls]; exact fill_nil
  | cons m ms ih =>
    intro n
    simp only [ietfMembersCalls]
    have ih := ih fun m hm => h m (List.mem_cons_of_mem _ hm)
    split
    · exact ih n
    · exact fill_append (kidCalls_fill fun _ _ _ => h m (List.mem_cons_self ..) _ _ _ _) (fill_then (ih _))

theorem ietfElems_fill {g : LoadOpt} {xs : List J} (h : ∀ x ∈ xs, ∀ kids keys c, AllFill (ietfElemCalls g kids keys c x))
    {info : ListInfo} {kids : List (Meta × Schema)} : ∀ n, AllFill (ietfElemsCalls g info kids n xs) := by
  induction xs with
  | nil => intro n; simp only [ietfElemsCalls]; exact fill_nil
  | cons x xs ih =>
    intro n
    cases n with
    | list ch es =>
      simp only [ietfElemsCalls]
      exact fill_append (fill_append ietfAdd_fill (fill_then (entryCalls_fill fun c => h x (List.mem_cons_self ..) _ _ c)))
        (fill_then (ih (fun x hx => h x (List.mem_cons_of_mem _ hx)) _))
    | _ => simp only [ietfElemsCalls]; exact fill_nil

theorem ietfChild_fill {g : LoadOpt} (j : J) : (∀ S own b c, AllFill (ietfChildCalls g S own b c j)) ∧ ∀ kids keys c, AllFill (ietfElemCalls g kids keys c j) := by
  induction j using J.ind with
  | harr xs ih =>
    refine ⟨fun S own b c => ?_, fun _ _ _ => by simp only [ietfElemCalls]; exact fill_nil⟩
    simp only [ietfChildCalls]
    split
    · exact ietfElems_fill (fun x hx => (ih x hx).2) _
    · split
      · exact fill_nil
      · exact stdCalls_fill
  | hobj ms ih =>
    refine ⟨fun S own b c => ?_, fun kids keys c => ?_⟩
    · simp only [ietfChildCalls]; exact fill_append markCalls_fill (ietfMembers_fill (fun m hm => (ih m hm).1) _)
    · simp only [ietfElemCalls]; exact ietfMembers_fill (fun m hm => (ih m hm).1) _
  | _ => exact ⟨fun _ _ _ _ => by simp only [ietfChildCalls]; exact stdCalls_fill, fun _ _ _ => by simp only [ietfElemCalls]; exact fill_nil⟩

theorem ietfCalls_fill {g : LoadOpt} {kids : List (Meta × Schema)} {ns : List Inst} {doc : J} : AllFill (ietfCalls g kids ns doc) := by
  cases doc <;> simp only [ietfCalls] <;> first | exact fill_nil | exact ietfMembers_fill (fun m _ => (ietfChild_fill m.2).1) _

theorem xmlMembers_fill {infer : Str → PyVal} {xs : List Xml} (h : ∀ x ∈ xs, ∀ S own b c, AllFill (xmlChildCalls infer S own b c x))
    {wrapped : Bool} {S : Schema} {keys : List Nat} {own : Option Choice} : ∀ n, AllFill (xmlMembersCalls infer wrapped S keys own n xs) := by
  induction xs with
  | nil => intro n; simp only [xmlMembersCalls]; exact fill_nil
  | cons m ms ih =>
    intro n
    simp only [xmlMembersCalls]
    exact fill_append (kidCalls_fill fun _ _ _ => h m (List.mem_cons_self ..) _ _ _ _) (fill_then (ih (fun m hm => h m (List.mem_cons_of_mem _ hm)) _))

theorem xmlChild_fill {infer : Str → PyVal} (x : Xml) : ∀ S own b c, AllFill (xmlChildCalls infer S own b c x) := by
  induction x using Xml.ind with
  | h ns nm ds t xs ih =>
    intro S own b c
    unfold xmlChildCalls
    split
    · exact fill_append markCalls_fill (xmlMembers_fill ih _)
    · refine fill_append ?_ (fill_then (entryCalls_fill fun c => xmlMembers_fill ih c))
      unfold xmlAddCalls
      split
      · exact fill_nil
      · split
        · exact fill_nil
        · split
          · exact fill_nil
          · exact fill_one trivial
    · have h : ∀ b : Prop, [Decidable b] → AllFill (if b then [([], Op.ll (.append (.str (pyval infer t).toStr)))] else []) := by
        intro b _
        split
        · exact fill_one trivial
        · exact fill_nil
      split
      · exact fill_append (cs := [_]) (fill_one trivial) (h _)
      · exact fill_nil
    · unfold xmlSetCalls
      split
      · exact fill_nil
      · split
        · split
          · exact fill_one trivial
          · exact fill_nil
        · split
          · split
            · exact fill_nil
            · exact fill_one trivial
          · split
            · exact fill_nil
            · exact fill_one trivial
    · exact fill_nil

theorem xmlCalls_fill {infer : Str → PyVal} {kids : List (Meta × Schema)} {ns : List Inst} {doc : Xml} : AllFill (xmlCalls infer kids ns doc) :=
  xmlMembers_fill (fun x _ => xmlChild_fill x) _

theorem mergeAdd_fill {L : LLCls} {own : Option Choice} (vs : List PyVal) : ∀ n, AllFill (mergeAddCalls L own vs n) := by
  induction vs with
  | nil => intro n; simp only [mergeAddCalls]; exact fill_nil
  | cons v vs ih =>
    intro n
    cases n with
    | leafList xs ch =>
      simp only [mergeAddCalls]
      split
      · exact ih _
      · exact fill_append (cs := [_]) (fill_one trivial) (fill_then (ih _))
    | _ => simp only [mergeAddCalls]; exact fill_nil

theorem mergeDrop_fill {L : LLCls} {own : Option Choice} {items : List PyVal} (vs : List PyVal) : ∀ n, AllFill (mergeDropCalls L own items vs n) := by
  induction vs with
  | nil => intro n; simp only [mergeDropCalls]; exact fill_nil
  | cons v vs ih =>
    intro n
    cases n with
    | leafList xs ch =>
      simp only [mergeDropCalls]
      split
      · exact ih _
      · exact fill_append (cs := [_]) (fill_one trivial) (fill_then (ih _))
    | _ => simp only [mergeDropCalls]; exact fill_nil

theorem merge_fill {L : LLCls} {own : Option Choice} {repr : J → Str} {n : Inst} {j : J} : AllFill (mergeCalls L own repr n j) := by
  cases j with
  | arr items =>
    simp only [mergeCalls]
    refine fill_append (mergeAdd_fill _ _) (fill_then ?_)
    split
    · exact mergeDrop_fill _ _
    · exact fill_nil
  | _ => simp only [mergeCalls]; exact fill_nil

theorem nativeLoop_fill {uuid : List PyVal → Str} {info : ListInfo} {kids : List (Meta × Schema)}
    {xs : List (Str × (Inst → Out) × (Inst → List ApiCall))} (hxs : ∀ x ∈ xs, ∀ c, AllFill (x.2.2 c)) :
    ∀ n, AllFill (nativeLoopCalls uuid info kids xs n) := by
  induction xs with
  | nil => intro n; simp only [nativeLoopCalls]; exact fill_nil
  | cons x xs ih =>
    intro n
    simp only [nativeLoopCalls]
    refine fill_append (fill_append ?_ (fill_then (entryCalls_fill (hxs x (List.mem_cons_self ..))))) (fill_then (ih (fun x hx => hxs x (List.mem_cons_of_mem _ hx)) _))
    unfold nativeAddCalls
    split
    · split
      · exact fill_nil
      · split <;> exact fill_one trivial
    · exact fill_nil

theorem nativeMembers_fill {g : LoadOpt} {ms : List (Str × J)} (h : ∀ m ∈ ms, ∀ S own c, AllFill (nativeChildCalls g S own c m.2))
    {wrapped ordered : Bool} {S : Schema} {own : Option Choice} : ∀ n, AllFill (nativeMembersCalls g wrapped ordered S own n ms) := by
  induction ms with
  | nil => intro n; simp only [nativeMembersCalls]; exact fill_nil
  | cons m ms ih =>
    intro n
    simp only [nativeMembersCalls]
    have ih := ih fun m hm => h m (List.mem_cons_of_mem _ hm)
    split
    · exact ih n
    · exact fill_append (kidCalls_fill fun _ _ _ => h m (List.mem_cons_self ..) _ _ _) (fill_then (ih _))

theorem nativeChild_fill {g : LoadOpt} (j : J) : (∀ S own c, AllFill (nativeChildCalls g S own c j)) ∧
    ∀ ordered kids c, AllFill (nativeElemCalls g ordered kids c j) := by
  induction j using J.ind with
  | hobj ms ih =>
    refine ⟨fun S own c => ?_, fun ordered kids c => ?_⟩
    · cases S with
      | cont pres kids => simp only [nativeChildCalls]; exact fill_append markCalls_fill (nativeMembers_fill (fun m hm => (ih m hm).1) _)
      | list info kids =>
        simp only [nativeChildCalls]
        refine fill_append (nativeLoop_fill (fun x hx c => ?_) _) (fill_then ?_)
        · obtain ⟨o, ho⟩ := orderKeys_mem hx
          obtain ⟨m, hm, rfl⟩ := fnsCalls_mem ho
          exact (ih m hm).2 _ _ _
        · split
          · exact setCalls_fill
          · exact fill_nil
      | leafList L => simp only [nativeChildCalls]; exact merge_fill
      | leaf L => simp only [nativeChildCalls]; exact setCalls_fill
    · simp only [nativeElemCalls]; exact nativeMembers_fill (fun m hm => (ih m hm).1) _
  | _ =>
    refine ⟨fun S own c => ?_, fun _ _ _ => by simp only [nativeElemCalls]; exact fill_nil⟩
    cases S <;> simp only [nativeChildCalls] <;> first | exact fill_append markCalls_fill setCalls_fill | exact fill_nil | exact merge_fill | exact setCalls_fill

theorem nativeCalls_fill {g : LoadOpt} {kids : List (Meta × Schema)} {ns : List Inst} {doc : J} : AllFill (nativeCalls g kids ns doc) := by
  cases doc <;> simp only [nativeCalls] <;> first | exact fill_nil | exact nativeMembers_fill (fun m _ => (nativeChild_fill m.2).1) _

/-! ## Histories -/

theorem history_append (kids : List (Meta × Schema)) (cs ds : List ApiCall) : ∀ ns, history kids ns (cs ++ ds) = history kids (history kids ns cs) ds := by
  induction cs with
  | nil => intro ns; rfl
  | cons c cs ih => intro ns; obtain ⟨p, op⟩ := c; simp only [List.cons_append, history]; exact ih _

theorem histOk_append {K : PyVal → Prop} {kids : List (Meta × Schema)} (cs ds : List ApiCall) : ∀ {ns}, HistOk K kids ns cs →
    HistOk K kids (history kids ns cs) ds → HistOk K kids ns (cs ++ ds) := by
  induction cs with
  | nil => intro ns _ h; exact h
  | cons c cs ih =>
    intro ns h1 h2
    obtain ⟨p, op⟩ := c
    exact ⟨h1.1, h1.2.1, ih h1.2.2 h2⟩

theorem histOk_of {K : PyVal → Prop} {kids : List (Meta × Schema)} (cs : List ApiCall) : ∀ {ns}, (∀ c ∈ cs, ∀ S, clsAt kids c.1 = some S → OpOk K S c.2) →
    (∀ op ∈ raised kids ns cs, Appends op) → HistOk K kids ns cs := by
  induction cs with
  | nil => intro ns _ _; trivial
  | cons c cs ih =>
    intro ns h1 h2
    obtain ⟨p, op⟩ := c
    simp only [raised] at h2
    refine ⟨h1 (p, op) (List.mem_cons_self ..), ?_, ih (fun c hc => h1 c (List.mem_cons_of_mem _ hc)) fun op hop => h2 op ?_⟩
    · cases he : (runRoot kids ns p op).2 with
      | none => exact .inl he
      | some e =>
        rw [he] at h2
        obtain ⟨v, rfl⟩ := h2 op (List.mem_cons_self ..)
        refine .inr fun S n _ _ h => ?_
        cases S <;> cases n <;> exact h
    · split
      · exact hop
      · exact List.mem_cons_of_mem _ hop

/-- As `histOk_of`, if the last call may raise otherwise. -/
theorem histOk_last {K : PyVal → Prop} {kids : List (Meta × Schema)} {cs : List ApiCall} {ns : List Inst}
    (h1 : ∀ c ∈ cs, ∀ S, clsAt kids c.1 = some S → OpOk K S c.2) (h2 : ∀ op ∈ raised kids ns cs.dropLast, Appends op)
    (h3 : EndOk kids ns cs) : HistOk K kids ns cs := by
  rcases List.eq_nil_or_concat cs with rfl | ⟨ds, c, rfl⟩
  · trivial
  · rw [List.concat_eq_append] at *
    rw [List.dropLast_concat] at h2
    refine histOk_append ds [c] (histOk_of ds (fun c hc => h1 c (List.mem_append_left _ hc)) h2) ?_
    exact ⟨h1 c (by simp), h3 ds c.1 c.2 rfl, trivial⟩

end Pyb
