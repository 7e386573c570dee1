import Verif.Model.Calls
import Verif.Spec.Calls
import Verif.Lemmas.LoadInv
import Verif.Lemmas.TreePoint

/-! # Following calls -/

namespace Pyb
open Py Spec

variable {st : Bool}

/-- The operation, if it raised. -/
def raisedBy (e : Option Err) (op : Op) : List Op :=
  match e with
  | none => []
  | some _ => [op]

/-- Calls one after the other, whether they raise or not: the state, the calls of `_set` and
the operations that raised. -/
def plays (f : Inst → Path → Op → Out) : Inst → List ApiCall → Inst × List (Option Choice) × List Op
  | n, [] => (n, [], [])
  | n, c :: cs =>
    ((plays f (f n c.1 c.2).inst cs).1, (f n c.1 c.2).sigs ++ (plays f (f n c.1 c.2).inst cs).2.1,
      raisedBy (f n c.1 c.2).err c.2 ++ (plays f (f n c.1 c.2).inst cs).2.2)

theorem plays_append (f : Inst → Path → Op → Out) (cs ds : List ApiCall) : ∀ n,
    plays f n (cs ++ ds) = ((plays f (plays f n cs).1 ds).1, (plays f n cs).2.1 ++ (plays f (plays f n cs).1 ds).2.1,
      (plays f n cs).2.2 ++ (plays f (plays f n cs).1 ds).2.2) := by
  induction cs with
  | nil => intro n; simp [plays]
  | cons c cs ih => intro n; simp [plays, ih]

/-- What is done is what the calls do; calls that raise on the way are of the kind `R`, and only
if something is raised in the end may the last one be of another kind. -/
def Traced (R : Op → Prop) (f : Inst → Path → Op → Out) (n : Inst) (o : Out) (cs : List ApiCall) : Prop :=
  (plays f n cs).1 = o.inst ∧ (plays f n cs).2.1 = o.sigs ∧ (∀ op ∈ (plays f n cs.dropLast).2.2, R op) ∧
  (o.err = none → ∀ op ∈ (plays f n cs).2.2, R op)

variable {R : Op → Prop} {f : Inst → Path → Op → Out} {n : Inst}

theorem follows_same : Traced R f n (Out.same n) [] := by
  simp [Traced, plays, Out.same]

theorem follows_fail {e : Err} : Traced R f n (fail n e) [] := by
  simp [Traced, plays, fail]

theorem follows_op (p : Path) (op : Op) : Traced R f n (f n p op) [(p, op)] := by
  simp only [Traced, plays, List.dropLast_singleton, List.append_nil]
  refine ⟨trivial, trivial, by simp, fun he => by simp [he, raisedBy]⟩

theorem raised_dropLast {cs : List ApiCall} {op : Op} (h : op ∈ (plays f n cs.dropLast).2.2) : op ∈ (plays f n cs).2.2 := by
  rcases List.eq_nil_or_concat cs with rfl | ⟨ds, c, rfl⟩
  · simpa using h
  · rw [List.concat_eq_append] at h ⊢
    rw [List.dropLast_concat] at h
    rw [plays_append]
    exact List.mem_append_left _ h

theorem follows_andThen {o : Out} {g : Inst → Out} {cs ds : List ApiCall} (h1 : Traced R f n o cs) (h2 : Traced R f o.inst (g o.inst) ds) :
    Traced R f n (o.andThen g) (cs ++ thenCalls o ds) := by
  obtain ⟨a1, a2, a3, a4⟩ := h1
  obtain ⟨b1, b2, b3, b4⟩ := h2
  unfold Out.andThen thenCalls
  cases h : o.err with
  | some e => simp only [List.append_nil]; exact ⟨a1, a2, a3, fun he => by simp [h] at he⟩
  | none =>
    simp only []
    have a4 := a4 h
    refine ⟨?_, ?_, ?_, fun he => ?_⟩
    · rw [plays_append, a1]; exact b1
    · rw [plays_append, a1]; simp only [a2, b2]
    · by_cases hd : ds = []
      · subst hd; rw [List.append_nil]; exact a3
      · rw [List.dropLast_append_of_ne_nil hd, plays_append, a1]
        intro op hop
        rcases List.mem_append.1 hop with h | h
        · exact a4 op h
        · exact b3 op h
    · rw [plays_append, a1]
      intro op hop
      rcases List.mem_append.1 hop with h | h
      · exact a4 op h
      · exact b4 he op h

theorem follows_after {o : Out} {g : Inst → Out} {cs ds : List ApiCall} (he : o.err = none) (h1 : Traced R f n o cs)
    (h2 : Traced R f o.inst (g o.inst) ds) : Traced R f n (o.andThen g) (cs ++ ds) := by
  have := follows_andThen h1 h2
  simpa [thenCalls, he] using this

theorem then_mem {o : Out} {cs : List ApiCall} {c : ApiCall} (h : c ∈ thenCalls o cs) : c ∈ cs := by
  unfold thenCalls at h
  split at h
  · exact h
  · simp at h

/-! ## Below a container -/

theorem clearsBy_own {above : List Str} {kids : List (Meta × Schema)} {k : Meta × Schema} (hk : k ∈ kids)
    {sigs : List (Option Choice)} (hg : GoodSigs st (choiceNames kids ++ above) k.1.choice sigs) : clearsBy sigs k.1.choice = false := by
  cases h : clearsBy sigs k.1.choice with
  | false => rfl
  | true => exact absurd (clearsBy_rival hk hg h) (rivals_irrefl _)

theorem recvAll_append (pres : Bool) (kids : List (Meta × Schema)) (n : Inst) (a b : List (Option Choice)) :
    recvAll pres kids n (a ++ b) = recvAll pres kids (recvAll pres kids n a) b := by
  simp [recvAll]

/-- Calls that do not clear a child do the same whatever it is. -/
theorem recvAll_set {pres : Bool} {kids : List (Meta × Schema)} {sigs : List (Option Choice)} {ch pr ch' pr' : Bool} {ns ns' : List Inst}
    {i : Nat} {k : Meta × Schema} (hk : kids[i]? = some k) (hs : clearsBy sigs k.1.choice = false) (x y : Inst)
    (h : recvAll pres kids (.cont ch pr (ns.set i x)) sigs = .cont ch' pr' ns') :
    recvAll pres kids (.cont ch pr (ns.set i y)) sigs = .cont ch' pr' (ns'.set i y) := by
  obtain ⟨n1, a1, a2⟩ := recvAll_cont pres kids sigs ch pr (ns.set i x)
  obtain ⟨n2, b1, b2⟩ := recvAll_cont pres kids sigs ch pr (ns.set i y)
  rw [a1] at h
  rw [b1]
  injection h with e1 e2 e3
  subst e3
  rw [e1, e2]
  congr 1
  apply List.ext_getElem?
  intro j
  rw [b2 j]
  by_cases e : i = j
  · subst e
    have hl := a2 i
    rw [hk] at hl ⊢
    by_cases hi : i < ns.length
    · rw [List.getElem?_set_self hi] at hl ⊢
      simp only [clr, hs] at hl ⊢
      have := (List.getElem?_eq_some_iff.1 hl).1
      rw [List.getElem?_set_self this]; simp
    · have h1 : (ns.set i y)[i]? = none := by simp; omega
      have h2 : (ns.set i x)[i]? = none := by simp; omega
      rw [h1]; rw [h2] at hl
      simp only [clr] at hl ⊢
      symm
      have := List.getElem?_eq_none_iff.1 hl
      simp; omega
  · rw [List.getElem?_set_ne e, List.getElem?_set_ne e, a2 j, List.getElem?_set_ne e]

theorem plays_kid {above : List Str} {own po : Option Choice} {pres : Bool} {kids : List (Meta × Schema)} {i : Nat} {k : Meta × Schema}
    (hf : ChoicesKids st above own (choiceNames kids ++ above) kids) (hk : kids[i]? = some k) :
    ∀ (cs : List ApiCall) (ch pr : Bool) (ns : List Inst) (c : Inst), ns[i]? = some c →
      plays (run (.cont pres kids) po) (.cont ch pr ns) (callsAt (.field i) cs) =
        (recvAll pres kids (.cont ch pr (ns.set i (plays (run k.2 k.1.choice) c cs).1)) (plays (run k.2 k.1.choice) c cs).2.1,
          (plays (run k.2 k.1.choice) c cs).2.1.map (·.or po), (plays (run k.2 k.1.choice) c cs).2.2) := by
  have hm := List.mem_of_getElem? hk
  have hkf := (flatKids_mem hf hm).2.2
  intro cs
  induction cs with
  | nil => intro ch pr ns c hc; simp [callsAt, plays, recvAll, set_same hc]
  | cons x cs ih =>
    intro ch pr ns c hc
    have hrun : run (.cont pres kids) po (.cont ch pr ns) (.field i :: x.1) x.2
        = contPut pres po kids ch pr ns i (run k.2 k.1.choice c x.1 x.2) := by
      simp only [run, hk, hc]
    generalize ho : run k.2 k.1.choice c x.1 x.2 = o at hrun
    have hcl : clearsBy o.sigs k.1.choice = false := by
      rw [← ho]; exact clearsBy_own (above := above) (st := st) hm (run_good hkf (.inl rfl))
    obtain ⟨ns', g1, g2⟩ := contPut_spec pres po kids ch pr ns i o
    have hi := (List.getElem?_eq_some_iff.1 hc).1
    have hc' : ns'[i]? = some o.inst := by
      rw [g2 i, hk, List.getElem?_set_self hi]; simp [clr, hcl]
    have hcs : callsAt (.field i) (x :: cs) = (.field i :: x.1, x.2) :: callsAt (.field i) cs := rfl
    rw [hcs]
    simp only [plays, hrun, ho, g1, ih _ _ _ _ hc']
    refine Prod.ext ?_ (Prod.ext ?_ ?_)
    · simp only []
      rw [recvAll_append, recvAll_set hk hcl o.inst _ g1]
    · simp [contPut]
    · simp only [contPut]

/-- An operation on a child of an object, or of the object of a module. -/
def holdRun (wrapped : Bool) (S : Schema) (po : Option Choice) (n : Inst) (p : Path) (op : Op) : Out :=
  if wrapped then run S po n p op
  else match n with
    | .cont ch pr ns => ⟨.cont ch pr (runRoot S.kids ns p op).1, [], (runRoot S.kids ns p op).2⟩
    | n => fail n .attributeError

theorem plays_root {pres : Bool} {po : Option Choice} {kids : List (Meta × Schema)} {i : Nat} {k : Meta × Schema} (hk : kids[i]? = some k) :
    ∀ (cs : List ApiCall) (ch pr : Bool) (ns : List Inst) (c : Inst), ns[i]? = some c →
      plays (holdRun false (.cont pres kids) po) (.cont ch pr ns) (callsAt (.field i) cs) =
        (.cont ch pr (ns.set i (plays (run k.2 k.1.choice) c cs).1), [], (plays (run k.2 k.1.choice) c cs).2.2) := by
  intro cs
  induction cs with
  | nil => intro ch pr ns c hc; simp [callsAt, plays, set_same hc]
  | cons x cs ih =>
    intro ch pr ns c hc
    have hi := (List.getElem?_eq_some_iff.1 hc).1
    have hrun : holdRun false (.cont pres kids) po (.cont ch pr ns) (.field i :: x.1) x.2
        = ⟨.cont ch pr (ns.set i (run k.2 k.1.choice c x.1 x.2).inst), [], (run k.2 k.1.choice c x.1 x.2).err⟩ := by
      simp only [holdRun, Schema.kids, runRoot, hk, hc]; rfl
    have hcs : callsAt (.field i) (x :: cs) = (.field i :: x.1, x.2) :: callsAt (.field i) cs := rfl
    rw [hcs]
    simp only [plays, hrun]
    rw [ih ch pr _ _ (List.getElem?_set_self hi)]
    simp

/-- The conditions on choices, for an object or for the object of a module. -/
def ApartHere (wrapped : Bool) (a : List Str) (w : Option Choice) (S : Schema) : Prop :=
  if wrapped then Choices false a w S else ∀ k ∈ S.kids, Choices false [] k.1.choice k.2

theorem ApartHere.kid {wrapped : Bool} {a : List Str} {w : Option Choice} {pres : Bool} {kids : List (Meta × Schema)} {i : Nat} {k : Meta × Schema}
    (h : ApartHere wrapped a w (.cont pres kids)) (hk : kids[i]? = some k) : ∃ a', Choices false a' k.1.choice k.2 := by
  have hm := List.mem_of_getElem? hk
  unfold ApartHere at h
  split at h
  · exact ⟨_, (flatKids_mem h hm).2.2⟩
  · exact ⟨_, h k hm⟩

theorem follows_kid {wrapped : Bool} {a : List Str} {w po : Option Choice} {pres : Bool} {kids : List (Meta × Schema)} {i : Nat} {k : Meta × Schema}
    {ch pr : Bool} {ns : List Inst} {c : Inst} {o : Out} {cs : List ApiCall} (hh : ApartHere wrapped a w (.cont pres kids))
    (hk : kids[i]? = some k) (hc : ns[i]? = some c) (h : Traced R (run k.2 k.1.choice) c o cs) :
    Traced R (holdRun wrapped (.cont pres kids) po) (.cont ch pr ns) (holdPut wrapped pres po kids ch pr ns i o) (callsAt (.field i) cs) := by
  obtain ⟨h1, h2, h3, h4⟩ := h
  have hd : (callsAt (.field i) cs).dropLast = callsAt (.field i) cs.dropLast := by simp [callsAt, List.map_dropLast]
  unfold Traced
  rw [hd]
  cases wrapped with
  | true =>
    have : holdRun true (.cont pres kids) po = run (.cont pres kids) po := by funext n p op; simp [holdRun]
    have hf : ChoicesKids false a w (choiceNames kids ++ a) kids := hh
    rw [this, plays_kid hf hk cs ch pr ns c hc, plays_kid hf hk cs.dropLast ch pr ns c hc]
    simp only [holdPut, if_true, contPut, h1, h2]
    exact ⟨trivial, trivial, h3, h4⟩
  | false =>
    rw [plays_root hk cs ch pr ns c hc, plays_root hk cs.dropLast ch pr ns c hc]
    simp only [holdPut, h1]
    exact ⟨rfl, rfl, h3, h4⟩

theorem follows_withKid {wrapped : Bool} {a : List Str} {w po : Option Choice} {S : Schema} {name : Str} {u : Out}
    {f : Nat → Meta × Schema → Inst → Out} {fc : Nat → Meta × Schema → Inst → List ApiCall} (hh : ApartHere wrapped a w S)
    (hu : Traced R (holdRun wrapped S po) n u [])
    (hf : ∀ pres kids i k c, S = .cont pres kids → kids[i]? = some k → Traced R (run k.2 k.1.choice) c (f i k c) (fc i k c)) :
    Traced R (holdRun wrapped S po) n (withKid wrapped S po n name u f) (kidCalls S n name fc) := by
  cases S with
  | cont pres kids =>
    simp only [withKid, kidCalls]
    cases hi : kidIdx kids name with
    | none => exact hu
    | some i =>
      cases hk : kids[i]? with
      | none => simp only [hk]; exact follows_fail
      | some k =>
        cases n with
        | cont ch pr ns =>
          simp only [hk]
          cases hc : ns[i]? with
          | none => exact follows_fail
          | some c => exact follows_kid hh hk hc (hf _ _ _ _ _ rfl hk)
        | _ => simp only [hk]; exact follows_fail
  | _ => exact hu

/-! ## Below a list -/

/-- The calls are on what an entry holds, and none is refused for a key leaf. -/
def Fitting (keys : List Nat) (cs : List ApiCall) : Prop := ∀ c ∈ cs, c.1 ≠ [] ∧ keyGuard ⟨keys, false⟩ c.1 c.2 = false

/-- No setter is called on the object itself. -/
def Quiet (cs : List ApiCall) : Prop := ∀ c ∈ cs, c.1 = [] → (∀ v, c.2 ≠ .set v false) ∧ ∀ v, c.2 ≠ .assign v

theorem keyGuard_info (info : ListInfo) (p : Path) (op : Op) : keyGuard info p op = keyGuard ⟨info.keys, false⟩ p op := by
  unfold keyGuard; split <;> rfl

theorem fitting_append {keys : List Nat} {cs ds : List ApiCall} (h1 : Fitting keys cs) (h2 : Fitting keys ds) : Fitting keys (cs ++ ds) := by
  intro c hc
  rcases List.mem_append.1 hc with h | h
  · exact h1 c h
  · exact h2 c h

theorem fitting_nil {keys : List Nat} : Fitting keys [] := by intro c hc; simp at hc

theorem quiet_nil : Quiet [] := by intro c hc; simp at hc

theorem quiet_append {cs ds : List ApiCall} (h1 : Quiet cs) (h2 : Quiet ds) : Quiet (cs ++ ds) := by
  intro c hc
  rcases List.mem_append.1 hc with h | h
  · exact h1 c h
  · exact h2 c h

theorem quiet_then {o : Out} {cs : List ApiCall} (h : Quiet cs) : Quiet (thenCalls o cs) := fun c hc => h c (then_mem hc)

theorem fitting_then {keys : List Nat} {o : Out} {cs : List ApiCall} (h : Fitting keys cs) : Fitting keys (thenCalls o cs) := fun c hc => h c (then_mem hc)

theorem quiet_callsAt (s : Step) (cs : List ApiCall) : Quiet (callsAt s cs) := by
  intro c hc h
  obtain ⟨d, _, rfl⟩ := List.mem_map.1 hc
  simp at h

theorem kidCalls_fitting {keys : List Nat} {S : Schema} {name : Str} {fc : Nat → Meta × Schema → Inst → List ApiCall}
    (h : ∀ pres kids i k c, S = .cont pres kids → kids[i]? = some k → keys.contains i = true → Quiet (fc i k c)) :
    Fitting keys (kidCalls S n name fc) := by
  unfold kidCalls
  split
  · split
    · exact fitting_nil
    · split
      · split
        · rename_i i hi _ _ k _ _ ns hk _ c hc
          intro x hx
          obtain ⟨d, hd, rfl⟩ := List.mem_map.1 hx
          refine ⟨by simp, ?_⟩
          by_cases hm : keys.contains i = true
          · have := h _ _ _ _ c rfl hk hm d hd
            simp only []
            obtain ⟨p, op⟩ := d
            simp only at this ⊢
            unfold keyGuard
            split
            · rename_i e1; simp only [List.cons.injEq] at e1; exact absurd rfl ((this e1.2).1 _)
            · rename_i e1; simp only [List.cons.injEq] at e1; exact absurd rfl ((this e1.2).2 _)
            · rfl
          · obtain ⟨p, op⟩ := d
            unfold keyGuard
            split
            · rename_i e1 _; simp only [List.cons.injEq, Step.field.injEq] at e1; rw [← e1.1]; simpa using hm
            · rename_i e1 _; simp only [List.cons.injEq, Step.field.injEq] at e1; rw [← e1.1]; simpa using hm
            · rfl
        · exact fitting_nil
      · exact fitting_nil
  · exact fitting_nil

theorem kidCalls_quiet {S : Schema} {name : Str} {fc : Nat → Meta × Schema → Inst → List ApiCall} : Quiet (kidCalls S n name fc) := by
  unfold kidCalls
  split
  · split
    · exact quiet_nil
    · split
      · split
        · exact quiet_callsAt _ _
        · exact quiet_nil
      · exact quiet_nil
  · exact quiet_nil

theorem entryCalls_quiet {k : PyVal} {fc : Inst → List ApiCall} : Quiet (entryCalls n k fc) := by
  unfold entryCalls
  split
  · split
    · exact quiet_callsAt _ _
    · exact quiet_nil
  · exact quiet_nil

theorem find_store_at {es : Members Inst} {k : PyVal} {q : PyVal × Inst} (e : Inst)
    (h : (es.find? fun q => pyEq q.1 k) = some q) : ((store es k e).find? fun q => pyEq q.1 k) = some (q.1, e) := by
  induction es with
  | nil => simp at h
  | cons p es ih =>
    by_cases hp : pyEq p.1 k = true
    · simp [hp] at h; subst h; simp [store, hp]
    · simp [hp] at h; simp [store, hp]; exact ih h

theorem store_twice {es : Members Inst} {k : PyVal} {q : PyVal × Inst} (e e' : Inst)
    (h : (es.find? fun q => pyEq q.1 k) = some q) : store (store es k e) k e' = store es k e' := by
  induction es with
  | nil => simp at h
  | cons p es ih =>
    by_cases hp : pyEq p.1 k = true
    · simp [store, hp]
    · simp [hp] at h; simp [store, hp]; exact ih h

theorem plays_entry {info : ListInfo} {kids : List (Meta × Schema)} {own : Option Choice} {k : PyVal} (hk : hashable k = true) :
    ∀ (cs : List ApiCall) (ch : Bool) (es : Members Inst) (q : PyVal × Inst), (es.find? fun q => pyEq q.1 k) = some q → Fitting info.keys cs →
      plays (run (.list info kids) own) (.list ch es) (callsAt (.key k) cs) =
        (.list ch (store es k (plays (run (.cont false kids) none) q.2 cs).1), (plays (run (.cont false kids) none) q.2 cs).2.1,
          (plays (run (.cont false kids) none) q.2 cs).2.2) := by
  intro cs
  induction cs with
  | nil => intro ch es q hq _; simp [callsAt, plays, find_store_self hq]
  | cons x cs ih =>
    intro ch es q hq hfit
    have hx := hfit x (List.mem_cons_self ..)
    have hrun : run (.list info kids) own (.list ch es) (.key k :: x.1) x.2
        = ⟨.list ch (store es k (run (.cont false kids) none q.2 x.1 x.2).inst), (run (.cont false kids) none q.2 x.1 x.2).sigs,
            (run (.cont false kids) none q.2 x.1 x.2).err⟩ := by
      simp only [run, hk, hq, hx.1, keyGuard_info info, hx.2]; simp
    have hcs : callsAt (.key k) (x :: cs) = (.key k :: x.1, x.2) :: callsAt (.key k) cs := rfl
    rw [hcs]
    simp only [plays, hrun]
    rw [ih ch _ _ (find_store_at _ hq) fun c hc => hfit c (List.mem_cons_of_mem _ hc)]
    simp [store_twice _ _ hq]

theorem follows_withEntry {info : ListInfo} {kids : List (Meta × Schema)} {own : Option Choice} {k : PyVal} {g : Inst → Out}
    {gc : Inst → List ApiCall} (hk : hashable k = true) (hf : ∀ c, Traced R (run (.cont false kids) none) c (g c) (gc c))
    (hfit : ∀ c, Fitting info.keys (gc c)) :
    Traced R (run (.list info kids) own) n (withEntry n k g) (entryCalls n k gc) := by
  unfold withEntry entryCalls
  cases n with
  | list ch es =>
    cases hq : es.find? fun q => pyEq q.1 k with
    | none => simp only [hq]; exact follows_fail
    | some q =>
      obtain ⟨h1, h2, h3, h4⟩ := hf q.2
      have hd : (callsAt (.key k) (gc q.2)).dropLast = callsAt (.key k) (gc q.2).dropLast := by simp [callsAt, List.map_dropLast]
      simp only [hq]
      unfold Traced
      rw [hd, plays_entry hk _ ch es q hq (hfit _), plays_entry hk _ ch es q hq fun c hc => hfit _ c (List.dropLast_subset _ hc)]
      simp only [h1, h2]
      exact ⟨trivial, trivial, h3, h4⟩
  | _ => exact follows_fail

/-! ## The common steps -/

theorem markCalls_follows {S : Schema} {own : Option Choice} : Traced R (run S own) n (markPresent S own n) (markCalls S n) := by
  cases S with
  | cont pres kids =>
    cases pres <;> cases n <;> first | exact follows_op [] (.present true) | exact follows_same
  | _ => exact follows_same

theorem markPresent_err {S : Schema} {own : Option Choice} : (markPresent S own n).err = none := by
  unfold markPresent; split <;> rfl

theorem setCalls_follows {repr : J → Str} {load : Bool} {S : Schema} {own : Option Choice} {j : J} :
    Traced R (run S own) n (jsonSet repr S own n j) (setCalls repr load S j) := by
  cases S with
  | leaf L =>
    have h := follows_op (R := R) (f := run (.leaf L) own) (n := n) [] (.set (jPy repr j) load)
    rw [run_nil] at h
    exact h
  | leafList L =>
    cases n with
    | leafList xs ch => exact follows_op [] (.ll (.assign (jArg repr j)))
    | _ => exact follows_op [] (.ll (.assign (jArg repr j)))
  | list info kids =>
    have h := follows_op (R := R) (f := run (.list info kids) own) (n := n) [] (.assign (.list false []))
    rw [run_nil] at h
    exact h
  | cont pres kids =>
    have h := follows_op (R := R) (f := run (.cont pres kids) own) (n := n) [] (.assign (.leaf .none false))
    rw [run_nil] at h
    exact h

theorem follows_run {wrapped : Bool} {S : Schema} {po : Option Choice} {o : Out} {cs : List ApiCall} (hw : wrapped = true)
    (h : Traced R (holdRun wrapped S po) n o cs) : Traced R (run S po) n o cs := by
  subst hw
  have : holdRun true S po = run S po := by funext n p op; simp [holdRun]
  rw [this] at h; exact h

theorem listAdd_follows {info : ListInfo} {kids : List (Meta × Schema)} {own : Option Choice} {op : Op}
    (hq : (∃ k, op = .add k) ∨ (∃ r, op = .addNamed r) ∨ (∃ u, op = .addAnon u)) :
    Traced R (run (.list info kids) own) n (nodeOp (.list info kids) none n op) [([], op)] := by
  have e : nodeOp (.list info kids) own n op = nodeOp (.list info kids) none n op := by
    rcases hq with ⟨k, rfl⟩ | ⟨k, rfl⟩ | ⟨k, rfl⟩ <;> cases n <;> rfl
  have h := follows_op (R := R) (f := run (.list info kids) own) (n := n) [] op
  rw [run_nil, e] at h
  exact h

/-! ## Histories -/

theorem plays_history {kids : List (Meta × Schema)} {po : Option Choice} : ∀ (cs : List ApiCall) (ns : List Inst),
    (plays (holdRun false (.cont false kids) po) (.cont false false ns) cs).1 = .cont false false (history kids ns cs) ∧
    (plays (holdRun false (.cont false kids) po) (.cont false false ns) cs).2.2 = raised kids ns cs := by
  intro cs
  induction cs with
  | nil => intro ns; exact ⟨rfl, rfl⟩
  | cons c cs ih =>
    intro ns
    obtain ⟨p, op⟩ := c
    have hrun : holdRun false (.cont false kids) po (.cont false false ns) p op
        = ⟨.cont false false (runRoot kids ns p op).1, [], (runRoot kids ns p op).2⟩ := rfl
    obtain ⟨h1, h2⟩ := ih (runRoot kids ns p op).1
    simp only [plays, hrun, h1, h2]
    refine ⟨by simp [history], ?_⟩
    simp only [raised]
    cases (runRoot kids ns p op).2 <;> rfl

/-- Making the calls gives that; those that raise are of the kind `R`, but for the last one if
something is raised in the end. -/
def Replays (R : Op → Prop) (kids : List (Meta × Schema)) (ns : List Inst) (cs : List ApiCall) (r : List Inst × Option Err) : Prop :=
  history kids ns cs = r.1 ∧ (∀ op ∈ raised kids ns cs.dropLast, R op) ∧ (r.2 = none → ∀ op ∈ raised kids ns cs, R op)

theorem replays_of {kids : List (Meta × Schema)} {po : Option Choice} {ns : List Inst} {cs : List ApiCall} {o : Out}
    (h : Traced R (holdRun false (.cont false kids) po) (.cont false false ns) o cs) : Replays R kids ns cs (o.inst.kids, o.err) := by
  obtain ⟨h1, _, h3, h4⟩ := h
  rw [(plays_history cs ns).1] at h1
  rw [(plays_history _ ns).2] at h3
  rw [(plays_history cs ns).2] at h4
  exact ⟨by rw [← h1]; rfl, h3, h4⟩

theorem replays_nil {kids : List (Meta × Schema)} {ns : List Inst} {e : Option Err} : Replays R kids ns [] (ns, e) :=
  ⟨rfl, by simp [raised], by simp [raised]⟩

end Pyb
