import Verif.Spec.Session
import Verif.Lemmas.Reach
import Verif.Lemmas.JsonUnknown
import Verif.Lemmas.Xml

/-! # Invariants kept by loading documents -/

namespace Pyb
open Py Spec

variable {st : Bool}

/-- The key leaves of an entry of a list stay as they are. -/
def Keeps (st : Bool) (a : List Str) (w : Option Choice) (info : ListInfo) (kids : List (Meta × Schema)) (e : Inst) (o : Out) : Prop :=
  Choices st a w (.list info kids) → KeysPlain (.list info kids) → TreeInv (fun _ _ _ _ _ => True) (.cont false kids) e →
    ∀ j ∈ info.keys, o.inst.kids[j]? = e.kids[j]?

/-- A relation between the state of an object and what is done to it, kept by all steps
loading is made of.  With `kk`, steps on an entry must keep its key leaves. -/
structure StepRel (st : Bool) (kk : Bool) (ok : Op → Prop) (K : List Str → Option Choice → Schema → Inst → Out → Prop) : Prop where
  same : ∀ a w S n, K a w S n (Out.same n)
  fail : ∀ a w S n e, K a w S n (fail n e)
  mark : ∀ a w S n e, K a w S n ⟨n, [w], some e⟩
  seq : ∀ a w S n o p, K a w S n o → K a w S o.inst p → K a w S n ⟨p.inst, o.sigs ++ p.sigs, p.err⟩
  op : ∀ a w S n op, ok op → K a w S n (nodeOp S w n op)
  kid : ∀ a w po pres kids ch pr ns i k c o, (po = w ∨ po = none) → kids[i]? = some k → ns[i]? = some c →
    K (choiceNames kids ++ a) k.1.choice k.2 c o → K a w (.cont pres kids) (.cont ch pr ns) (contPut pres po kids ch pr ns i o)
  entry : ∀ a w info kids ch (es : Members Inst) k q o, es.find? (fun q => pyEq q.1 k) = some q → K a w (.cont false kids) q.2 o →
    (kk = true → Keeps st a w info kids q.2 o) → K a w (.list info kids) (.list ch es) ⟨.list ch (store es k o.inst), o.sigs, o.err⟩
  drop : ∀ a w info kids ch (es es' : Members Inst) e, es'.Sublist es → K a w (.list info kids) (.list ch es) ⟨.list ch es', [], e⟩
  reset : ∀ a w pres kids ch pr ns, K a w (.cont pres kids) (.cont ch pr ns) ⟨.cont ch pr (freshKids kids), [], none⟩

variable {kk : Bool} {ok : Op → Prop} {K : List Str → Option Choice → Schema → Inst → Out → Prop}

theorem StepRel.andThen (hK : StepRel st kk ok K) {a w S n o} {f : Inst → Out} (h1 : K a w S n o) (h2 : ∀ m, K a w S m (f m)) :
    K a w S n (o.andThen f) := by
  unfold Out.andThen
  split
  · exact h1
  · exact hK.seq _ _ _ _ _ _ h1 (h2 _)

theorem keyed_kid {pres} {kids : List (Meta × Schema)} {i : Nat} {k : Meta × Schema} (h : Keyed (.cont pres kids)) (hk : kids[i]? = some k) : Keyed k.2 := by
  intro p info ks hp
  exact h (.field i :: p) info ks (by simp only [schemaAt, hk]; exact hp)

theorem keyed_entry {info kids} (h : Keyed (.list info kids)) : Keyed (.cont false kids) := by
  intro p info' ks hp
  exact h (.key .none :: p) info' ks (by simp only [schemaAt]; exact hp)

theorem keyed_leaf (L : LeafCls) : Keyed (.leaf L) := by
  intro p info kids h
  cases p with
  | nil => simp [schemaAt] at h
  | cons s p => cases s <;> simp [schemaAt] at h

theorem keyed_leafList (L : LLCls) : Keyed (.leafList L) := by
  intro p info kids h
  cases p with
  | nil => simp [schemaAt] at h
  | cons s p => cases s <;> simp [schemaAt] at h

theorem keyed_cont (pres : Bool) (kids : List (Meta × Schema)) : Keyed (.cont pres kids) ↔ ∀ k ∈ kids, Keyed k.2 := by
  constructor
  · intro h k hk
    obtain ⟨i, hi, rfl⟩ := List.getElem_of_mem hk
    exact keyed_kid h (List.getElem?_eq_getElem hi)
  · intro h p info ks hp
    cases p with
    | nil => simp [schemaAt] at hp
    | cons s p =>
      cases s with
      | key k => simp [schemaAt] at hp
      | field i =>
        simp only [schemaAt] at hp
        cases hk : kids[i]? with
        | none => simp [hk] at hp
        | some k => simp only [hk] at hp; exact h k (List.mem_of_getElem? hk) p info ks hp

theorem keyed_list (info : ListInfo) (kids : List (Meta × Schema)) :
    Keyed (.list info kids) ↔ info.keys ≠ [] ∧ ∀ k ∈ kids, Keyed k.2 := by
  rw [← keyed_cont false]
  constructor
  · intro h; exact ⟨h [] info kids rfl, keyed_entry h⟩
  · rintro ⟨h1, h2⟩ p info' ks hp
    cases p with
    | nil => simp [schemaAt] at hp; obtain ⟨rfl, _⟩ := hp; exact h1
    | cons s p =>
      cases s with
      | field i => simp [schemaAt] at hp
      | key k => simp only [schemaAt] at hp; exact h2 p info' ks hp

/-- Entries without key are either allowed or never made. -/
def AnonOk (ok : Op → Prop) (S : Schema) : Prop := (∀ u, ok (.addAnon u)) ∨ Keyed S

theorem AnonOk.kid {pres} {kids : List (Meta × Schema)} {i : Nat} {k : Meta × Schema} (h : AnonOk ok (.cont pres kids)) (hk : kids[i]? = some k) : AnonOk ok k.2 :=
  h.imp id fun h => keyed_kid h hk

theorem AnonOk.entry {info kids} (h : AnonOk ok (.list info kids)) : AnonOk ok (.cont false kids) :=
  h.imp id keyed_entry

theorem AnonOk.op {info kids} (h : AnonOk ok (.list info kids)) (hk : info.keys = []) (u : Str) : ok (.addAnon u) := by
  rcases h with h | h
  · exact h u
  · exact absurd hk (h [] info kids rfl)

/-! ## The common steps -/

theorem markPresent_step (hK : StepRel st kk ok K) (hp : ∀ op, Plain op → ok op) (a w S n) : K a w S n (markPresent S w n) := by
  unfold markPresent
  split
  · exact hK.op _ _ _ (.cont _ _ _) (.present true) (hp _ ⟨by simp, by simp⟩)
  · exact hK.same ..

theorem leafSet_step (hK : StepRel st kk ok K) (hp : ∀ op, Plain op → ok op) (a w L n v) : K a w (.leaf L) n (leafSet L w n v) :=
  hK.op a w (.leaf L) n (.set v true) (hp _ ⟨by simp, by simp⟩)

theorem llApply_step (hK : StepRel st kk ok K) (hp : ∀ op, Plain op → ok op) (a w L xs ch op) :
    K a w (.leafList L) (.leafList xs ch) (llApply L w xs ch op) :=
  hK.op a w (.leafList L) (.leafList xs ch) (.ll op) (hp _ ⟨by simp, by simp⟩)

theorem jsonSet_step (hK : StepRel st kk ok K) (hp : ∀ op, Plain op → ok op) (repr a w S n j) : K a w S n (jsonSet repr S w n j) := by
  unfold jsonSet
  split
  · exact leafSet_step hK hp ..
  · exact llApply_step hK hp ..
  · rename_i info kids
    by_cases hn : ∃ ch es, n = .list ch es
    · exact hK.op a w (.list info kids) n (.assign (.list false [])) (hp _ ⟨by simp, by simp⟩)
    · exact hK.op a w (.list info kids) n (.assign (.list false [])) (hp _ ⟨by simp, by simp⟩)
  · exact hK.mark ..
  · exact hK.fail ..

theorem withKid_step (hK : StepRel st kk ok K) {a w po S n name u f} (hpo : po = w ∨ po = none) (hu : K a w S n u)
    (hf : ∀ pres kids i k c, S = .cont pres kids → kids[i]? = some k →
      K (choiceNames kids ++ a) k.1.choice k.2 c (f i k c)) : K a w S n (withKid true S po n name u f) := by
  unfold withKid
  split
  · split
    · exact hu
    · split
      · rename_i hk
        split
        · rename_i c hc
          simp only [holdPut, if_true]
          exact hK.kid _ _ _ _ _ _ _ _ _ _ _ _ hpo hk hc (hf _ _ _ _ c rfl hk)
        · exact hK.fail ..
      · exact hK.fail ..
  · exact hu

theorem withEntry_step (hK : StepRel st kk ok K) {a w info kids n k f} (hf : ∀ e, K a w (.cont false kids) e (f e))
    (hk : kk = true → ∀ e, Keeps st a w info kids e (f e)) : K a w (.list info kids) n (withEntry n k f) := by
  unfold withEntry
  split
  · split
    · rename_i q hq
      exact hK.entry _ _ _ _ _ _ _ _ _ hq (hf _) fun h => hk h _
    · exact hK.fail ..
  · exact hK.fail ..

theorem listOp_step (hK : StepRel st kk ok K) {a info kids n op} (w : Option Choice) (hop : ok op)
    (hq : (∃ k, op = .add k) ∨ (∃ r, op = .addNamed r) ∨ (∃ u, op = .addAnon u)) :
    K a w (.list info kids) n (nodeOp (.list info kids) none n op) := by
  have := hK.op a w (.list info kids) n op hop
  have e : nodeOp (.list info kids) w n op = nodeOp (.list info kids) none n op := by
    rcases hq with ⟨k, rfl⟩ | ⟨k, rfl⟩ | ⟨k, rfl⟩ <;> cases n <;> rfl
  rw [← e]; exact this

/-! ## IETF JSON -/

theorem ietfUnknown_step (hK : StepRel st kk ok K) (a w S n b j) : K a w S n (ietfUnknown b n j) := by
  unfold ietfUnknown
  split
  · exact hK.same ..
  · exact hK.fail ..
  · split
    · exact hK.same ..
    · exact hK.fail ..

theorem ietfStd_step (hK : StepRel st kk ok K) (hp : ∀ op, Plain op → ok op) (g a w S n b j) : K a w S n (ietfStd g S w b n j) := by
  unfold ietfStd
  split
  · exact hK.same ..
  · simp only
    split
    · exact hK.fail ..
    · exact hK.same ..
    · exact jsonSet_step hK hp ..

theorem ietfClear_step (hK : StepRel st kk ok K) (a w info kids n) : K a w (.list info kids) n (ietfClear n) := by
  unfold ietfClear
  split
  · exact hK.same ..
  · exact hK.drop _ _ _ _ _ _ _ _ (by simp)
  · exact hK.drop _ _ _ _ _ _ _ _ (by simp)
  · exact hK.same ..

theorem ietfEntry_step (hK : StepRel st kk ok K) (hp : ∀ op, Plain op → ok op) {a w info kids} (hA : AnonOk ok (.list info kids))
    (g ch es x) : K a w (.list info kids) (.list ch es) (ietfEntry g info kids ch es x).1 := by
  unfold ietfEntry
  split
  · rename_i hk
    exact listOp_step hK w (hA.op hk _) (.inr (.inr ⟨_, rfl⟩))
  · split
    · split
      · exact hK.fail ..
      · simp only
        split
        · split
          · exact hK.fail ..
          · split
            · exact hK.same ..
            · exact listOp_step hK w (hp _ ⟨by simp, by simp⟩) (.inl ⟨_, rfl⟩)
        · split
          · exact hK.same ..
          · exact listOp_step hK w (hp _ ⟨by simp, by simp⟩) (.inr (.inl ⟨_, rfl⟩))
    · exact hK.fail ..

/-- Loading a value into a child. -/
def IetfChildOk (ok : Op → Prop) (K : List Str → Option Choice → Schema → Inst → Out → Prop) (g : LoadOpt) (j : J) : Prop :=
  ∀ a w S b c, AnonOk ok S → K a w S c (ietfChild g S w b c j)

theorem ietfMembers_step (hK : StepRel st kk ok K) (g : LoadOpt) {ms : List (Str × J)} (hms : ∀ m ∈ ms, IetfChildOk ok K g m.2) :
    ∀ {a w po S keys n}, AnonOk ok S → (po = w ∨ po = none) → K a w S n (ietfMembers g true S keys po n ms) := by
  induction ms with
  | nil => intro a w po S keys n _ _; simp only [ietfMembers]; exact hK.same ..
  | cons m ms ih =>
    intro a w po S keys n hA hpo
    simp only [ietfMembers]
    refine hK.andThen ?_ fun _ => ih (fun m hm => hms m (List.mem_cons_of_mem _ hm)) hA hpo
    split
    · exact hK.same ..
    · refine withKid_step hK hpo (ietfUnknown_step hK ..) ?_
      intro pres kids i k c e hk
      subst e
      exact hms m (List.mem_cons_self ..) _ _ _ _ _ (AnonOk.kid hA hk)

/-- Loading an entry keeps its key leaves. -/
def IetfKeeps (st : Bool) (g : LoadOpt) : Prop := ∀ x a w info kids e, Keeps st a w info kids e (ietfElem g kids info.keys e x)

theorem ietfElems_step (hK : StepRel st kk ok K) (hp : ∀ op, Plain op → ok op) (g : LoadOpt) (hkk : kk = true → IetfKeeps st g) {xs : List J}
    (hxs : ∀ x ∈ xs, ∀ a w kids keys c, AnonOk ok (.cont false kids) → K a w (.cont false kids) c (ietfElem g kids keys c x)) :
    ∀ {a w info kids n}, AnonOk ok (.list info kids) → K a w (.list info kids) n (ietfElems g info kids n xs) := by
  induction xs with
  | nil => intro a w info kids n _; simp only [ietfElems]; exact hK.same ..
  | cons x xs ih =>
    intro a w info kids n hA
    simp only [ietfElems]
    refine hK.andThen ?_ fun _ => ih (fun x hx => hxs x (List.mem_cons_of_mem _ hx)) hA
    refine hK.andThen ?_ fun m => ?_
    · split
      · exact ietfClear_step hK ..
      · exact hK.same ..
    · split
      · refine hK.andThen (ietfEntry_step hK hp hA ..) fun _ => withEntry_step hK (fun e => ?_) fun h e => hkk h x _ _ _ _ e
        exact hxs x (List.mem_cons_self ..) _ _ _ _ _ hA.entry
      · exact hK.fail ..

theorem ietfChild_step (hK : StepRel st kk ok K) (hp : ∀ op, Plain op → ok op) (g : LoadOpt) (hkk : kk = true → IetfKeeps st g) (j : J) :
    IetfChildOk ok K g j ∧ ∀ a w kids keys c, AnonOk ok (.cont false kids) → K a w (.cont false kids) c (ietfElem g kids keys c j) := by
  induction j using J.ind with
  | hnull => exact ⟨fun a w S b c _ => by simp only [ietfChild]; exact ietfStd_step hK hp .., fun a w kids keys c _ => by simp only [ietfElem]; exact hK.fail ..⟩
  | hbool v => exact ⟨fun a w S b c _ => by simp only [ietfChild]; exact ietfStd_step hK hp .., fun a w kids keys c _ => by simp only [ietfElem]; exact hK.fail ..⟩
  | hnum v => exact ⟨fun a w S b c _ => by simp only [ietfChild]; exact ietfStd_step hK hp .., fun a w kids keys c _ => by simp only [ietfElem]; exact hK.fail ..⟩
  | hfloat v => exact ⟨fun a w S b c _ => by simp only [ietfChild]; exact ietfStd_step hK hp .., fun a w kids keys c _ => by simp only [ietfElem]; exact hK.fail ..⟩
  | hstr v => exact ⟨fun a w S b c _ => by simp only [ietfChild]; exact ietfStd_step hK hp .., fun a w kids keys c _ => by simp only [ietfElem]; exact hK.fail ..⟩
  | harr xs ih =>
    refine ⟨fun a w S b c hA => ?_, fun a w kids keys c _ => by simp only [ietfElem]; exact hK.fail ..⟩
    simp only [ietfChild]
    split
    · exact ietfElems_step hK hp g hkk (fun x hx => (ih x hx).2) hA
    · split
      · exact hK.same ..
      · exact ietfStd_step hK hp ..
  | hobj ms ih =>
    refine ⟨fun a w S b c hA => ?_, fun a w kids keys c hA => ?_⟩
    · simp only [ietfChild]
      exact hK.andThen (markPresent_step hK hp ..) fun _ => ietfMembers_step hK g (fun m hm => (ih m hm).1) hA (.inl rfl)
    · simp only [ietfElem]
      exact ietfMembers_step hK g (fun m hm => (ih m hm).1) hA (.inr rfl)

/-! ## Native JSON -/

theorem nativePurge_sub (keys : List Str) : ∀ es : Members Inst, (nativePurge keys es).1.Sublist es := by
  intro es
  induction es with
  | nil => simp [nativePurge]
  | cons x es ih =>
    obtain ⟨k, e⟩ := x
    simp only [nativePurge]
    split
    · exact ih.cons_cons _
    · exact List.sublist_cons_self _ _

theorem nativeClear_step (hK : StepRel st kk ok K) (a w info kids over keys n) : K a w (.list info kids) n (nativeClear over keys n) := by
  unfold nativeClear
  split
  · exact hK.drop _ _ _ _ _ _ _ _ (nativePurge_sub ..)
  · exact hK.same ..

theorem nativeEntry_step (hK : StepRel st kk ok K) (hp : ∀ op, Plain op → ok op) {a w info kids} (hA : AnonOk ok (.list info kids))
    (uuid k n) : K a w (.list info kids) n (nativeEntry uuid info kids k n) := by
  unfold nativeEntry
  split
  · split
    · exact hK.same ..
    · split
      · rename_i hk
        exact listOp_step hK w (hA.op hk _) (.inr (.inr ⟨_, rfl⟩))
      · exact listOp_step hK w (hp _ ⟨by simp, by simp⟩) (.inl ⟨_, rfl⟩)
  · exact hK.fail ..

theorem nativeLoop_step (hK : StepRel st false ok K) (hp : ∀ op, Plain op → ok op) (uuid) {a w info kids} (hA : AnonOk ok (.list info kids))
    {xs : List (Str × (Inst → Out))} (hxs : ∀ x ∈ xs, ∀ e, K a w (.cont false kids) e (x.2 e)) :
    ∀ n, K a w (.list info kids) n (nativeLoop uuid info kids xs n) := by
  induction xs with
  | nil => intro n; simp only [nativeLoop]; exact hK.same ..
  | cons x xs ih =>
    intro n
    obtain ⟨k, f⟩ := x
    simp only [nativeLoop]
    refine hK.andThen (hK.andThen (nativeEntry_step hK hp hA ..) fun _ => withEntry_step hK (fun e => ?_) (by simp))
      (ih fun x hx => hxs x (List.mem_cons_of_mem _ hx))
    exact hxs (k, f) (List.mem_cons_self ..) e

theorem mergeAdd_step (hK : StepRel st kk ok K) (hp : ∀ op, Plain op → ok op) (a w L) : ∀ (vs : List PyVal) n,
    K a w (.leafList L) n (mergeAdd L w vs n) := by
  intro vs
  induction vs with
  | nil => intro n; simp only [mergeAdd]; exact hK.same ..
  | cons v vs ih =>
    intro n
    cases n with
    | leafList xs ch =>
      simp only [mergeAdd]
      refine hK.andThen ?_ ih
      split
      · exact hK.same ..
      · exact llApply_step hK hp ..
    | _ => simp only [mergeAdd]; exact hK.fail ..

theorem mergeDrop_step (hK : StepRel st kk ok K) (hp : ∀ op, Plain op → ok op) (a w L items) : ∀ (vs : List PyVal) n,
    K a w (.leafList L) n (mergeDrop L w items vs n) := by
  intro vs
  induction vs with
  | nil => intro n; simp only [mergeDrop]; exact hK.same ..
  | cons v vs ih =>
    intro n
    cases n with
    | leafList xs ch =>
      simp only [mergeDrop]
      refine hK.andThen ?_ ih
      split
      · exact hK.same ..
      · exact llApply_step hK hp ..
    | _ => simp only [mergeDrop]; exact hK.fail ..

theorem nativeMerge_step (hK : StepRel st kk ok K) (hp : ∀ op, Plain op → ok op) (a w L repr n j) :
    K a w (.leafList L) n (nativeMerge L w repr n j) := by
  unfold nativeMerge
  split
  · refine hK.andThen (mergeAdd_step hK hp ..) fun m => ?_
    split
    · exact mergeDrop_step hK hp ..
    · exact hK.fail ..
  · exact hK.fail ..

/-- `unsetAll` as a step. -/
theorem unsetAll_step (hK : StepRel st kk ok K) {a w pres kids over n o} (h : K a w (.cont pres kids) (unsetAll over kids n) o) :
    K a w (.cont pres kids) n o := by
  unfold unsetAll at h
  split at h
  · rename_i ch pr ns
    have := hK.seq _ _ _ _ _ _ (hK.reset a w pres kids ch pr ns) h
    simpa using this
  · exact h

/-- Loading a value into a child. -/
def NativeChildOk (ok : Op → Prop) (K : List Str → Option Choice → Schema → Inst → Out → Prop) (g : LoadOpt) (j : J) : Prop :=
  ∀ over a w S c, AnonOk ok S → K a w S c (nativeChild g over S w c j)

theorem nativeMembers_step (hK : StepRel st kk ok K) (g : LoadOpt) {ms : List (Str × J)} (hms : ∀ m ∈ ms, NativeChildOk ok K g m.2) :
    ∀ {a w po S over ordered n}, AnonOk ok S → (po = w ∨ po = none) → K a w S n (nativeMembers g over true ordered S po n ms) := by
  induction ms with
  | nil => intro a w po S over ordered n _ _; simp only [nativeMembers]; exact hK.same ..
  | cons m ms ih =>
    intro a w po S over ordered n hA hpo
    simp only [nativeMembers]
    refine hK.andThen ?_ fun _ => ih (fun m hm => hms m (List.mem_cons_of_mem _ hm)) hA hpo
    split
    · exact hK.same ..
    · refine withKid_step hK hpo ?_ ?_
      · unfold nativeUnknown
        split
        · exact hK.same ..
        · exact hK.fail ..
      · intro pres kids i k c e hk
        subst e
        exact hms m (List.mem_cons_self ..) _ _ _ _ _ (AnonOk.kid hA hk)

theorem orderPut_mem {α} {o : Int} {x : α} {kd : List (Int × α)} {y : Int × α} (h : y ∈ putOrder o x kd) : y.2 = x ∨ y ∈ kd := by
  induction kd with
  | nil => simp [putOrder] at h; exact .inl (by rw [h])
  | cons z kd ih =>
    simp only [putOrder] at h
    split at h
    · rcases List.mem_cons.1 h with h | h
      · exact .inl (by rw [h])
      · exact .inr (List.mem_cons_of_mem _ h)
    · split at h
      · rcases List.mem_cons.1 h with h | h
        · exact .inl (by rw [h])
        · exact .inr h
      · rcases List.mem_cons.1 h with h | h
        · exact .inr (by rw [h]; exact List.mem_cons_self ..)
        · exact (ih h).imp id (List.mem_cons_of_mem _)

theorem orderSplit_mem {α} : ∀ (xs : List (Option Int × α)) kd ok', (∀ y ∈ (splitOrder xs kd ok').1, (∃ o, (o, y.2) ∈ xs) ∨ ∃ z ∈ kd, z.2 = y.2) ∧
      (∀ y ∈ (splitOrder xs kd ok').2, (∃ o, (o, y) ∈ xs) ∨ y ∈ ok') := by
  intro xs
  induction xs with
  | nil => intro kd ok'; simp only [splitOrder]; exact ⟨fun y h => .inr ⟨y, h, rfl⟩, fun y h => .inr h⟩
  | cons z zs ih =>
    intro kd ok'
    obtain ⟨o, x⟩ := z
    cases o with
    | none =>
      simp only [splitOrder]
      refine ⟨fun y h => ?_, fun y h => ?_⟩
      · exact ((ih _ _).1 y h).imp (fun ⟨o, ho⟩ => ⟨o, List.mem_cons_of_mem _ ho⟩) id
      · rcases (ih _ _).2 y h with ⟨o, ho⟩ | h
        · exact .inl ⟨o, List.mem_cons_of_mem _ ho⟩
        · rcases List.mem_append.1 h with h | h
          · exact .inr h
          · simp at h; subst h; exact .inl ⟨none, List.mem_cons_self ..⟩
    | some o =>
      simp only [splitOrder]
      refine ⟨fun y h => ?_, fun y h => ?_⟩
      · rcases (ih _ _).1 y h with ⟨o, ho⟩ | ⟨z, hz, e⟩
        · exact .inl ⟨o, List.mem_cons_of_mem _ ho⟩
        · rcases orderPut_mem hz with h | h
          · exact .inl ⟨some o, by rw [← e, h]; exact List.mem_cons_self ..⟩
          · exact .inr ⟨z, h, e⟩
      · exact ((ih _ _).2 y h).imp (fun ⟨o, ho⟩ => ⟨o, List.mem_cons_of_mem _ ho⟩) id

theorem orderKeys_mem {α} {ordered : Bool} {xs : List (Option Int × α)} {x : α} (h : x ∈ keyOrder ordered xs) : ∃ o, (o, x) ∈ xs := by
  unfold keyOrder at h
  split at h
  · simp only [List.mem_append, List.mem_map, List.mem_reverse] at h
    rcases h with ⟨y, hy, rfl⟩ | h
    · rcases (orderSplit_mem xs [] []).1 y hy with h | ⟨z, hz, _⟩
      · exact h
      · simp at hz
    · rcases (orderSplit_mem xs [] []).2 x h with h | h
      · exact h
      · simp at h
  · obtain ⟨y, hy, rfl⟩ := List.mem_map.1 h
    exact ⟨y.1, hy⟩

theorem entryFns_mem {g ordered kids} : ∀ {ms : List (Str × J)} {o x}, (o, x) ∈ nativeFns g ordered kids ms →
    ∃ m ∈ ms, x = (m.1, fun c => nativeElem g ordered kids c m.2) := by
  intro ms
  induction ms with
  | nil => intro o x h; simp [nativeFns] at h
  | cons m ms ih =>
    intro o x h
    simp only [nativeFns, List.mem_cons] at h
    rcases h with h | h
    · simp only [Prod.mk.injEq] at h
      exact ⟨m, List.mem_cons_self .., h.2⟩
    · obtain ⟨m', hm', e⟩ := ih h
      exact ⟨m', List.mem_cons_of_mem _ hm', e⟩

theorem nativeScalar_step (hK : StepRel st kk ok K) (hp : ∀ op, Plain op → ok op) (g : LoadOpt) (j : J)
    (he : ∀ over S w c, nativeChild g over S w c j = match S with
      | .cont _ kids => (markPresent S w c).andThen fun c => jsonSet g.repr S w (unsetAll over kids c) j
      | .list _ _ => fail c .attributeError
      | .leafList L => if over then jsonSet g.repr S w c j else nativeMerge L w g.repr c j
      | S => jsonSet g.repr S w c j) : NativeChildOk ok K g j := by
  intro over a w S c hA
  rw [he]
  cases S with
  | cont pres kids =>
    exact hK.andThen (markPresent_step hK hp ..) fun m => unsetAll_step hK (jsonSet_step hK hp ..)
  | list info kids => exact hK.fail ..
  | leafList L =>
    simp only
    split
    · exact jsonSet_step hK hp ..
    · exact nativeMerge_step hK hp ..
  | leaf L => exact jsonSet_step hK hp ..

theorem nativeChild_step (hK : StepRel st false ok K) (hp : ∀ op, Plain op → ok op) (g : LoadOpt) (j : J) :
    NativeChildOk ok K g j ∧
    ∀ ordered a w kids c, AnonOk ok (.cont false kids) → K a w (.cont false kids) c (nativeElem g ordered kids c j) := by
  induction j using J.ind with
  | hnull => exact ⟨nativeScalar_step hK hp g _ fun over S w c => by cases S <;> rfl, fun o a w kids c _ => by simp only [nativeElem]; exact hK.fail ..⟩
  | hbool v => exact ⟨nativeScalar_step hK hp g _ fun over S w c => by cases S <;> rfl, fun o a w kids c _ => by simp only [nativeElem]; exact hK.fail ..⟩
  | hnum v => exact ⟨nativeScalar_step hK hp g _ fun over S w c => by cases S <;> rfl, fun o a w kids c _ => by simp only [nativeElem]; exact hK.fail ..⟩
  | hfloat v => exact ⟨nativeScalar_step hK hp g _ fun over S w c => by cases S <;> rfl, fun o a w kids c _ => by simp only [nativeElem]; exact hK.fail ..⟩
  | hstr v => exact ⟨nativeScalar_step hK hp g _ fun over S w c => by cases S <;> rfl, fun o a w kids c _ => by simp only [nativeElem]; exact hK.fail ..⟩
  | harr xs ih => exact ⟨nativeScalar_step hK hp g _ fun over S w c => by cases S <;> rfl, fun o a w kids c _ => by simp only [nativeElem]; exact hK.fail ..⟩
  | hobj ms ih =>
    refine ⟨fun over a w S c hA => ?_, fun ordered a w kids c hA => ?_⟩
    · cases S with
      | cont pres kids =>
        simp only [nativeChild]
        exact hK.andThen (markPresent_step hK hp ..) fun _ => unsetAll_step hK (nativeMembers_step hK g (fun m hm => (ih m hm).1) hA (.inl rfl))
      | list info kids =>
        simp only [nativeChild]
        refine hK.andThen (nativeLoop_step hK hp _ hA ?_ _) fun _ => hK.andThen (nativeClear_step hK ..) fun _ => ?_
        · intro x hx e
          obtain ⟨o, ho⟩ := orderKeys_mem hx
          obtain ⟨m, hm, rfl⟩ := entryFns_mem ho
          exact (ih m hm).2 _ _ _ _ _ hA.entry
        · split
          · exact jsonSet_step hK hp ..
          · exact hK.same ..
      | leafList L =>
        simp only [nativeChild]
        split
        · exact jsonSet_step hK hp ..
        · exact nativeMerge_step hK hp ..
      | leaf L => simp only [nativeChild]; exact jsonSet_step hK hp ..
    · simp only [nativeElem]
      exact nativeMembers_step hK g (fun m hm => (ih m hm).1) hA (.inr rfl)

/-! ## XML -/

theorem xmlAppend_step (hK : StepRel st kk ok K) (hp : ∀ op, Plain op → ok op) (infer a w L xs ch t) :
    K a w (.leafList L) (.leafList xs ch) (xmlAppend infer L w xs ch t) := by
  unfold xmlAppend
  simp only
  split
  · rename_i h
    refine hK.seq _ _ _ _ _ _ (llApply_step hK hp ..) ?_
    have e : (llApply L w xs ch (.append (pyval infer t))).inst = .leafList xs true := by
      simp only [llApply, llStep, llMarks, if_true] at h ⊢
      have h := h.1
      unfold tlAppend at h ⊢
      split at h
      · split at h
        · simp at h
        · rename_i hq _ _ he
          simp only [if_pos hq]
      · simp at h
    rw [e]
    exact llApply_step hK hp ..
  · exact llApply_step hK hp ..

theorem xmlSet_step (hK : StepRel st kk ok K) (hp : ∀ op, Plain op → ok op) (a w L b c t) : K a w (.leaf L) c (xmlSet L w b c t) := by
  unfold xmlSet
  split
  · exact hK.same ..
  · split
    · split
      · exact leafSet_step hK hp ..
      · exact hK.fail ..
    · split
      · split
        · exact hK.fail ..
        · exact leafSet_step hK hp ..
      · split
        · exact hK.same ..
        · exact leafSet_step hK hp ..

theorem xmlEntry_step (hK : StepRel st kk ok K) (hp : ∀ op, Plain op → ok op) (infer a w info kids ch es ns xs) :
    K a w (.list info kids) (.list ch es) (xmlEntry infer info kids ch es ns xs).1 := by
  unfold xmlEntry
  split
  · exact hK.fail ..
  · split
    · exact hK.fail ..
    · split
      · exact hK.same ..
      · exact listOp_step hK w (hp _ ⟨by simp, by simp⟩) (.inr (.inl ⟨_, rfl⟩))

/-- Loading an entry keeps its key leaves. -/
def XmlKeeps (st : Bool) (infer : Str → PyVal) : Prop := ∀ xs a w info kids e, Keeps st a w info kids e (xmlMembers infer true (.cont false kids) info.keys none e xs)

mutual
theorem xmlMembers_step (hK : StepRel st kk ok K) (hp : ∀ op, Plain op → ok op) (infer) (hkk : kk = true → XmlKeeps st infer) : ∀ (xs : List Xml) {a w po S keys n},
    (po = w ∨ po = none) → K a w S n (xmlMembers infer true S keys po n xs)
  | [], a, w, po, S, keys, n, hpo => by simp only [xmlMembers]; exact hK.same ..
  | x :: xs, a, w, po, S, keys, n, hpo => by
    simp only [xmlMembers]
    refine hK.andThen ?_ fun _ => xmlMembers_step hK hp infer hkk xs hpo
    refine withKid_step hK hpo (hK.fail ..) ?_
    intro pres kids i k c e hk
    exact xmlChild_step hK hp infer hkk x
theorem xmlChild_step (hK : StepRel st kk ok K) (hp : ∀ op, Plain op → ok op) (infer) (hkk : kk = true → XmlKeeps st infer) : ∀ (x : Xml) {a w S b c},
    K a w S c (xmlChild infer S w b c x)
  | .elem ns nm ds t xs, a, w, S, b, c => by
    unfold xmlChild
    split
    · exact hK.andThen (markPresent_step hK hp ..) fun _ => xmlMembers_step hK hp infer hkk xs (.inl rfl)
    · exact hK.andThen (xmlEntry_step hK hp ..) fun _ => withEntry_step hK (fun _ => xmlMembers_step hK hp infer hkk xs (.inr rfl)) fun h e => hkk h xs _ _ _ _ e
    · split
      · exact xmlAppend_step hK hp ..
      · exact hK.fail ..
    · exact xmlSet_step hK hp ..
    · exact hK.fail ..
end

/-! ## The invariants of containers -/

/-- What a step must do to keep an invariant of containers. -/
def InvStep (st fl b : Bool) (I : CInv) (a : List Str) (w : Option Choice) (S : Schema) (n : Inst) (o : Out) : Prop :=
  (fl = true → Choices st a w S) → TreeInv I S n →
    TreeInv I S o.inst ∧ (fl = true → GoodSigs st a w o.sigs) ∧ (o.sigs = [] → Has b o.inst → Has b n) ∧
    (o.sigs = [] → o.inst.changed = true → n.changed = true)

variable {fl b : Bool} {I : CInv}

theorem invStep (hI : Stable st fl b ok I) (hr : ∀ pres kids ch pr ns, I pres kids ch pr ns → I pres kids ch pr (freshKids kids)) :
    StepRel st kk ok (InvStep st fl b I) where
  same a w S n _ h := ⟨h, fun _ => good_nil .., fun _ h => h, fun _ h => h⟩
  fail a w S n e _ h := ⟨h, fun _ => good_nil .., fun _ h => h, fun _ h => h⟩
  mark a w S n e _ h := ⟨h, fun _ => good_own .., fun h => by simp at h, fun h => by simp at h⟩
  seq a w S n o p h1 h2 hf hn := by
    obtain ⟨a1, a2, a3, a4⟩ := h1 hf hn
    obtain ⟨b1, b2, b3, b4⟩ := h2 hf a1
    refine ⟨b1, fun h => good_append (a2 h) (b2 h), fun h d => ?_, fun h d => ?_⟩
    · obtain ⟨e1, e2⟩ := List.append_eq_nil_iff.1 h
      exact a3 e1 (b3 e2 d)
    · obtain ⟨e1, e2⟩ := List.append_eq_nil_iff.1 h
      exact a4 e1 (b4 e2 d)
  op a w S n op hop hf hn :=
    ⟨nodeOp_inv hI hf hop hn, fun h => nodeOp_good (hf h) n op,
      fun h d => nodeOp_quiet (fun hb u hu => hI.anon hb u (hu ▸ hop)) h d, fun h d => nodeOp_quiet_changed h d⟩
  kid a w po pres kids ch pr ns i k c o hpo hk hc h hf hn := by
    obtain ⟨_, _, _, he, _, _, i3⟩ := hn.cont_inv
    simp only [Inst.cont.injEq] at he
    obtain ⟨rfl, rfl, rfl⟩ := he
    have hkf : fl = true → Choices st (choiceNames kids ++ a) k.1.choice k.2 :=
      fun h => (flatKids_mem (hf h) (List.mem_of_getElem? hk)).2.2
    obtain ⟨a1, a2, a3, a4⟩ := h hkf (i3 i k c hk hc)
    refine ⟨contPut_inv hI hf hk hc hn a1 a2 a3 a4, fun h => ?_, fun h d => ?_, fun h d => ?_⟩
    · exact good_pass (hf h) (List.mem_of_getElem? hk) hpo (a2 h)
    · have h' : o.sigs = [] := by simpa [contPut] using h
      rw [contPut_quiet _ _ _ _ _ _ _ _ h'] at d
      rw [has_cont] at d ⊢
      rcases d with d | ⟨x, hx, d⟩
      · exact .inl d
      · rcases List.mem_or_eq_of_mem_set hx with hx | rfl
        · exact .inr ⟨x, hx, d⟩
        · exact .inr ⟨c, List.mem_of_getElem? hc, a3 h' d⟩
    · have h' : o.sigs = [] := by simpa [contPut] using h
      rw [contPut_quiet _ _ _ _ _ _ _ _ h'] at d
      exact d
  entry a w info kids ch es k q o hq h _ hf hn := by
    cases hn with
    | list _ _ _ _ hes =>
      obtain ⟨a1, a2, a3, a4⟩ := h hf (hes q (List.mem_of_find?_eq_some hq))
      refine ⟨.list _ _ _ _ fun x hx => ?_, a2, fun h d => ?_, fun h d => d⟩
      · rcases store_mem hx with h1 | ⟨h1, _⟩
        · exact hes x h1
        · rw [h1]; exact a1
      · have hne : es ≠ [] := by intro e; simp [e] at hq
        rw [has_list] at d ⊢
        rcases d with d | ⟨x, hx, d⟩
        · exact .inl ⟨d.1, hne⟩
        · rcases store_mem hx with h1 | ⟨h1, _⟩
          · exact .inr ⟨x, h1, d⟩
          · rw [h1] at d; exact .inr ⟨q, List.mem_of_find?_eq_some hq, a3 h d⟩
  drop a w info kids ch es es' e hs hf hn := by
    cases hn with
    | list _ _ _ _ hes =>
      refine ⟨.list _ _ _ _ fun x hx => hes x (hs.subset hx), fun _ => good_nil .., fun _ d => ?_, fun _ d => d⟩
      rw [has_list] at d ⊢
      rcases d with d | ⟨x, hx, d⟩
      · refine .inl ⟨d.1, fun h => d.2 ?_⟩
        subst h; simpa using hs
      · exact .inr ⟨x, hs.subset hx, d⟩
  reset a w pres kids ch pr ns hf hn := by
    obtain ⟨_, _, _, he, i1, _, _⟩ := hn.cont_inv
    simp only [Inst.cont.injEq] at he
    obtain ⟨rfl, rfl, rfl⟩ := he
    refine ⟨freshKids_inv hI _ _ (hr _ _ _ _ _ i1), fun _ => good_nil .., fun _ d => ?_, fun _ d => d⟩
    rw [has_cont] at d ⊢
    rcases d with d | ⟨x, hx, d⟩
    · exact .inl d
    · exact absurd d (noData_freshKids hx)

/-! ## The invariants of leaves and lists -/

/-- What a step must do to keep an invariant of leaves. -/
def ObjStep (P : LInv) (_ : List Str) (_ : Option Choice) (S : Schema) (n : Inst) (o : Out) : Prop :=
  ObjInv P S n → ObjInv P S o.inst

theorem objStep {P : LInv} (hP : LStable P) : StepRel st kk (fun _ => True) (ObjStep P) where
  same a w S n h := h
  fail a w S n e h := h
  mark a w S n e h := h
  seq a w S n o p h1 h2 h := h2 (h1 h)
  op a w S n op _ h := nodeOp_obj hP h
  kid a w po pres kids ch pr ns i k c o hpo hk hc h hn := by
    obtain ⟨_, _, _, he, _, i3⟩ := hn.cont_inv
    simp only [Inst.cont.injEq] at he
    obtain ⟨rfl, rfl, rfl⟩ := he
    exact contPut_obj hP hk hn (h (i3 i k c hk hc))
  entry a w info kids ch es k q o hq h _ hn := by
    cases hn with
    | list _ _ _ _ hes hd =>
      refine .list _ _ _ _ (fun x hx => ?_) (pd_store hd)
      rcases store_mem hx with h1 | ⟨h1, _⟩
      · exact hes x h1
      · rw [h1]; exact h (hes q (List.mem_of_find?_eq_some hq))
  drop a w info kids ch es es' e hs hn := by
    cases hn with
    | list _ _ _ _ hes hd => exact .list _ _ _ _ (fun x hx => hes x (hs.subset hx)) (hd.sublist (hs.map _))
  reset a w pres kids ch pr ns hn := freshKids_obj hP _ _

/-! ## Whole documents -/

/-- What a step at the top must do to each child. -/
theorem root_kid {P : Nat → Meta × Schema → Inst → Prop} {kids : List (Meta × Schema)} {po : Option Choice} {ns : List Inst} {name u f}
    (hns : ns.length = kids.length ∧ ∀ (i : Nat) (k : Meta × Schema) c, kids[i]? = some k → ns[i]? = some c → P i k c)
    (hu : u.inst = .cont false false ns)
    (hf : ∀ (i : Nat) (k : Meta × Schema) c, kids[i]? = some k → P i k c → P i k (f i k c).inst) :
    ∃ ns', (withKid false (.cont false kids) po (.cont false false ns) name u f).inst = .cont false false ns' ∧
      ns'.length = kids.length ∧ ∀ (i : Nat) (k : Meta × Schema) c, kids[i]? = some k → ns'[i]? = some c → P i k c := by
  unfold withKid
  simp only
  split
  · exact ⟨ns, hu, hns⟩
  · rename_i i _
    split
    · rename_i k ch pr ns1 hk he
      simp only [Inst.cont.injEq] at he
      obtain ⟨rfl, rfl, rfl⟩ := he
      split
      · rename_i c hc
        refine ⟨_, rfl, by simpa using hns.1, ?_⟩
        intro j k' c' hk' hc'
        by_cases e : i = j
        · subst e
          rw [List.getElem?_set_self (List.getElem?_eq_some_iff.1 hc).1] at hc'
          rw [hk] at hk'; simp at hk' hc'; subst hk'; subst hc'
          exact hf _ _ _ hk (hns.2 i k c hk hc)
        · rw [List.getElem?_set_ne e] at hc'
          exact hns.2 j k' c' hk' hc'
      · exact ⟨ns, rfl, hns⟩
    · exact ⟨ns, rfl, hns⟩

/-- A property of the children of a binding. -/
def RootP (P : Meta × Schema → Inst → Prop) (kids : List (Meta × Schema)) (ns : List Inst) : Prop :=
  ns.length = kids.length ∧ ∀ (i : Nat) (k : Meta × Schema) c, kids[i]? = some k → ns[i]? = some c → P k c

variable {P : Meta × Schema → Inst → Prop} {kids : List (Meta × Schema)}

theorem root_andThen {o : Out} {f : Inst → Out} (h1 : ∃ ns, o.inst = .cont false false ns ∧ RootP P kids ns)
    (h2 : ∀ ns, RootP P kids ns → ∃ ns', (f (.cont false false ns)).inst = .cont false false ns' ∧ RootP P kids ns') :
    ∃ ns, (o.andThen f).inst = .cont false false ns ∧ RootP P kids ns := by
  obtain ⟨ns, e, h⟩ := h1
  unfold Out.andThen
  split
  · exact ⟨ns, e, h⟩
  · simp only [e]; exact h2 ns h

theorem ietf_root {g : LoadOpt} {po} {keys} (hs : ∀ (j : J) (i : Nat) k b c, kids[i]? = some k → P k c → P k (ietfChild g k.2 k.1.choice b c j).inst) :
    ∀ (ms : List (Str × J)) {ns}, RootP P kids ns →
      ∃ ns', (ietfMembers g false (.cont false kids) keys po (.cont false false ns) ms).inst = .cont false false ns' ∧ RootP P kids ns' := by
  intro ms
  induction ms with
  | nil => intro ns h; exact ⟨ns, by simp [ietfMembers, Out.same], h⟩
  | cons m ms ih =>
    intro ns h
    simp only [ietfMembers]
    refine root_andThen ?_ fun ns h => ih h
    split
    · exact ⟨ns, rfl, h⟩
    · refine root_kid (P := fun _ k c => P k c) h ?_ fun i k c hk hp => hs _ _ _ _ _ hk hp
      unfold ietfUnknown
      split
      · rfl
      · rfl
      · split <;> rfl

theorem native_root {g : LoadOpt} {po} {ordered} (hs : ∀ (j : J) (i : Nat) k over c, kids[i]? = some k → P k c → P k (nativeChild g over k.2 k.1.choice c j).inst) :
    ∀ (ms : List (Str × J)) {over ns}, RootP P kids ns →
      ∃ ns', (nativeMembers g over false ordered (.cont false kids) po (.cont false false ns) ms).inst = .cont false false ns' ∧ RootP P kids ns' := by
  intro ms
  induction ms with
  | nil => intro over ns h; exact ⟨ns, by simp [nativeMembers, Out.same], h⟩
  | cons m ms ih =>
    intro over ns h
    simp only [nativeMembers]
    refine root_andThen ?_ fun ns h => ih h
    split
    · exact ⟨ns, rfl, h⟩
    · refine root_kid (P := fun _ k c => P k c) h ?_ fun i k c hk hp => hs _ _ _ _ _ hk hp
      unfold nativeUnknown
      split <;> rfl

theorem xml_root {infer} {po} {keys} (hs : ∀ (x : Xml) (i : Nat) k b c, kids[i]? = some k → P k c → P k (xmlChild infer k.2 k.1.choice b c x).inst) :
    ∀ (xs : List Xml) {ns}, RootP P kids ns →
      ∃ ns', (xmlMembers infer false (.cont false kids) keys po (.cont false false ns) xs).inst = .cont false false ns' ∧ RootP P kids ns' := by
  intro xs
  induction xs with
  | nil => intro ns h; exact ⟨ns, by simp [xmlMembers, Out.same], h⟩
  | cons m ms ih =>
    intro ns h
    simp only [xmlMembers]
    refine root_andThen ?_ fun ns h => ih h
    exact root_kid (P := fun _ k c => P k c) h rfl fun i k c hk hp => hs _ _ _ _ _ hk hp

/-- A session keeps a property of the children if each kind of action does. -/
theorem session_root {okA : Act → Prop} (hop : ∀ p op ns, okA (.api p op) → RootP P kids ns → RootP P kids (runRoot kids ns p op).1)
    (hi : ∀ g (j : J) (i : Nat) k b c, kids[i]? = some k → P k c → P k (ietfChild g k.2 k.1.choice b c j).inst)
    (hn : ∀ g (j : J) (i : Nat) k over c, kids[i]? = some k → P k c → P k (nativeChild g over k.2 k.1.choice c j).inst)
    (hx : ∀ infer (x : Xml) (i : Nat) k b c, kids[i]? = some k → P k c → P k (xmlChild infer k.2 k.1.choice b c x).inst) :
    ∀ (acts : List Act) {ns}, (∀ x ∈ acts, okA x) → RootP P kids ns → RootP P kids (session kids ns acts) := by
  intro acts
  induction acts with
  | nil => intro ns _ h; exact h
  | cons x acts ih =>
    intro ns hok h
    refine ih (fun y hy => hok y (List.mem_cons_of_mem _ hy)) ?_
    cases x with
    | api p op => exact hop p op ns (hok _ (List.mem_cons_self ..)) h
    | ietf g doc =>
      cases doc with
      | obj ms =>
        obtain ⟨ns', e, h'⟩ := ietf_root (po := none) (keys := []) (hi g) ms h
        simp only [act, ietfLoad, e, Inst.kids]; exact h'
      | _ => exact h
    | native g doc =>
      cases doc with
      | obj ms =>
        obtain ⟨ns', e, h'⟩ := native_root (po := none) (ordered := false) (hn g) ms (over := g.over) h
        simp only [act, nativeLoad, e, Inst.kids]; exact h'
      | _ => exact h
    | xml infer doc =>
      obtain ⟨ns', e, h'⟩ := xml_root (po := none) (keys := []) (hx infer) doc.kids h
      simp only [act, xmlLoad, e, Inst.kids]; exact h'

/-- The invariants of containers hold throughout a session. -/
theorem session_inv {fl b : Bool} {ok : Op → Prop} {I : CInv} (hI : Stable st fl b ok I) (hp : ∀ op, Plain op → ok op)
    (hr : ∀ pres kids ch pr ns, I pres kids ch pr ns → I pres kids ch pr (freshKids kids))
    (hf : fl = true → ChoicesRoot st kids) (hA : (∀ u, ok (.addAnon u)) ∨ ∀ k ∈ kids, Keyed k.2)
    (acts : List Act) (hok : ∀ p op, Act.api p op ∈ acts → ok op) {ns} (h : RootInv I kids ns) : RootInv I kids (session kids ns acts) := by
  have hS := invStep (kk := false) hI hr
  have hA' : ∀ (i : Nat) k, kids[i]? = some k → AnonOk ok k.2 := fun i k hk => hA.imp id fun h => h k (List.mem_of_getElem? hk)
  have hF : ∀ (i : Nat) k, kids[i]? = some k → (fl = true → Choices st [] k.1.choice k.2) := fun i k hk h => hf h k (List.mem_of_getElem? hk)
  refine session_root (P := fun k c => TreeInv I k.2 c) (okA := fun x => ∀ p op, x = .api p op → ok op) ?_ ?_ ?_ ?_ acts ?_ h
  · intro p op ns ho h
    exact runRoot_inv hI hf (ho p op rfl) h
  · intro g j i k b c hk hc
    exact ((ietfChild_step hS hp g (by simp) j).1 [] _ _ b c (hA' i k hk) (hF i k hk) hc).1
  · intro g j i k b c hk hc
    exact ((nativeChild_step hS hp g j).1 b [] _ _ c (hA' i k hk) (hF i k hk) hc).1
  · intro infer x i k b c hk hc
    exact (xmlChild_step hS hp infer (by simp) x (a := []) (hF i k hk) hc).1
  · rintro x hx p op rfl
    exact hok p op hx

/-- So do those of leaves, leaf-lists and the keys of lists. -/
theorem session_obj {P : LInv} (hP : LStable P) (acts : List Act) {ns} (h : RootObj P kids ns) : RootObj P kids (session kids ns acts) := by
  have hS := objStep (st := true) (kk := false) hP
  have hp : ∀ op, Plain op → True := fun _ _ => trivial
  have hA : ∀ S, AnonOk (fun _ => True) S := fun S => .inl fun _ => trivial
  refine session_root (P := fun k c => ObjInv P k.2 c) (okA := fun _ => True) ?_ ?_ ?_ ?_ acts (fun _ _ => trivial) h
  · intro p op ns _ h
    exact history_obj hP (ops := [(p, op)]) h
  · intro g j i k b c hk hc
    exact (ietfChild_step hS hp g (by simp) j).1 [] _ _ b c (hA _) hc
  · intro g j i k b c hk hc
    exact (nativeChild_step hS hp g j).1 b [] _ _ c (hA _) hc
  · intro infer x i k b c hk hc
    exact xmlChild_step hS hp infer (by simp) x (a := []) hc

end Pyb
