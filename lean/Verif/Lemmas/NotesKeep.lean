import Verif.Lemmas.NotesAt

/-! Annotations of objects the document does not concern. -/

namespace Pyb
open Py Spec

variable {st : Bool}

/-- Nothing happens to the annotation. -/
def SpareNote (p : Path) (name : Str) (es : List NoteEv) : Prop := ∀ old, noteAt p name old es = old

section
variable {p : Path} {name : Str}

theorem spare_nil : SpareNote p name [] := fun _ => rfl

theorem spare_append {a b : List NoteEv} (ha : SpareNote p name a) (hb : SpareNote p name b) : SpareNote p name (a ++ b) := fun old => by
  rw [noteAt_append, ha, hb]

theorem spare_under {s t : Step} {es : List NoteEv} (h : s.same t = true → SpareNote p name es) : SpareNote (t :: p) name (es.map (NoteEv.under s)) :=
  fun old => by
    rw [noteAt_under]
    split
    · rename_i hs; exact h hs old
    · rfl

/-- Annotations of the object itself are none of one below it. -/
theorem spare_notes {s : Step} {o : List (Str × J)} : SpareNote (s :: p) name (o.map fun m => .note [] m.1 m.2) := fun old => by
  refine noteAt_none (fun q n v h => ?_) (fun q h => by simp at h)
  simp only [List.mem_map, NoteEv.note.injEq] at h
  obtain ⟨m, _, rfl, _⟩ := h
  exact .inl rfl

theorem spare_check {s : Step} {all : List (Str × J)} {key : Str} {n : Inst} : SpareNote (s :: p) name (checkNotes all key n).evs := by
  unfold checkNotes
  split
  · rename_i j _
    cases j with
    | obj o => simp only [addNotes, Bool.true_or, if_true]; exact spare_notes
    | _ => exact spare_nil
  · exact spare_nil

theorem spare_goneKids {kids : List (Meta × Schema)} {sigs : List (Option Choice)} {i : Nat} {k' : Meta × Schema} (hk' : kids[i]? = some k')
    (h : clearsBy sigs k'.1.choice = false) : SpareNote (.field i :: p) name (goneKids kids sigs) := fun old => by
  refine noteAt_none (fun q n v h => by obtain ⟨j, e⟩ := goneKids_mem h; simp at e) fun q hq => ?_
  unfold goneKids at hq
  simp only [List.mem_filterMap] at hq
  obtain ⟨j, _, hq⟩ := hq
  cases hj : kids[j]? with
  | none => simp [hj] at hq
  | some k =>
    simp only [hj] at hq
    split at hq
    · rename_i hc
      simp only [Option.some.injEq, NoteEv.gone.injEq] at hq
      subst hq
      simp only [atOrAbove, Step.same, Bool.and_true, beq_eq_false_iff_ne]
      rintro rfl
      rw [hk'] at hj
      obtain rfl := Option.some.inj hj
      have : clearsBy sigs k'.1.choice = true := hc
      rw [h] at this
      simp at this
    · simp at hq

end

section
variable {g : LoadOpt} {name : Str} {p : Path}

theorem noteMembers_spare {kids : List (Meta × Schema)} {above : List Str} {own po : Option Choice} {wrapped pres : Bool} {keys : List Nat}
    {all : List (Str × J)} {i : Nat} {k : Meta × Schema}
    (hf : wrapped = true → ChoicesKids st above own (choiceNames kids ++ above) kids) (hk : kids[i]? = some k) :
    ∀ {ms : List (Str × J)} {n : Inst},
    (∀ x ∈ ms, IsFor kids x.1 i → ∀ b c, (noteChild g k.2 k.1.choice b all x.1 c x.2).out.err = none →
      SpareNote p name (noteChild g k.2 k.1.choice b all x.1 c x.2).evs) →
    (∀ x ∈ ms, ∀ j k', IsFor kids x.1 j → kids[j]? = some k' → ¬ Rivals k'.1 k.1) →
    (noteMembers g wrapped (.cont pres kids) keys po all n ms).out.err = none →
    SpareNote (.field i :: p) name (noteMembers g wrapped (.cont pres kids) keys po all n ms).evs := by
  intro ms
  induction ms with
  | nil => intro n _ _ _; rw [noteMembers_nil]; exact spare_nil
  | cons x ms ih =>
    intro n hi hr h
    rw [noteMembers_cons] at h ⊢
    obtain ⟨h1, h2, h3⟩ := thenN_ok h
    rw [h3]
    refine spare_append ?_ (ih (fun y hy => hi y (by simp [hy])) (fun y hy => hr y (by simp [hy])) h2)
    by_cases hs : x.1 = ['@']
    · rw [if_pos hs]
      cases x.2 with
      | obj o =>
        simp only [addNotes]
        split
        · exact spare_notes
        · exact spare_nil
      | _ => exact spare_nil
    · rw [if_neg hs] at h1 ⊢
      by_cases hat : '@' ∈ x.1
      · rw [if_pos hat]; exact spare_nil
      · rw [if_neg hat] at h1 ⊢
        rcases kidN_evs (wrapped := wrapped) (pres := pres) (kids := kids) (po := po) (n := n) (key := localKey x.1) (u := ietfUnknown g.skip n x.2)
            (f := fun i k c => noteChild g k.2 k.1.choice (keys.contains i) all x.1 c x.2) with ⟨e, _⟩ | ⟨j, k', c, hj, hk', he, e⟩
        · rw [e]; exact spare_nil
        · have hfor := isFor_of_idx hat hj
          rw [he] at h1
          rw [e]
          refine spare_append (spare_under fun hs => ?_) ?_
          · simp only [Step.same, beq_iff_eq] at hs
            subst hs
            rw [hk] at hk'
            obtain rfl := Option.some.inj hk'
            exact hi x (by simp) hfor _ c h1
          · cases wrapped with
            | false => exact spare_nil
            | true =>
              simp only [if_true]
              refine spare_goneKids hk ?_
              cases hcl : clearsBy (noteChild g k'.2 k'.1.choice (keys.contains j) all x.1 c x.2).out.sigs k.1.choice with
              | false => rfl
              | true =>
                rw [noteChild_eq h1] at hcl
                exact absurd (clearsBy_rival (List.mem_of_getElem? hk) (iGood (x := x) (keys := keys) hf rfl j k' c hk') hcl) (hr x (by simp) j k' hfor hk')

theorem noteElems_spare {info : ListInfo} {kids : List (Meta × Schema)} {all : List (Str × J)} {key : Str} {k : PyVal}
    (ho : g.over = false) (hK : Keyed (.list info kids)) (hO : Orderly (.list info kids)) : ∀ {xs : List J} {n : Inst},
    (∀ x ∈ xs, ∀ s, 2 ≤ info.keys.length → docKey g.repr info kids x ≠ some (.str (s ++ [' ']))) →
    (∀ x ∈ xs, ∀ k' c, docKey g.repr info kids x = some k' → pyEq k' k = true →
      ((noteElem g kids info.keys c x).andThen (checkNotes all key)).out.err = none →
      SpareNote p name ((noteElem g kids info.keys c x).andThen (checkNotes all key)).evs) →
    (noteElems g info kids all key n xs).out.err = none → SpareNote (.key k :: p) name (noteElems g info kids all key n xs).evs := by
  intro xs
  induction xs with
  | nil => intro n _ _ _; rw [noteElems_nil]; exact spare_nil
  | cons x xs ih =>
    intro n hl hk h
    rw [noteElems_cons] at h ⊢
    obtain ⟨h1, h2, h3⟩ := thenN_ok h
    rw [h3]
    refine spare_append ?_ (ih (fun y hy => hl y (by simp [hy])) (fun y hy => hk y (by simp [hy])) h2)
    obtain ⟨_, h1, h4⟩ := thenN_ok h1
    rw [h4]
    simp only [ho, Bool.false_eq_true, if_false] at h1 ⊢
    obtain ⟨k', c, hd, he, e⟩ := elemNotes_evs hK hO (hl x (by simp)) h1
    rw [e]
    exact spare_append spare_nil (spare_under fun hs => hk x (by simp) k' c hd hs he)

def NoteSpares (st : Bool) (g : LoadOpt) (j : J) : Prop := ∀ S above own isKey all key c p name T, Choices st above own S → Orderly S → Keyed S →
  schemaAt S p = some T → ¬ Loose g.repr S j → ¬ Concerns g.repr S j p →
  (noteChild g S own isKey all key c j).out.err = none → SpareNote p name (noteChild g S own isKey all key c j).evs

theorem members_spares {S : Schema} {above : List Str} {own po : Option Choice} {wrapped : Bool} {keys : List Nat} {ms : List (Str × J)} {n : Inst} {T : Schema}
    (hf : wrapped = true → Choices st above own S) (hc : ∀ pres kids, S = .cont pres kids → ∀ k ∈ kids, ∃ a, Choices st a k.1.choice k.2)
    (hO : Orderly S) (hK : Keyed S) (hT : schemaAt S p = some T) (hl : ¬ Loose g.repr S (.obj ms)) (hx : ¬ Concerns g.repr S (.obj ms) p)
    (hS : ∀ info kids, S ≠ .list info kids)
    (hok : ∀ x ∈ ms, NoteSpares st g x.2) (h : (noteMembers g wrapped S keys po ms n ms).out.err = none) :
    SpareNote p name (noteMembers g wrapped S keys po ms n ms).evs := by
  cases p with
  | nil => exact absurd .here hx
  | cons s p =>
    cases S with
    | cont pres kids =>
      cases s with
      | key k => simp [schemaAt] at hT
      | field i =>
        rw [schemaAt_cont] at hT
        cases hk : kids[i]? with
        | none => simp [hk] at hT
        | some k =>
          rw [hk] at hT
          have hmem := List.mem_of_getElem? hk
          refine noteMembers_spare hf hk ?_ (fun x hx' j k' h1 h2 h3 => hx (.rival hx' h1 h2 hk h3)) h
          intro x hx' h1 b c he
          obtain ⟨a, hca⟩ := hc _ _ rfl k hmem
          exact hok x hx' k.2 a _ b ms x.1 c p name T hca (orderly_kid hO.2 hmem) (keyed_kid hK hk) hT
            (fun h => hl (.inside hx' h1 hk h)) (fun h => hx (.field hx' h1 hk h)) he
    | list => exact absurd rfl (hS _ _)
    | _ => cases s <;> simp [schemaAt] at hT

theorem list_evs {info : ListInfo} {kids : List (Meta × Schema)} {wrapped : Bool} {keys : List Nat} {po : Option Choice} {all : List (Str × J)} {s : Step} :
    ∀ {ms : List (Str × J)} {n : Inst}, (noteMembers g wrapped (.list info kids) keys po all n ms).out.err = none →
    SpareNote (s :: p) name (noteMembers g wrapped (.list info kids) keys po all n ms).evs := by
  intro ms
  induction ms with
  | nil => intro n _; rw [noteMembers_nil]; exact spare_nil
  | cons x ms ih =>
    intro n h
    rw [noteMembers_cons] at h ⊢
    obtain ⟨h1, h2, h3⟩ := thenN_ok h
    rw [h3]
    refine spare_append ?_ (ih h2)
    split
    · cases x.2 with
      | obj o =>
        simp only [addNotes]
        split
        · exact spare_notes
        · exact spare_nil
      | _ => exact spare_nil
    · split <;> exact spare_nil

theorem std_spare {S : Schema} {own : Option Choice} {isKey : Bool} {all : List (Str × J)} {key : Str} {c : Inst} {j : J} {s : Step}
    (hS : (∃ pres kids, S = .cont pres kids) ∨ ∃ info kids, S = .list info kids ∧ j = .null) (h : (stdNotes g S own isKey all key c j).out.err = none) :
    SpareNote (s :: p) name (stdNotes g S own isKey all key c j).evs := by
  obtain ⟨h1, _, h3⟩ := thenN_ok h
  unfold stdNotes
  rw [h3]
  refine spare_append ?_ spare_check
  simp only at h1 ⊢
  have : (ietfStd g S own isKey c j).sigs = [] := by
    revert h1
    unfold ietfStd
    cases isKey with
    | true => intro _; rfl
    | false =>
      simp only [Bool.false_eq_true, if_false]
      intro h1
      generalize hv : ietfVal _ j = r at h1 ⊢
      cases r with
      | error e => simp [fail]
      | ok j' =>
        cases j' with
        | null => rfl
        | _ =>
          rcases hS with ⟨pres, kids, rfl⟩ | ⟨info, kids, rfl, rfl⟩
          · simp [jsonSet] at h1
          · simp [ietfVal] at hv
  simp [this, spare_nil]

theorem child_spares (ho : g.over = false) (j : J) : NoteSpares st g j := by
  have main : NoteSpares st g j ∧ ∀ ms, j = .obj ms → ∀ y ∈ ms, NoteSpares st g y.2 := by
    induction j using J.ind with
    | harr xs ih =>
      refine ⟨?_, by simp⟩
      intro S above own isKey all key c p name T hc hO hK hT hl hx h
      unfold noteChild at h ⊢
      cases p with
      | nil => exact absurd .here hx
      | cons s p =>
      cases S with
      | list info kids =>
        simp only at h ⊢
        cases s with
        | field i => simp [schemaAt] at hT
        | key k =>
          refine noteElems_spare ho hK hO (fun x hx' s h1 h2 => hl (.here hx' h1 h2)) ?_ h
          intro x hx' k' c' hd hq he
          obtain ⟨e1, e2, e3⟩ := thenN_ok he
          rw [e3]
          have hx2 : ¬ Concerns g.repr (.cont false kids) x p := fun h => hx (.entry hx' hd hq h)
          cases p with
          | nil => exact absurd .here hx2
          | cons t p =>
          refine spare_append ?_ spare_check
          cases x with
          | obj ms =>
            simp only [noteElem] at e1 ⊢
            exact members_spares (S := .cont false kids) (above := above) (own := own) (fun _ => hc) (fun _ _ e k hk => by
                cases e; exact ⟨_, (flatKids_mem hc hk).2.2⟩) ⟨hO.1, hO.2.2⟩ (keyed_entry hK) hT (fun h => hl (.elem hx' h)) hx2 (by simp)
              ((ih _ hx').2 _ rfl) e1
          | _ => simp [noteElem, fail] at e1
      | cont pres kids =>
        simp only at h ⊢
        split
        · exact spare_nil
        · rename_i hne
          rw [if_neg hne] at h
          exact std_spare (.inl ⟨_, _, rfl⟩) h
      | _ => cases s <;> simp [schemaAt] at hT
    | hobj ms ih =>
      refine ⟨?_, ?_⟩
      · intro S above own isKey all key c p name T hc hO hK hT hl hx h
        unfold noteChild at h ⊢
        cases p with
        | nil => exact absurd .here hx
        | cons s p =>
        obtain ⟨h1, h2, h3⟩ := thenN_ok h
        obtain ⟨_, _, h4⟩ := thenN_ok h1
        rw [h3, h4]
        refine spare_append (spare_append spare_nil spare_check) ?_
        by_cases hS : ∃ info kids, S = .list info kids
        · obtain ⟨info, kids, rfl⟩ := hS
          exact list_evs h2
        · exact members_spares (above := above) (own := own) (fun _ => hc) (fun _ _ e k hk => by
                subst e; exact ⟨_, (flatKids_mem hc hk).2.2⟩) hO hK hT hl hx (fun i k e => hS ⟨i, k, e⟩) (fun x hx => (ih x hx).1) h2
      · intro ms' e y hy
        simp only [J.obj.injEq] at e
        subst e
        exact (ih y hy).1
    | _ =>
      refine ⟨?_, by simp⟩
      intro S above own isKey all key c p name T hc hO hK hT hl hx h
      unfold noteChild at h ⊢
      cases p with
      | nil => exact absurd .here hx
      | cons s p =>
      cases S with
      | cont pres kids => exact std_spare (.inl ⟨_, _, rfl⟩) h
      | list info kids =>
        first
        | exact std_spare (.inr ⟨_, _, rfl, rfl⟩) h
        | exact absurd (.whole (by simp) (by simp) (by simp)) hx
      | _ => cases s <;> simp [schemaAt] at hT
  exact main.1

end
end Pyb
