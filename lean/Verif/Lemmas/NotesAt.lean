import Verif.Lemmas.Notes

namespace Pyb
open Py Spec

variable {st : Bool}

theorem thenN_ok {o : NOut} {f : Inst → NOut} (h : (o.andThen f).out.err = none) :
    o.out.err = none ∧ (f o.out.inst).out.err = none ∧ (o.andThen f).evs = o.evs ++ (f o.out.inst).evs := by
  cases ho : o.out.err with
  | some e => simp [NOut.andThen, ho] at h
  | none =>
    simp only [NOut.andThen, ho, Out.andThen] at h
    exact ⟨rfl, h, by simp [NOut.andThen, ho]⟩

theorem thenN_mem {o : NOut} {f : Inst → NOut} {e : NoteEv} (h : e ∈ (o.andThen f).evs) :
    e ∈ o.evs ∨ (o.out.err = none ∧ e ∈ (f o.out.inst).evs) := by
  cases ho : o.out.err with
  | some e => simp only [NOut.andThen, ho] at h; exact .inl h
  | none =>
    simp only [NOut.andThen, ho, List.mem_append] at h
    rcases h with h | h
    · exact .inl h
    · exact .inr ⟨rfl, h⟩

/-! ## What is attached is in the document -/

theorem check_mem {all : List (Str × J)} {key : Str} {n : Inst} {q : Path} {name : Str} {v : J}
    (h : .note q name v ∈ (checkNotes all key n).evs) : q = [] ∧ ∃ o, all.lookup ('@' :: key) = some (.obj o) ∧ (name, v) ∈ o := by
  unfold checkNotes jget at h
  cases hl : all.lookup ('@' :: key) with
  | none => simp [hl, NOut.same] at h
  | some j =>
    rw [hl] at h
    cases j with
    | obj o =>
      simp only [addNotes, Bool.true_or, if_true, List.mem_map] at h
      obtain ⟨m, hm, e⟩ := h
      simp only [NoteEv.note.injEq] at e
      obtain ⟨rfl, rfl, rfl⟩ := e
      exact ⟨rfl, o, rfl, hm⟩
    | _ => simp [addNotes] at h

theorem goneKids_mem {kids : List (Meta × Schema)} {sigs : List (Option Choice)} {e : NoteEv} (h : e ∈ goneKids kids sigs) :
    ∃ j, e = .gone [.field j] := by
  unfold goneKids at h
  simp only [List.mem_filterMap] at h
  obtain ⟨j, _, h⟩ := h
  split at h
  · split at h
    · simp only [Option.some.injEq] at h
      exact ⟨j, h.symm⟩
    · simp at h
  · simp at h

theorem kidN_mem {wrapped : Bool} {S : Schema} {own : Option Choice} {n : Inst} {key : Str} {u : Out}
    {f : Nat → Meta × Schema → Inst → NOut} {q : Path} {name : Str} {v : J}
    (h : .note q name v ∈ (withKidN wrapped S own n key u f).evs) :
    ∃ pres kids i k c p, S = .cont pres kids ∧ kidIdx kids key = some i ∧ kids[i]? = some k ∧ q = .field i :: p ∧
      .note p name v ∈ (f i k c).evs := by
  unfold withKidN at h
  cases S with
  | cont pres kids =>
    simp only at h
    cases hi : kidIdx kids key with
    | none => simp [hi] at h
    | some i =>
      simp only [hi] at h
      cases hk : kids[i]? with
      | none => simp [hk] at h
      | some k =>
        simp only [hk] at h
        cases n with
        | cont ch pr ns =>
          simp only at h
          cases hc : ns[i]? with
          | none => simp [hc] at h
          | some c =>
            simp only [hc, List.mem_append, List.mem_map] at h
            rcases h with ⟨e, he, e'⟩ | h
            · cases e with
              | note p n' v' =>
                simp only [NoteEv.under, NoteEv.note.injEq] at e'
                obtain ⟨rfl, rfl, rfl⟩ := e'
                exact ⟨pres, kids, i, k, c, p, rfl, hi, hk, rfl, he⟩
              | gone p => simp [NoteEv.under] at e'
            · split at h
              · obtain ⟨j, e⟩ := goneKids_mem h
                simp at e
              · simp at h
        | _ => simp at h
  | _ => simp at h

theorem entryN_mem {n : Inst} {k : PyVal} {f : Inst → NOut} {q : Path} {name : Str} {v : J}
    (h : .note q name v ∈ (withEntryN n k f).evs) : ∃ c p, q = .key k :: p ∧ .note p name v ∈ (f c).evs := by
  unfold withEntryN at h
  cases n with
  | list ch es =>
    simp only at h
    cases hq : es.find? (fun q => pyEq q.1 k) with
    | none => simp [hq] at h
    | some r =>
      simp only [hq, List.mem_map] at h
      obtain ⟨e, he, e'⟩ := h
      cases e with
      | note p n' v' =>
        simp only [NoteEv.under, NoteEv.note.injEq] at e'
        obtain ⟨rfl, rfl, rfl⟩ := e'
        exact ⟨r.2, p, rfl, he⟩
      | gone p => simp [NoteEv.under] at e'
  | _ => simp at h

theorem std_mem {g : LoadOpt} {S : Schema} {own : Option Choice} {isKey : Bool} {all : List (Str × J)} {key : Str} {c : Inst} {j : J}
    {q : Path} {name : Str} {v : J} (h : .note q name v ∈ (stdNotes g S own isKey all key c j).evs) :
    q = [] ∧ ∃ o, all.lookup ('@' :: key) = some (.obj o) ∧ (name, v) ∈ o := by
  rcases thenN_mem h with h | ⟨_, h⟩
  · simp only at h
    split at h <;> simp at h
  · exact check_mem h

def NoteSound (g : LoadOpt) (j : J) : Prop := ∀ S own isKey all key c q name v, Orderly S → Keyed S → ¬ Loose g.repr S j →
  .note q name v ∈ (noteChild g S own isKey all key c j).evs → Annotates g.repr S j (all.lookup ('@' :: key)) q name v

section
variable {g : LoadOpt}

theorem members_sound {wrapped : Bool} {S : Schema} {keys : List Nat} {own : Option Choice} {all : List (Str × J)} {beside : Option J}
    (hO : Orderly S) (hK : Keyed S) (hl : ¬ Loose g.repr S (.obj all)) {q : Path} {name : Str} {v : J} :
    ∀ {ms : List (Str × J)}, (∀ x ∈ ms, x ∈ all) → (∀ x ∈ ms, NoteSound g x.2) → ∀ n,
    .note q name v ∈ (noteMembers g wrapped S keys own all n ms).evs → Annotates g.repr S (.obj all) beside q name v := by
  intro ms
  induction ms with
  | nil => intro _ _ n h; simp [noteMembers_nil, NOut.same] at h
  | cons x ms ih =>
    intro hsub hok n h
    rw [noteMembers_cons] at h
    rcases thenN_mem h with h | ⟨_, h⟩
    · by_cases hs : x.1 = ['@']
      · rw [if_pos hs] at h
        have hx : (['@'], x.2) ∈ all := by rw [← hs]; exact hsub x (by simp)
        cases hj : x.2 with
        | obj o =>
          rw [hj] at h hx
          simp only [addNotes] at h
          split at h
          · simp only [List.mem_map] at h
            obtain ⟨m, hm, e⟩ := h
            simp only [NoteEv.note.injEq] at e
            obtain ⟨rfl, rfl, rfl⟩ := e
            exact .inside hx hm
          · simp at h
        | _ => simp [hj, addNotes] at h
      · rw [if_neg hs] at h
        by_cases hat : '@' ∈ x.1
        · rw [if_pos hat] at h; simp [NOut.same] at h
        · rw [if_neg hat] at h
          obtain ⟨pres, kids, i, k, c, p, rfl, hi, hk, rfl, h'⟩ := kidN_mem h
          have hfor := isFor_of_idx hat hi
          exact .field (hsub x (by simp)) hfor hk (hok x (by simp) k.2 _ _ all x.1 c p name v (orderly_kid hO.2 (List.mem_of_getElem? hk))
            (keyed_kid hK hk) (fun h => hl (.inside (hsub x (by simp)) hfor hk h)) h')
    · exact ih (fun y hy => hsub y (by simp [hy])) (fun y hy => hok y (by simp [hy])) _ h

theorem elems_sound {info : ListInfo} {kids : List (Meta × Schema)} {all : List (Str × J)} {key : Str} (hO : Orderly (.list info kids))
    (hK : Keyed (.list info kids)) {q : Path} {name : Str} {v : J} :
    ∀ {xs : List J}, (∀ x ∈ xs, ∀ ms, x = .obj ms → ∀ y ∈ ms, NoteSound g y.2) → ¬ Loose g.repr (.list info kids) (.arr xs) → ∀ n,
    .note q name v ∈ (noteElems g info kids all key n xs).evs →
    Annotates g.repr (.list info kids) (.arr xs) (all.lookup ('@' :: key)) q name v := by
  intro xs
  induction xs with
  | nil => intro _ _ n h; simp [noteElems_nil, NOut.same] at h
  | cons x xs ih =>
    intro hok hl n h
    rw [noteElems_cons] at h
    rcases thenN_mem h with h | ⟨_, h⟩
    · rcases thenN_mem h with h | ⟨_, h⟩
      · split at h
        · simp only [clearNotes] at h
          split at h <;> simp at h
        · simp [NOut.same] at h
      · generalize (if g.over = true then clearNotes n else NOut.same n).out.inst = n1 at h
        unfold elemNotes at h
        cases n1 with
        | list ch es =>
          simp only at h
          rcases thenN_mem h with h | ⟨he, h⟩
          · simp at h
          · simp only at he
            have hd := ietfEntry_key ((keyed_list ..).1 hK).1 hO.2.1 (fun s h2 h => hl (.here (by simp) h2 h)) he
            obtain ⟨c, p, rfl, h'⟩ := entryN_mem h
            clear h
            replace h := h'
            refine .entry (by simp) hd (pyEq_refl _) ?_
            have hx : ∃ ms, x = .obj ms := by
              cases x with
              | obj ms => exact ⟨ms, rfl⟩
              | _ =>
                rcases thenN_mem h with h | ⟨h, _⟩
                · simp [noteElem] at h
                · simp [noteElem, fail] at h
            obtain ⟨ms, rfl⟩ := hx
            rcases thenN_mem h with h | ⟨_, h⟩
            · simp only [noteElem] at h
              exact members_sound (S := .cont false kids) ⟨hO.1, hO.2.2⟩ (keyed_entry hK) (fun h => hl (.elem (by simp) h)) (fun _ h => h) (hok _ (by simp) ms rfl) _ h
            · obtain ⟨rfl, o, h1, h2⟩ := check_mem h
              rw [h1]
              exact .beside h2 (by simp)
        | _ => simp at h
    · have := ih (fun y hy => hok y (by simp [hy])) (fun h => hl (by
        cases h with
        | here h1 h2 h3 => exact .here (by simp [h1]) h2 h3
        | elem h1 h2 => exact .elem (by simp [h1]) h2)) _ h
      generalize all.lookup ('@' :: key) = b at this ⊢
      cases this with
      | beside h1 h2 => exact absurd rfl ((h2 _ rfl).2 _ _)
      | entry h1 h2 h3 h4 => exact .entry (by simp [h1]) h2 h3 h4

theorem child_sound (j : J) : NoteSound g j := by
  have main : NoteSound g j ∧ ∀ ms, j = .obj ms → ∀ y ∈ ms, NoteSound g y.2 := by
    induction j using J.ind with
    | harr xs ih =>
      refine ⟨?_, by simp⟩
      intro S own isKey all key c q name v hO hK hl h
      unfold noteChild at h
      cases S with
      | list info kids => exact elems_sound hO hK (fun x hx => (ih x hx).2) hl c h
      | _ =>
        simp only at h
        split at h
        · simp [NOut.same] at h
        · rename_i hne
          obtain ⟨rfl, o, h1, h2⟩ := std_mem h
          rw [h1]
          exact .beside h2 (by rintro _ ⟨rfl⟩; exact ⟨by rintro rfl; simp at hne, by simp⟩)
    | hobj ms ih =>
      refine ⟨?_, ?_⟩
      · intro S own isKey all key c q name v hO hK hl h
        unfold noteChild at h
        rcases thenN_mem h with h | ⟨_, h⟩
        · rcases thenN_mem h with h | ⟨_, h⟩
          · simp at h
          · obtain ⟨rfl, o, h1, h2⟩ := check_mem h
            rw [h1]
            exact .beside h2 (by simp)
        · exact members_sound hO hK hl (fun _ h => h) (fun x hx => (ih x hx).1) _ h
      · intro ms' e y hy
        simp only [J.obj.injEq] at e
        subst e
        exact (ih y hy).1
    | _ =>
      refine ⟨?_, by simp⟩
      intro S own isKey all key c q name v hO hK hl h
      unfold noteChild at h
      obtain ⟨rfl, o, h1, h2⟩ := std_mem h
      rw [h1]
      exact .beside h2 (by simp)
  exact main.1

end

/-! ## What is in the document is attached -/

theorem noteAt_append {p : Path} {name : Str} {a b : List NoteEv} : ∀ {old : Option J},
    noteAt p name old (a ++ b) = noteAt p name (noteAt p name old a) b := by
  induction a with
  | nil => intro old; rfl
  | cons e a ih => intro old; cases e <;> exact ih

theorem noteAt_under {s t : Step} {p : Path} {name : Str} {es : List NoteEv} : ∀ {old : Option J},
    noteAt (t :: p) name old (es.map (NoteEv.under s)) = if s.same t then noteAt p name old es else old := by
  induction es with
  | nil => intro old; simp [noteAt]
  | cons e es ih =>
    intro old
    cases e with
    | note q n v =>
      simp only [List.map_cons, NoteEv.under, noteAt, samePath]
      rw [ih]
      by_cases h : s.same t = true <;> simp [h]
    | gone q =>
      simp only [List.map_cons, NoteEv.under, noteAt, atOrAbove]
      rw [ih]
      by_cases h : s.same t = true <;> simp [h]

theorem noteAt_under_nil {s : Step} {name : Str} {es : List NoteEv} : ∀ {old : Option J},
    noteAt [] name old (es.map (NoteEv.under s)) = old := by
  induction es with
  | nil => intro old; rfl
  | cons e es ih =>
    intro old
    cases e with
    | note q n v =>
      simp only [List.map_cons, NoteEv.under, noteAt, samePath]
      rw [ih]
      simp
    | gone q =>
      simp only [List.map_cons, NoteEv.under, noteAt, atOrAbove]
      rw [ih]
      simp

theorem noteAt_none {p : Path} {name : Str} {es : List NoteEv} : ∀ {old : Option J},
    (∀ q n v, .note q n v ∈ es → samePath q p = false ∨ n ≠ name) → (∀ q, .gone q ∈ es → atOrAbove q p = false) →
    noteAt p name old es = old := by
  induction es with
  | nil => intro old _ _; rfl
  | cons e es ih =>
    intro old h1 h2
    cases e with
    | note q n v =>
      simp only [noteAt]
      have : (samePath q p && n == name) = false := by
        rcases h1 q n v (by simp) with h | h
        · simp [h]
        · simp [h]
      rw [this]
      exact ih (fun q n v h => h1 q n v (by simp [h])) (fun q h => h2 q (by simp [h]))
    | gone q =>
      simp only [noteAt]
      rw [h2 q (by simp)]
      exact ih (fun q n v h => h1 q n v (by simp [h])) (fun q h => h2 q (by simp [h]))

theorem noteAt_from {p : Path} {name : Str} {v : J} {es : List NoteEv} : ∀ {old : Option J}, noteAt p name old es = some v →
    old = some v ∨ ∃ q, samePath q p = true ∧ .note q name v ∈ es := by
  induction es with
  | nil => intro old h; exact .inl h
  | cons e es ih =>
    intro old h
    cases e with
    | note q n w =>
      simp only [noteAt] at h
      rcases ih h with h | ⟨q', h1, h2⟩
      · split at h
        · rename_i hq
          simp only [Bool.and_eq_true, beq_iff_eq] at hq
          simp only [Option.some.injEq] at h
          exact .inr ⟨q, hq.1, by simp [hq.2, h]⟩
        · exact .inl h
      · exact .inr ⟨q', h1, by simp [h2]⟩
    | gone q =>
      simp only [noteAt] at h
      rcases ih h with h | ⟨q', h1, h2⟩
      · split at h
        · simp at h
        · exact .inl h
      · exact .inr ⟨q', h1, by simp [h2]⟩

/-- The object at the path has the annotation in the end. -/
def Gives (p : Path) (name : Str) (es : List NoteEv) : Prop := ∀ old, (noteAt p name old es).isSome = true

/-- It has it if it had it before. -/
def KeepsNote (p : Path) (name : Str) (es : List NoteEv) : Prop := ∀ old, old.isSome = true → (noteAt p name old es).isSome = true

section
variable {p : Path} {name : Str}

theorem gives_last {a b : List NoteEv} (h : Gives p name b) : Gives p name (a ++ b) := fun old => by
  rw [noteAt_append]; exact h _

theorem gives_first {a b : List NoteEv} (h : Gives p name a) (h' : KeepsNote p name b) : Gives p name (a ++ b) := fun old => by
  rw [noteAt_append]; exact h' _ (h _)

theorem keeps_append {a b : List NoteEv} (h : KeepsNote p name a) (h' : KeepsNote p name b) : KeepsNote p name (a ++ b) := fun old ho => by
  rw [noteAt_append]; exact h' _ (h _ ho)

theorem keeps_nil : KeepsNote p name [] := fun _ h => h

theorem keeps_notes : ∀ {es : List NoteEv}, (∀ q, .gone q ∉ es) → KeepsNote p name es := by
  intro es
  induction es with
  | nil => intro _; exact keeps_nil
  | cons e es ih =>
    intro h old ho
    cases e with
    | note q n v =>
      simp only [noteAt]
      apply ih fun q hq => h q (by simp [hq])
      split <;> simp [ho]
    | gone q => exact absurd (by simp) (h q)

theorem gives_notes {o : List (Str × J)} {v : J} (h : (name, v) ∈ o) : Gives [] name (o.map fun m => .note [] m.1 m.2) := by
  induction o with
  | nil => simp at h
  | cons m o ih =>
    intro old
    simp only [List.map_cons, noteAt]
    rcases List.mem_cons.1 h with rfl | h
    · simp only [samePath, Bool.true_and, beq_self_eq_true, if_true]
      exact keeps_notes (by simp) _ rfl
    · exact ih h _

theorem check_gives {all : List (Str × J)} {key : Str} {n : Inst} {o : List (Str × J)} {v : J} (h : all.lookup ('@' :: key) = some (.obj o))
    (hv : (name, v) ∈ o) : Gives [] name (checkNotes all key n).evs := by
  simp only [checkNotes, jget, h, addNotes, Bool.true_or, if_true]
  exact gives_notes hv

theorem check_keeps {all : List (Str × J)} {key : Str} {n : Inst} : KeepsNote p name (checkNotes all key n).evs := by
  unfold checkNotes
  split
  · rename_i j _
    cases j with
    | obj o => exact keeps_notes (by simp [addNotes])
    | _ => exact keeps_nil
  · exact keeps_nil

theorem under_gives {s t : Step} {es : List NoteEv} (hs : s.same t = true) (h : Gives p name es) : Gives (t :: p) name (es.map (NoteEv.under s)) :=
  fun old => by rw [noteAt_under, if_pos hs]; exact h _

theorem under_keeps {s t : Step} {es : List NoteEv} (hs : s.same t = false) : KeepsNote (t :: p) name (es.map (NoteEv.under s)) :=
  fun old ho => by rw [noteAt_under, hs]; exact ho

theorem under_keeps_nil {s : Step} {es : List NoteEv} : KeepsNote [] name (es.map (NoteEv.under s)) :=
  fun old ho => by rw [noteAt_under_nil]; exact ho

theorem goneKids_keeps_nil {kids : List (Meta × Schema)} {sigs : List (Option Choice)} : KeepsNote [] name (goneKids kids sigs) := by
  intro old ho
  rw [noteAt_none (fun q n v h => by obtain ⟨j, e⟩ := goneKids_mem h; simp at e) fun q h => by
    obtain ⟨j, e⟩ := goneKids_mem h
    simp only [NoteEv.gone.injEq] at e
    subst e
    rfl]
  exact ho

theorem goneKids_keeps {kids : List (Meta × Schema)} {sigs : List (Option Choice)} {i : Nat} {k' : Meta × Schema} (hk' : kids[i]? = some k')
    (h : clearsBy sigs k'.1.choice = false) : KeepsNote (.field i :: p) name (goneKids kids sigs) := by
  intro old ho
  rw [noteAt_none (fun q n v h => by obtain ⟨j, e⟩ := goneKids_mem h; simp at e) ?_]
  · exact ho
  · intro q hq
    unfold goneKids at hq
    simp only [List.mem_filterMap] at hq
    obtain ⟨j, _, hq⟩ := hq
    cases hj : kids[j]? with
    | none => simp [hj] at hq
    | some k =>
      simp only [hj] at hq
      split at hq
      · rename_i hc
        simp only [Option.some.injEq, NoteEv.gone.injEq] at hq
        subst hq
        simp only [atOrAbove, Step.same, Bool.and_true, beq_eq_false_iff_ne]
        rintro rfl
        rw [hk'] at hj
        obtain rfl := Option.some.inj hj
        have : clearsBy sigs k'.1.choice = true := hc
        rw [h] at this
        simp at this
      · simp at hq

end

theorem noteChild_eq {g : LoadOpt} {S : Schema} {own : Option Choice} {isKey : Bool} {all : List (Str × J)} {key : Str} {c : Inst} {j : J}
    (h : (noteChild g S own isKey all key c j).out.err = none) : (noteChild g S own isKey all key c j).out = ietfChild g S own isKey c j := by
  rcases child_agree j S own isKey all key c with h1 | ⟨h1, _⟩
  · exact h1
  · rw [h] at h1; simp at h1

section
variable {g : LoadOpt} {name : Str} {kids : List (Meta × Schema)} {above : List Str} {own po : Option Choice} {wrapped pres : Bool} {keys : List Nat}
  {all : List (Str × J)}

/-- The events of a step on a child. -/
theorem kidN_evs {n : Inst} {key : Str} {u : Out} {f : Nat → Meta × Schema → Inst → NOut} :
    ((withKidN wrapped (.cont pres kids) po n key u f).evs = [] ∧ (kidIdx kids key = none ∨
      (withKidN wrapped (.cont pres kids) po n key u f).out.err ≠ none)) ∨ ∃ i k c, kidIdx kids key = some i ∧ kids[i]? = some k ∧
      (withKidN wrapped (.cont pres kids) po n key u f).out.err = (f i k c).out.err ∧
      (withKidN wrapped (.cont pres kids) po n key u f).evs = (f i k c).evs.map (NoteEv.under (.field i)) ++
        (if wrapped then goneKids kids (f i k c).out.sigs else []) := by
  simp only [withKidN]
  cases hi : kidIdx kids key with
  | none => exact .inl ⟨rfl, .inl rfl⟩
  | some i =>
    simp only
    cases hk : kids[i]? with
    | none => exact .inl ⟨rfl, .inr (by simp [fail])⟩
    | some k =>
      cases n with
      | cont ch pr ns =>
        simp only
        cases hc : ns[i]? with
        | none => exact .inl ⟨rfl, .inr (by simp [fail])⟩
        | some c => exact .inr ⟨i, k, c, rfl, hk, by simp only [holdPut_err], rfl⟩
      | _ => exact .inl ⟨rfl, .inr (by simp [fail])⟩

theorem noteMembers_keeps_nil {S : Schema} : ∀ {ms : List (Str × J)} {n : Inst}, (noteMembers g wrapped S keys po all n ms).out.err = none →
    KeepsNote [] name (noteMembers g wrapped S keys po all n ms).evs := by
  intro ms
  induction ms with
  | nil => intro n _; rw [noteMembers_nil]; exact keeps_nil
  | cons x ms ih =>
    intro n h
    rw [noteMembers_cons] at h ⊢
    obtain ⟨h1, h2, h3⟩ := thenN_ok h
    rw [h3]
    refine keeps_append ?_ (ih h2)
    split
    · cases x.2 with
      | obj o =>
        simp only [addNotes]
        split
        · exact keeps_notes (by simp)
        · exact keeps_nil
      | _ => exact keeps_nil
    · split
      · exact keeps_nil
      · cases S with
        | cont pres kids =>
          rcases kidN_evs (wrapped := wrapped) (pres := pres) (kids := kids) (po := po) (n := n) (key := localKey x.1) (u := ietfUnknown g.skip n x.2)
            (f := fun i k c => noteChild g k.2 k.1.choice (keys.contains i) all x.1 c x.2) with ⟨e, e'⟩ | ⟨i, k, c, _, _, _, e⟩
          · rw [e]; exact keeps_nil
          · rw [e]
            refine keeps_append under_keeps_nil ?_
            split
            · exact goneKids_keeps_nil
            · exact keeps_nil
        | _ => exact keeps_nil

theorem noteMembers_gives_nil {S : Schema} {o : List (Str × J)} {v : J} (hv : (name, v) ∈ o) : ∀ {ms : List (Str × J)} {n : Inst},
    (['@'], .obj o) ∈ ms → (noteMembers g wrapped S keys po all n ms).out.err = none →
    Gives [] name (noteMembers g wrapped S keys po all n ms).evs := by
  intro ms
  induction ms with
  | nil => intro n hm _; simp at hm
  | cons x ms ih =>
    intro n hm h
    rw [noteMembers_cons] at h ⊢
    obtain ⟨h1, h2, h3⟩ := thenN_ok h
    rw [h3]
    rcases List.mem_cons.1 hm with e | hm
    · subst e
      refine gives_first ?_ (noteMembers_keeps_nil h2)
      simp only [if_true, addNotes] at h1 ⊢
      split at h1
      · rename_i hw
        rw [if_pos hw]
        exact gives_notes hv
      · simp [fail] at h1
    · exact gives_last (ih hm h2)

/-- What later members do not concern stays annotated. -/
theorem noteMembers_keeps {i : Nat} {k : Meta × Schema} {p : Path}
    (hf : wrapped = true → ChoicesKids st above own (choiceNames kids ++ above) kids) (hk : kids[i]? = some k) :
    ∀ {ms : List (Str × J)} {n : Inst}, (∀ y ∈ ms, ¬ IsFor kids y.1 i) →
    (∀ y ∈ ms, ∀ j k', IsFor kids y.1 j → kids[j]? = some k' → ¬ Rivals k'.1 k.1) →
    (noteMembers g wrapped (.cont pres kids) keys po all n ms).out.err = none →
    KeepsNote (.field i :: p) name (noteMembers g wrapped (.cont pres kids) keys po all n ms).evs := by
  intro ms
  induction ms with
  | nil => intro n _ _ _; rw [noteMembers_nil]; exact keeps_nil
  | cons x ms ih =>
    intro n hi hr h
    rw [noteMembers_cons] at h ⊢
    obtain ⟨h1, h2, h3⟩ := thenN_ok h
    rw [h3]
    refine keeps_append ?_ (ih (fun y hy => hi y (by simp [hy])) (fun y hy => hr y (by simp [hy])) h2)
    by_cases hs : x.1 = ['@']
    · rw [if_pos hs]
      cases x.2 with
      | obj o =>
        simp only [addNotes]
        split
        · exact keeps_notes (by simp)
        · exact keeps_nil
      | _ => exact keeps_nil
    · rw [if_neg hs] at h1 ⊢
      by_cases hat : '@' ∈ x.1
      · rw [if_pos hat]; exact keeps_nil
      · rw [if_neg hat] at h1 ⊢
        rcases kidN_evs (wrapped := wrapped) (pres := pres) (kids := kids) (po := po) (n := n) (key := localKey x.1) (u := ietfUnknown g.skip n x.2)
            (f := fun i k c => noteChild g k.2 k.1.choice (keys.contains i) all x.1 c x.2) with ⟨e, e'⟩ | ⟨j, k', c, hj, hk', he, e⟩
        · rw [e]; exact keeps_nil
        · have hfor := isFor_of_idx hat hj
          rw [e]
          refine keeps_append (under_keeps ?_) ?_
          · simp only [Step.same, beq_eq_false_iff_ne]
            rintro rfl
            exact hi x (by simp) hfor
          · cases wrapped with
            | false => exact keeps_nil
            | true =>
              simp only [if_true]
              refine goneKids_keeps hk ?_
              cases hcl : clearsBy (noteChild g k'.2 k'.1.choice (keys.contains j) all x.1 c x.2).out.sigs k.1.choice with
              | false => rfl
              | true =>
                rw [he] at h1
                rw [noteChild_eq h1] at hcl
                exact absurd (clearsBy_rival (List.mem_of_getElem? hk) (iGood (x := x) (keys := keys) hf rfl j k' c hk') hcl) (hr x (by simp) j k' hfor hk')

theorem noteMembers_gives {i : Nat} {k : Meta × Schema} {p : Path} {x : Str × J} (hn : GoodNames kids)
    (hf : wrapped = true → ChoicesKids st above own (choiceNames kids ++ above) kids) (hk : kids[i]? = some k) (hfor : IsFor kids x.1 i)
    (hin : ∀ b c, (noteChild g k.2 k.1.choice b all x.1 c x.2).out.err = none → Gives p name (noteChild g k.2 k.1.choice b all x.1 c x.2).evs) :
    ∀ {ms pre : List (Str × J)} {n : Inst}, x ∈ ms → ¬ Contradicts g.repr (.cont pres kids) (.obj (pre ++ ms)) →
    (noteMembers g wrapped (.cont pres kids) keys po all n ms).out.err = none →
    Gives (.field i :: p) name (noteMembers g wrapped (.cont pres kids) keys po all n ms).evs := by
  intro ms
  induction ms with
  | nil => intro pre n hx; simp at hx
  | cons y ms ih =>
    intro pre n hx hc h
    rw [noteMembers_cons] at h ⊢
    obtain ⟨h1, h2, h3⟩ := thenN_ok h
    rw [h3]
    rcases List.mem_cons.1 hx with rfl | hx
    · have hs : x.1 ≠ ['@'] := fun e => hfor.1 (by rw [e]; simp)
      simp only [hs, hfor.1, if_false] at h1 ⊢ h2
      refine gives_first ?_ (noteMembers_keeps hf hk ?_ ?_ h2)
      · rcases kidN_evs (wrapped := wrapped) (pres := pres) (kids := kids) (po := po) (n := n) (key := localKey x.1) (u := ietfUnknown g.skip n x.2)
            (f := fun i k c => noteChild g k.2 k.1.choice (keys.contains i) all x.1 c x.2) with ⟨e, e'⟩ | ⟨j, k', c, hj, hk', he, e⟩
        · rcases e' with e' | e'
          · rw [isFor_idx hn hfor] at e'; simp at e'
          · exact absurd h1 e'
        · rw [isFor_idx hn hfor] at hj
          obtain rfl := Option.some.inj hj
          rw [hk] at hk'
          obtain rfl := Option.some.inj hk'
          rw [he] at h1
          rw [e]
          refine gives_first (under_gives (by simp [Step.same]) (hin _ c h1)) ?_
          cases wrapped with
          | false => exact keeps_nil
          | true =>
            simp only [if_true]
            refine goneKids_keeps hk ?_
            cases hcl : clearsBy (noteChild g k.2 k.1.choice (keys.contains i) all x.1 c x.2).out.sigs k.1.choice with
            | false => rfl
            | true =>
              rw [noteChild_eq h1] at hcl
              exact absurd (clearsBy_rival (List.mem_of_getElem? hk) (iGood (x := x) (keys := keys) hf rfl i k c hk) hcl) (rivals_irrefl _)
      · intro z hz hz'
        obtain ⟨b, hb', hb⟩ := List.getElem_of_mem hz
        refine hc (.twice (a := pre.length) (b := pre.length + (b + 1)) (x := x) (y := z) (by omega) (by simp) ?_ hfor hz')
        rw [List.getElem?_append_right (by omega)]
        simp [List.getElem?_eq_getElem hb', hb]
      · intro z hz j k' hz' hk' hr
        exact hc (.rivals (by simp [hz]) (by simp) hz' hfor hk' hk hr)
    · refine gives_last (ih (pre := pre ++ [y]) hx ?_ h2)
      simpa using hc

end

/-- One of the annotations of the object itself, or one below it. -/
theorem annotates_beside {repr : J → Str} {S : Schema} {j : J} {b : Option J} {p : Path} {name : Str} {v : J} (h : Annotates repr S j b p name v)
    (hS : ∀ info kids, S ≠ .list info kids) :
    (p = [] ∧ ∃ o, b = some (.obj o) ∧ (name, v) ∈ o ∧ j ≠ .arr []) ∨ ∃ ms, j = .obj ms ∧ ∀ b', Annotates repr S (.obj ms) b' p name v := by
  cases h with
  | inside h1 h2 => exact .inr ⟨_, rfl, fun _ => .inside h1 h2⟩
  | beside h1 h2 => exact .inl ⟨rfl, _, rfl, h1, fun e => (h2 _ e).1 rfl⟩
  | field h1 h2 h3 h4 => exact .inr ⟨_, rfl, fun _ => .field h1 h2 h3 h4⟩
  | entry => exact absurd rfl (hS _ _)

def NoteFull (st : Bool) (g : LoadOpt) (j : J) : Prop := ∀ S above own isKey all key c p name v, Choices st above own S → Orderly S → Keyed S →
  ¬ Loose g.repr S j → ¬ Contradicts g.repr S j → Annotates g.repr S j (all.lookup ('@' :: key)) p name v →
  (noteChild g S own isKey all key c j).out.err = none → Gives p name (noteChild g S own isKey all key c j).evs

section
variable {g : LoadOpt} {name : Str} {v : J}

theorem members_full {wrapped : Bool} {S : Schema} {keys : List Nat} {above : List Str} {own po : Option Choice} {ms : List (Str × J)} {n : Inst} {p : Path}
    (hf : wrapped = true → Choices st above own S) (hc : ∀ pres kids, S = .cont pres kids → ∀ k ∈ kids, ∃ a, Choices st a k.1.choice k.2)
    (hO : Orderly S) (hK : Keyed S) (hl : ¬ Loose g.repr S (.obj ms)) (hx : ¬ Contradicts g.repr S (.obj ms)) (hok : ∀ x ∈ ms, NoteFull st g x.2)
    (ha : ∀ b, Annotates g.repr S (.obj ms) b p name v) (h : (noteMembers g wrapped S keys po ms n ms).out.err = none) :
    Gives p name (noteMembers g wrapped S keys po ms n ms).evs := by
  cases ha none with
  | inside h1 h2 => exact noteMembers_gives_nil h2 h1 h
  | @field pres kids _ _ x i k p name v h1 h2 h3 h4 =>
    refine noteMembers_gives (pre := []) hO.1 hf h3 h2 ?_ h1 hx h
    intro b c he
    obtain ⟨a, hca⟩ := hc _ _ rfl k (List.mem_of_getElem? h3)
    exact hok x h1 k.2 a _ b ms x.1 c p name v hca (orderly_kid hO.2 (List.mem_of_getElem? h3)) (keyed_kid hK h3)
      (fun h => hl (.inside h1 h2 h3 h)) (fun h => hx (.inside h1 h2 h3 h)) h4 he


theorem clear_off {h : g.over = false} {n : Inst} : (if g.over = true then clearNotes n else NOut.same n) = NOut.same n := by simp [h]

/-- What an element does to its entry. -/
theorem elemNotes_evs {info : ListInfo} {kids : List (Meta × Schema)} {all : List (Str × J)} {key : Str} {x : J} {n : Inst}
    (hK : Keyed (.list info kids)) (hO : Orderly (.list info kids)) (hl : ∀ s, 2 ≤ info.keys.length → docKey g.repr info kids x ≠ some (.str (s ++ [' '])))
    (h : (elemNotes g info kids all key x n).out.err = none) :
    ∃ k c, docKey g.repr info kids x = some k ∧ ((noteElem g kids info.keys c x).andThen (checkNotes all key)).out.err = none ∧
      (elemNotes g info kids all key x n).evs = ((noteElem g kids info.keys c x).andThen (checkNotes all key)).evs.map (NoteEv.under (.key k)) := by
  unfold elemNotes at h ⊢
  cases n with
  | list ch es =>
    simp only at h ⊢
    obtain ⟨h1, h2, h3⟩ := thenN_ok h
    rw [h3]
    have hd := ietfEntry_key ((keyed_list ..).1 hK).1 hO.2.1 hl h1
    simp only [List.nil_append]
    revert h2
    unfold withEntryN
    cases (ietfEntry g info kids ch es x).1.inst with
    | list ch' es' =>
      simp only
      cases es'.find? (fun q => pyEq q.1 (ietfEntry g info kids ch es x).2) with
      | none => simp [fail]
      | some q => exact fun h2 => ⟨_, q.2, hd, h2, rfl⟩
    | _ => simp [fail]
  | _ => simp [fail] at h

theorem noteElems_keeps {info : ListInfo} {kids : List (Meta × Schema)} {all : List (Str × J)} {key : Str} {k : PyVal} {p : Path}
    (ho : g.over = false) (hK : Keyed (.list info kids)) (hO : Orderly (.list info kids)) : ∀ {xs : List J} {n : Inst},
    (∀ x ∈ xs, ∀ s, 2 ≤ info.keys.length → docKey g.repr info kids x ≠ some (.str (s ++ [' ']))) →
    (∀ x ∈ xs, ∀ k', docKey g.repr info kids x = some k' → pyEq k' k = false) →
    (noteElems g info kids all key n xs).out.err = none → KeepsNote (.key k :: p) name (noteElems g info kids all key n xs).evs := by
  intro xs
  induction xs with
  | nil => intro n _ _ _; rw [noteElems_nil]; exact keeps_nil
  | cons x xs ih =>
    intro n hl hk h
    rw [noteElems_cons] at h ⊢
    obtain ⟨h1, h2, h3⟩ := thenN_ok h
    rw [h3]
    refine keeps_append ?_ (ih (fun y hy => hl y (by simp [hy])) (fun y hy => hk y (by simp [hy])) h2)
    obtain ⟨_, h1, h4⟩ := thenN_ok h1
    rw [h4]
    simp only [ho, Bool.false_eq_true, if_false] at h1 ⊢
    obtain ⟨k', c, hd, _, e⟩ := elemNotes_evs hK hO (hl x (by simp)) h1
    rw [e]
    refine keeps_append keeps_nil (under_keeps ?_)
    exact hk x (by simp) k' hd

theorem noteElems_gives {info : ListInfo} {kids : List (Meta × Schema)} {all : List (Str × J)} {key : Str} {k k' : PyVal} {p : Path} {x : J}
    (ho : g.over = false) (hK : Keyed (.list info kids)) (hO : Orderly (.list info kids)) (hd : docKey g.repr info kids x = some k')
    (hk : pyEq k' k = true)
    (hin : ∀ c, ((noteElem g kids info.keys c x).andThen (checkNotes all key)).out.err = none →
      Gives p name ((noteElem g kids info.keys c x).andThen (checkNotes all key)).evs) : ∀ {xs pre : List J} {n : Inst},
    x ∈ xs → ¬ Loose g.repr (.list info kids) (.arr xs) → ¬ Contradicts g.repr (.list info kids) (.arr (pre ++ xs)) →
    (noteElems g info kids all key n xs).out.err = none → Gives (.key k :: p) name (noteElems g info kids all key n xs).evs := by
  intro xs
  induction xs with
  | nil => intro pre n hx; simp at hx
  | cons y xs ih =>
    intro pre n hx hl hc h
    rw [noteElems_cons] at h ⊢
    obtain ⟨h1, h2, h3⟩ := thenN_ok h
    rw [h3]
    have hl' : ∀ z ∈ y :: xs, ∀ s, 2 ≤ info.keys.length → docKey g.repr info kids z ≠ some (.str (s ++ [' '])) :=
      fun z hz s h2 h => hl (.here hz h2 h)
    rcases List.mem_cons.1 hx with rfl | hx
    · obtain ⟨_, h1, h4⟩ := thenN_ok h1
      rw [h4]
      refine gives_first ?_ (noteElems_keeps ho hK hO (fun z hz => hl' z (by simp [hz])) ?_ h2)
      · simp only [ho, Bool.false_eq_true, if_false] at h1 ⊢
        obtain ⟨k2, c, hd2, he, e⟩ := elemNotes_evs hK hO (hl' x (by simp)) h1
        rw [hd] at hd2
        obtain rfl := Option.some.inj hd2
        rw [e]
        exact gives_last (under_gives hk (hin c he))
      · intro z hz k2 hd2
        cases hq : pyEq k2 k with
        | false => rfl
        | true =>
          obtain ⟨b, hb', hb⟩ := List.getElem_of_mem hz
          refine absurd (.sameKey (a := pre.length) (b := pre.length + (b + 1)) (x := x) (y := z) (by omega) (by simp) ?_ hd hd2 (by rw [pyEq_trans hk, pyEq_symm]; exact hq)) hc
          rw [List.getElem?_append_right (by omega)]
          simp [List.getElem?_eq_getElem hb', hb]
    · refine gives_last (ih (pre := pre ++ [y]) hx ?_ ?_ h2)
      · exact fun h => hl (by
          cases h with
          | here h1 h2 h3 => exact .here (by simp [h1]) h2 h3
          | elem h1 h2 => exact .elem (by simp [h1]) h2)
      · simpa using hc

theorem child_full (ho : g.over = false) (j : J) : NoteFull st g j := by
  have main : NoteFull st g j ∧ ∀ ms, j = .obj ms → ∀ y ∈ ms, NoteFull st g y.2 := by
    induction j using J.ind with
    | harr xs ih =>
      refine ⟨?_, by simp⟩
      intro S above own isKey all key c p name v hc hO hK hl hx ha h
      unfold noteChild at h ⊢
      cases S with
      | list info kids =>
        simp only at h ⊢
        generalize hb : all.lookup ('@' :: key) = b at ha
        cases ha with
        | beside h1 h2 => exact absurd rfl ((h2 _ rfl).2 _ _)
        | @entry _ _ _ _ x k' k p _ _ h1 h2 h3 h4 =>
          refine noteElems_gives (pre := []) ho hK hO h2 h3 ?_ h1 hl hx h
          intro c' he
          obtain ⟨e1, e2, e3⟩ := thenN_ok he
          rw [e3]
          rcases annotates_beside h4 (by simp) with ⟨rfl, o, rfl, hv, _⟩ | ⟨ms, rfl, h5⟩
          · exact gives_last (check_gives hb hv)
          · refine gives_first ?_ check_keeps
            simp only [noteElem] at e1 ⊢
            exact members_full (above := above) (own := own) (fun _ => hc) (fun _ _ e k hk => by
                cases e; exact ⟨_, (flatKids_mem hc hk).2.2⟩) ⟨hO.1, hO.2.2⟩ (keyed_entry hK)
              (fun h => hl (.elem h1 h)) (fun h => hx (.elem h1 h)) ((ih _ h1).2 _ rfl) h5 e1
      | _ =>
        simp only at h ⊢
        rcases annotates_beside ha (by simp) with ⟨rfl, o, hb, hv, hne⟩ | ⟨ms, e, _⟩
        · have : xs.isEmpty = false := by cases xs <;> simp at hne ⊢
          rw [this] at h ⊢
          obtain ⟨_, _, h3⟩ := thenN_ok h
          simp only [Bool.false_eq_true, if_false, stdNotes]
          rw [h3]
          exact gives_last (check_gives hb hv)
        · simp at e
    | hobj ms ih =>
      refine ⟨?_, ?_⟩
      · intro S above own isKey all key c p name v hc hO hK hl hx ha h
        unfold noteChild at h ⊢
        obtain ⟨h1, h2, h3⟩ := thenN_ok h
        obtain ⟨_, _, h4⟩ := thenN_ok h1
        rw [h3, h4]
        have hL : ∀ info kids, S = .list info kids → p = [] := by
          rintro info kids rfl
          generalize all.lookup ('@' :: key) = b at ha
          cases ha <;> rfl
        have : (p = [] ∧ ∃ o, all.lookup ('@' :: key) = some (.obj o) ∧ (name, v) ∈ o) ∨ ∀ b', Annotates g.repr S (.obj ms) b' p name v := by
          generalize all.lookup ('@' :: key) = b at ha
          cases ha with
          | inside h1 h2 => exact .inr fun _ => .inside h1 h2
          | beside h1 h2 => exact .inl ⟨rfl, _, rfl, h1⟩
          | field f1 f2 f3 f4 => exact .inr fun _ => .field f1 f2 f3 f4
        rcases this with ⟨rfl, o, hb, hv⟩ | ha
        · exact gives_first (gives_last (check_gives hb hv)) (noteMembers_keeps_nil h2)
        · exact gives_last (members_full (above := above) (own := own) (fun _ => hc) (fun _ _ e k hk => by
                subst e; exact ⟨_, (flatKids_mem hc hk).2.2⟩) hO hK hl hx (fun x hx => (ih x hx).1) ha h2)
      · intro ms' e y hy
        simp only [J.obj.injEq] at e
        subst e
        exact (ih y hy).1
    | _ =>
      refine ⟨?_, by simp⟩
      intro S above own isKey all key c p name v hc hO hK hl hx ha h
      unfold noteChild at h ⊢
      generalize hb : all.lookup ('@' :: key) = b at ha
      cases ha with
      | beside h1 h2 =>
        obtain ⟨_, _, h3⟩ := thenN_ok h
        simp only [stdNotes]
        rw [h3]
        exact gives_last (check_gives hb h1)
  exact main.1

/-! ## Paths that name the same object -/

theorem samePath_refl : ∀ p : Path, samePath p p = true
  | [] => rfl
  | .field _ :: p => by simp [samePath, Step.same, samePath_refl p]
  | .key _ :: p => by simp [samePath, Step.same, samePath_refl p, pyEq_refl]

theorem annotates_same {repr : J → Str} {S : Schema} {j : J} {b : Option J} {q : Path} {name : Str} {v : J} (h : Annotates repr S j b q name v) :
    ∀ {p}, samePath q p = true → Annotates repr S j b p name v := by
  induction h with
  | inside h1 h2 =>
    intro p hp
    cases p with
    | nil => exact .inside h1 h2
    | cons => simp [samePath] at hp
  | beside h1 h2 =>
    intro p hp
    cases p with
    | nil => exact .beside h1 h2
    | cons => simp [samePath] at hp
  | field h1 h2 h3 _ ih =>
    intro p hp
    cases p with
    | nil => simp [samePath] at hp
    | cons s p =>
      simp only [samePath, Bool.and_eq_true] at hp
      cases s with
      | field i =>
        have := hp.1
        simp only [Step.same, beq_iff_eq] at this
        subst this
        exact .field h1 h2 h3 (ih hp.2)
      | key => simp [Step.same] at hp
  | entry h1 h2 h3 _ ih =>
    intro p hp
    cases p with
    | nil => simp [samePath] at hp
    | cons s p =>
      simp only [samePath, Bool.and_eq_true] at hp
      cases s with
      | key k => exact .entry h1 h2 (by rw [pyEq_trans h3]; exact hp.1) (ih hp.2)
      | field => simp [Step.same] at hp


/-! ## Annotations that are no objects -/

theorem check_bad {all : List (Str × J)} {key : Str} {n : Inst} {j : J} (h : all.lookup ('@' :: key) = some j) (hj : ∀ o, j ≠ .obj o) :
    (checkNotes all key n).out.err ≠ none := by
  simp only [checkNotes, jget, h]
  cases j with
  | obj o => exact absurd rfl (hj o)
  | _ => simp [addNotes, fail]

theorem noteMembers_in {wrapped : Bool} {S : Schema} {keys : List Nat} {own : Option Choice} {all : List (Str × J)} {x : Str × J} :
    ∀ {ms : List (Str × J)} {n : Inst}, x ∈ ms → (noteMembers g wrapped S keys own all n ms).out.err = none →
    ∃ n, (if x.1 = ['@'] then addNotes wrapped n x.2
      else if '@' ∈ x.1 then NOut.same n
      else withKidN wrapped S own n (localKey x.1) (ietfUnknown g.skip n x.2) fun i k c =>
        noteChild g k.2 k.1.choice (keys.contains i) all x.1 c x.2).out.err = none := by
  intro ms
  induction ms with
  | nil => intro n hx; simp at hx
  | cons y ms ih =>
    intro n hx h
    rw [noteMembers_cons] at h
    obtain ⟨h1, h2, _⟩ := thenN_ok h
    rcases List.mem_cons.1 hx with rfl | hx
    · exact ⟨n, h1⟩
    · exact ih hx h2

theorem noteElems_in {info : ListInfo} {kids : List (Meta × Schema)} {all : List (Str × J)} {key : Str} {x : J} :
    ∀ {xs : List J} {n : Inst}, x ∈ xs → (noteElems g info kids all key n xs).out.err = none →
    ∃ c, ((noteElem g kids info.keys c x).andThen (checkNotes all key)).out.err = none := by
  intro xs
  induction xs with
  | nil => intro n hx; simp at hx
  | cons y xs ih =>
    intro n hx h
    rw [noteElems_cons] at h
    obtain ⟨h1, h2, _⟩ := thenN_ok h
    rcases List.mem_cons.1 hx with rfl | hx
    · obtain ⟨_, h1, _⟩ := thenN_ok h1
      generalize (if g.over = true then clearNotes n else NOut.same n).out.inst = m at h1
      unfold elemNotes at h1
      cases m with
      | list ch es =>
        simp only at h1
        obtain ⟨_, h1, _⟩ := thenN_ok h1
        revert h1
        unfold withEntryN
        simp only
        cases (ietfEntry g info kids ch es x).1.inst with
        | list ch' es' =>
          simp only
          cases es'.find? (fun q => pyEq q.1 (ietfEntry g info kids ch es x).2) with
          | none => simp [fail]
          | some q => exact fun h2 => ⟨q.2, h2⟩
        | _ => simp [fail]
      | _ => simp [fail] at h1
    · exact ih hx h2

def NoteStrict (g : LoadOpt) (j : J) : Prop := ∀ S own isKey all key c, Orderly S → BadNote S j (all.lookup ('@' :: key)) →
  (noteChild g S own isKey all key c j).out.err ≠ none

theorem members_strict {wrapped : Bool} {S : Schema} {keys : List Nat} {own : Option Choice} {ms : List (Str × J)} {n : Inst} (hO : Orderly S)
    (hok : ∀ x ∈ ms, NoteStrict g x.2) (hb : BadNote S (.obj ms) none ∨ RootNote wrapped ms) :
    (noteMembers g wrapped S keys own ms n ms).out.err ≠ none := by
  intro h
  rcases hb with hb | ⟨rfl, j, h1, h2⟩
  · cases hb with
    | @inside _ _ _ j h1 h2 =>
      obtain ⟨n', h3⟩ := noteMembers_in h1 h
      simp only [if_true] at h3
      cases j with
      | obj o => exact h2 o rfl
      | _ => simp [addNotes, fail] at h3
    | @field pres kids _ _ x i k h1 h2 h3 h4 =>
      obtain ⟨n', h5⟩ := noteMembers_in h1 h
      have hs : x.1 ≠ ['@'] := fun e => h2.1 (by rw [e]; simp)
      simp only [hs, h2.1, if_false] at h5
      rcases kidN_evs (wrapped := wrapped) (pres := pres) (kids := kids) (po := own) (n := n') (key := localKey x.1) (u := ietfUnknown g.skip n' x.2)
            (f := fun i k c => noteChild g k.2 k.1.choice (keys.contains i) ms x.1 c x.2) with ⟨_, e⟩ | ⟨j, k', c, hj, hk', he, _⟩
      · rcases e with e | e
        · rw [isFor_idx hO.1 h2] at e; simp at e
        · exact e h5
      · rw [isFor_idx hO.1 h2] at hj
        obtain rfl := Option.some.inj hj
        rw [h3] at hk'
        obtain rfl := Option.some.inj hk'
        rw [he] at h5
        exact hok x h1 _ _ _ _ _ _ (orderly_kid hO.2 (List.mem_of_getElem? h3)) h4 h5
  · obtain ⟨n', h3⟩ := noteMembers_in h1 h
    simp only [if_true] at h3
    cases j with
    | obj o => cases o <;> simp [addNotes, fail] at h3 h2
    | _ => simp [addNotes, fail] at h3

theorem bad_obj {S : Schema} {ms : List (Str × J)} {b : Option J} (h : BadNote S (.obj ms) b) :
    BadNote S (.obj ms) none ∨ ∃ j, b = some j ∧ ∀ o, j ≠ .obj o := by
  cases h with
  | inside h1 h2 => exact .inl (.inside h1 h2)
  | beside h1 h2 => exact .inr ⟨_, rfl, h1⟩
  | field h1 h2 h3 h4 => exact .inl (.field h1 h2 h3 h4)

theorem child_strict (j : J) : NoteStrict g j := by
  have main : NoteStrict g j ∧ ∀ ms, j = .obj ms → ∀ y ∈ ms, NoteStrict g y.2 := by
    induction j using J.ind with
    | harr xs ih =>
      refine ⟨?_, by simp⟩
      intro S own isKey all key c hO hb h
      unfold noteChild at h
      generalize hl : all.lookup ('@' :: key) = b at hb
      cases S with
      | list info kids =>
        simp only at h
        cases hb with
        | beside h1 h2 =>
          have hne := h2 xs rfl
          obtain ⟨x, xs, rfl⟩ : ∃ x ys, xs = x :: ys := by cases xs with | nil => simp at hne | cons x ys => exact ⟨x, ys, rfl⟩
          obtain ⟨c', h3⟩ := noteElems_in (x := x) (by simp) h
          exact check_bad hl h1 (thenN_ok h3).2.1
        | @entry _ _ _ _ x h1 h2 =>
          obtain ⟨c', h3⟩ := noteElems_in h1 h
          obtain ⟨h4, h5, _⟩ := thenN_ok h3
          cases x with
          | obj ms =>
            rcases bad_obj h2 with h2 | ⟨j, e, h9⟩
            · simp only [noteElem] at h4
              exact members_strict (S := .cont false kids) ⟨hO.1, hO.2.2⟩ ((ih _ h1).2 _ rfl) (.inl h2) h4
            · subst e
              exact check_bad hl h9 h5
          | _ => simp [noteElem, fail] at h4
      | _ =>
        simp only at h
        cases hb with
        | beside h1 h2 =>
          have hne := h2 xs rfl
          have : xs.isEmpty = false := by cases xs <;> simp at hne ⊢
          rw [this] at h
          exact check_bad hl h1 (thenN_ok h).2.1
    | hobj ms ih =>
      refine ⟨?_, ?_⟩
      · intro S own isKey all key c hO hb h
        unfold noteChild at h
        obtain ⟨h1, h2, _⟩ := thenN_ok h
        obtain ⟨_, h3, _⟩ := thenN_ok h1
        rcases bad_obj hb with hb | ⟨j, e, hb⟩
        · exact members_strict hO (fun x hx => (ih x hx).1) (.inl hb) h2
        · exact check_bad e hb h3
      · intro ms' e y hy
        simp only [J.obj.injEq] at e
        subst e
        exact (ih y hy).1
    | _ =>
      refine ⟨?_, by simp⟩
      intro S own isKey all key c hO hb h
      unfold noteChild at h
      generalize hl : all.lookup ('@' :: key) = b at hb
      cases hb with
      | beside h1 h2 => exact check_bad hl h1 (thenN_ok h).2.1
  exact main.1

end
end Pyb
