import Verif.Spec.Notes
import Verif.Lemmas.LoadedCheck

namespace Pyb
open Py Spec

variable {st : Bool}

/-! ## Leaving out the annotations -/

theorem unnotedMembers_cons (kids : List (Meta × Schema)) (m : Str × J) (ms : List (Str × J)) :
    unnotedMembers kids (m :: ms) =
      if '@' ∈ m.1 then unnotedMembers kids ms
      else match memberOf kids m.1 with
        | some k => (m.1, unnoted k.2 m.2) :: unnotedMembers kids ms
        | none => m :: unnotedMembers kids ms := by
  rw [unnotedMembers]
  cases memberOf kids m.1 <;> rfl

theorem jget_bare {kids : List (Meta × Schema)} (hn : GoodNames kids) {i : Nat} {m : Meta} {L : LeafCls}
    (hk : kids[i]? = some (m, .leaf L)) (ms : List (Str × J)) : jget (unnotedMembers kids ms) m.name = jget ms m.name := by
  have hg := hn.1 _ (List.mem_of_getElem? hk)
  have hm : memberOf kids m.name = some (m, .leaf L) := by
    rcases kidIdx_memberOf kids m.name with ⟨h1, _⟩ | ⟨i', k, h1, h2, h3⟩
    · rw [localKey_plain hg.1, kidIdx_self hn.2 hk] at h1; simp at h1
    · rw [localKey_plain hg.1, kidIdx_self hn.2 hk] at h1
      simp only [Option.some.injEq] at h1; subst h1
      rw [h3, ← h2, hk]
  unfold jget
  induction ms with
  | nil => simp [unnotedMembers]
  | cons x ms ih =>
    obtain ⟨a, j⟩ := x
    rw [unnotedMembers_cons]
    by_cases ha : a = m.name
    · subst ha
      rw [if_neg hg.2.1, hm]
      simp [unnoted]
    · have hb : (m.name == a) = false := by simpa using fun e : m.name = a => ha e.symm
      split
      · simp only [List.lookup_cons, hb]; exact ih
      · split
        · simp only [List.lookup_cons, hb]; exact ih
        · simp only [List.lookup_cons, hb]; exact ih

theorem elemKeys_bare {info : ListInfo} {kids : List (Meta × Schema)} (hn : GoodNames kids)
    (hk : ∀ i ∈ info.keys, ∃ m L, kids[i]? = some (m, .leaf L)) (ms : List (Str × J)) :
    elemKeys (keyNames info kids) (unnotedMembers kids ms) = elemKeys (keyNames info kids) ms := by
  unfold elemKeys keyNames
  generalize info.keys = l at hk
  induction l with
  | nil => rfl
  | cons i is ih =>
    obtain ⟨m, L, h⟩ := hk i (by simp)
    simp only [List.map_cons, h, List.mapM_cons, jget_bare hn h]
    rw [ih fun j hj => hk j (by simp [hj])]

theorem unnoted_obj (pres : Bool) (kids : List (Meta × Schema)) (ms : List (Str × J)) :
    unnoted (.cont pres kids) (.obj ms) = .obj (unnotedMembers kids ms) := by rw [unnoted]

theorem unnoted_other (pres : Bool) (kids : List (Meta × Schema)) (j : J) (h : ∀ ms, j ≠ .obj ms) : unnoted (.cont pres kids) j = j := by
  cases j with
  | obj ms => exact absurd rfl (h ms)
  | _ => simp [unnoted]

theorem ietfEntry_bare {g : LoadOpt} {info : ListInfo} {kids : List (Meta × Schema)} (hn : GoodNames kids)
    (hk : ∀ i ∈ info.keys, ∃ m L, kids[i]? = some (m, .leaf L)) (ch : Bool) (es : Members Inst) (x : J) :
    ietfEntry g info kids ch es (unnoted (.cont false kids) x) = ietfEntry g info kids ch es x := by
  by_cases h : ∃ ms, x = .obj ms
  · obtain ⟨ms, rfl⟩ := h
    rw [unnoted_obj]
    unfold ietfEntry
    cases info.keys with
    | nil => rfl
    | cons i is => simp only [elemKeys_bare hn hk]
  · rw [unnoted_other _ _ _ fun ms e => h ⟨ms, e⟩]

def UnnotedOk (g : LoadOpt) (j : J) : Prop := ∀ S, Orderly S → ∀ own isKey c,
  ietfChild g S own isKey c (unnoted S j) = ietfChild g S own isKey c j

theorem members_bare {g : LoadOpt} {wrapped pres : Bool} {kids : List (Meta × Schema)} {keys : List Nat} {own : Option Choice}
    {ms : List (Str × J)} (ih : ∀ x ∈ ms, UnnotedOk g x.2) (hS : OrderlyKids kids) :
    ∀ n, ietfMembers g wrapped (.cont pres kids) keys own n (unnotedMembers kids ms) =
      ietfMembers g wrapped (.cont pres kids) keys own n ms := by
  induction ms with
  | nil => intro n; rw [unnotedMembers]
  | cons x ms ihm =>
    have next := ihm fun y hy => ih y (by simp [hy])
    intro n
    rw [unnotedMembers_cons, members_cons]
    by_cases hx : '@' ∈ x.1
    · rw [if_pos hx, if_pos hx, same_then, next]
    · rw [if_neg hx, if_neg hx]
      rcases kidIdx_memberOf kids x.1 with ⟨h1, h2⟩ | ⟨i, k, h1, h2, h3⟩
      · simp only [h2]
        rw [members_cons, if_neg hx]
        simp only [withKid, h1, next]
      · have hc : ∀ own isKey c, ietfChild g k.2 own isKey c (unnoted k.2 x.2) = ietfChild g k.2 own isKey c x.2 :=
          ih x (by simp) k.2 (orderly_kid hS (memberOf_mem h3))
        simp only [h3]
        rw [members_cons, if_neg hx]
        simp only [withKid, h1, h2]
        cases n with
        | cont ch pr ns =>
          simp only
          cases ns[i]? with
          | none => simp only [next]
          | some c => simp only [hc, next]
        | _ => simp only [next]

theorem elem_bare {g : LoadOpt} {kids : List (Meta × Schema)} {keys : List Nat} {x : J}
    (ih : ∀ ms, x = .obj ms → ∀ y ∈ ms, UnnotedOk g y.2) (hS : OrderlyKids kids) (c : Inst) :
    ietfElem g kids keys c (unnoted (.cont false kids) x) = ietfElem g kids keys c x := by
  by_cases h : ∃ ms, x = .obj ms
  · obtain ⟨ms, rfl⟩ := h
    rw [unnoted_obj]
    unfold ietfElem
    exact members_bare (ih ms rfl) hS c
  · rw [unnoted_other _ _ _ fun ms e => h ⟨ms, e⟩]

theorem elems_bare {g : LoadOpt} {info : ListInfo} {kids : List (Meta × Schema)} {xs : List J}
    (ih : ∀ x ∈ xs, ∀ ms, x = .obj ms → ∀ y ∈ ms, UnnotedOk g y.2) (hS : Orderly (.list info kids)) :
    ∀ n, ietfElems g info kids n (unnotedElems kids xs) = ietfElems g info kids n xs := by
  rw [Orderly] at hS
  induction xs with
  | nil => intro n; rw [unnotedElems]
  | cons x xs ihx =>
    have next := ihx fun y hy => ih y (by simp [hy])
    intro n
    rw [unnotedElems]
    conv => lhs; unfold ietfElems
    conv => rhs; unfold ietfElems
    simp only [next, ietfEntry_bare hS.1 hS.2.1, elem_bare (ih x (by simp)) hS.2.2]

theorem child_bare {g : LoadOpt} (j : J) : UnnotedOk g j := by
  have main : UnnotedOk g j ∧ ∀ ms, j = .obj ms → ∀ y ∈ ms, UnnotedOk g y.2 := by
    induction j using J.ind with
    | harr xs ih =>
      refine ⟨?_, by simp⟩
      intro S hS own isKey c
      cases S with
      | list info kids =>
        rw [unnoted]
        unfold ietfChild
        exact elems_bare (fun x hx => (ih x hx).2) hS c
      | _ => simp [unnoted]
    | hobj ms ih =>
      refine ⟨?_, ?_⟩
      · intro S hS own isKey c
        cases S with
        | cont pres kids =>
          rw [unnoted_obj]
          unfold ietfChild
          congr 1
          funext n
          rw [Orderly] at hS
          exact members_bare (fun x hx => (ih x hx).1) hS.2 n
        | _ => simp [unnoted]
      · intro ms' e y hy
        simp only [J.obj.injEq] at e
        subst e
        exact (ih y hy).1
    | _ =>
      refine ⟨?_, by simp⟩
      intro S hS own isKey c
      cases S <;> simp [unnoted]
  exact main.1

/-! ## The data -/

/-- The data are as without annotations, unless one of them cannot be read. -/
def Agrees (o : NOut) (i : Out) (B : Prop) : Prop := o.out = i ∨ (o.out.err = some .attributeError ∧ B)

theorem agrees_then {o : NOut} {i : Out} {B : Prop} {f : Inst → NOut} {h : Inst → Out} (h1 : Agrees o i B)
    (h2 : ∀ n, Agrees (f n) (h n) B) : Agrees (o.andThen f) (i.andThen h) B := by
  unfold NOut.andThen
  rcases h1 with h1 | ⟨h1, hB⟩
  · subst h1
    cases he : o.out.err with
    | some e => exact .inl (by simp [Out.andThen, he])
    | none =>
      simp only
      rcases h2 o.out.inst with h2 | ⟨h2, hB⟩
      · exact .inl (by simp [Out.andThen, he, h2])
      · exact .inr ⟨by simp [Out.andThen, he, h2], hB⟩
  · simp only [h1]
    exact .inr ⟨h1, hB⟩

theorem agrees_mono {o : NOut} {i : Out} {B C : Prop} (h : Agrees o i B) (hBC : B → C) : Agrees o i C := by
  rcases h with h | ⟨h, hB⟩
  · exact .inl h
  · exact .inr ⟨h, hBC hB⟩

theorem agrees_kid {wrapped : Bool} {S : Schema} {own : Option Choice} {n : Inst} {name : Str} {u : Out}
    {f : Nat → Meta × Schema → Inst → NOut} {h : Nat → Meta × Schema → Inst → Out} {B : Prop}
    (h1 : ∀ pres kids i k c, S = .cont pres kids → kidIdx kids name = some i → kids[i]? = some k → Agrees (f i k c) (h i k c) B) :
    Agrees (withKidN wrapped S own n name u f) (withKid wrapped S own n name u h) B := by
  unfold withKidN withKid
  cases S with
  | cont pres kids =>
    simp only
    cases hi : kidIdx kids name with
    | none => exact .inl rfl
    | some i =>
      simp only
      cases hk : kids[i]? with
      | none => exact .inl rfl
      | some k =>
        cases n with
        | cont ch pr ns =>
          simp only
          cases ns[i]? with
          | none => exact .inl rfl
          | some c =>
            simp only
            rcases h1 pres kids i k c rfl hi hk with h1 | ⟨h1, hB⟩
            · exact .inl (by rw [h1])
            · exact .inr ⟨by simp only [holdPut_err]; exact h1, hB⟩
        | _ => exact .inl rfl
  | _ => exact .inl rfl

theorem agrees_entry {n : Inst} {k : PyVal} {f : Inst → NOut} {h : Inst → Out} {B : Prop} (h1 : ∀ c, Agrees (f c) (h c) B) :
    Agrees (withEntryN n k f) (withEntry n k h) B := by
  unfold withEntryN withEntry
  cases n with
  | list ch es =>
    simp only
    cases es.find? (fun q => pyEq q.1 k) with
    | none => exact .inl rfl
    | some q =>
      simp only
      rcases h1 q.2 with h1 | ⟨h1, hB⟩
      · exact .inl (by rw [h1])
      · exact .inr ⟨h1, hB⟩
  | _ => exact .inl rfl

theorem agrees_check {all : List (Str × J)} {key : Str} {n : Inst} :
    Agrees (checkNotes all key n) (Out.same n) (∃ j, all.lookup ('@' :: key) = some j ∧ ∀ o, j ≠ .obj o) := by
  unfold checkNotes jget
  cases h : all.lookup ('@' :: key) with
  | none => exact .inl rfl
  | some j =>
    cases j with
    | obj ms => exact .inl rfl
    | _ => exact .inr ⟨rfl, _, rfl, by simp⟩

theorem andThen_same (o : Out) : o.andThen Out.same = o := by
  unfold Out.andThen
  split
  · rfl
  · obtain ⟨i, s, e⟩ := o
    simp only at *
    simp [Out.same, *]

theorem agrees_std {g : LoadOpt} {S : Schema} {own : Option Choice} {isKey : Bool} {all : List (Str × J)} {key : Str} {c : Inst} {j : J}
    (hj : ∀ xs, j = .arr xs → xs ≠ []) :
    Agrees (stdNotes g S own isKey all key c j) (ietfStd g S own isKey c j) (BadNote S j (all.lookup ('@' :: key))) := by
  have := agrees_then (o := ⟨ietfStd g S own isKey c j, if (ietfStd g S own isKey c j).err.isNone && !(ietfStd g S own isKey c j).sigs.isEmpty then [.gone []] else []⟩)
    (i := ietfStd g S own isKey c j) (.inl rfl) fun n => agrees_check (all := all) (key := key) (n := n)
  rw [andThen_same] at this
  refine agrees_mono this ?_
  rintro ⟨o, h1, h2⟩
  rw [h1]
  exact .beside h2 hj

section
variable {g : LoadOpt}

def NoteOk (g : LoadOpt) (j : J) : Prop := ∀ S own isKey all key c,
  Agrees (noteChild g S own isKey all key c j) (ietfChild g S own isKey c j) (BadNote S j (all.lookup ('@' :: key)))

theorem noteMembers_cons {wrapped : Bool} {S : Schema} {keys : List Nat} {own : Option Choice} {all : List (Str × J)} {n : Inst}
    {m : Str × J} {ms : List (Str × J)} : noteMembers g wrapped S keys own all n (m :: ms) =
    (if m.1 = ['@'] then addNotes wrapped n m.2
      else if '@' ∈ m.1 then NOut.same n
      else withKidN wrapped S own n (localKey m.1) (ietfUnknown g.skip n m.2) fun i k c =>
        noteChild g k.2 k.1.choice (keys.contains i) all m.1 c m.2).andThen fun n => noteMembers g wrapped S keys own all n ms := by
  conv => lhs; unfold noteMembers

theorem noteMembers_nil {wrapped : Bool} {S : Schema} {keys : List Nat} {own : Option Choice} {all : List (Str × J)} {n : Inst} :
    noteMembers g wrapped S keys own all n [] = NOut.same n := by
  unfold noteMembers; rfl

/-- The object `loads` makes is annotated. -/
def RootNote (wrapped : Bool) (all : List (Str × J)) : Prop := wrapped = false ∧ ∃ j, (['@'], j) ∈ all ∧ j ≠ .obj []

theorem members_agree {wrapped : Bool} {S : Schema} {keys : List Nat} {own : Option Choice} {all : List (Str × J)} {beside : Option J} :
    ∀ {ms : List (Str × J)}, (∀ x ∈ ms, x ∈ all) → (∀ x ∈ ms, NoteOk g x.2) → ∀ n,
    Agrees (noteMembers g wrapped S keys own all n ms) (ietfMembers g wrapped S keys own n ms)
      (BadNote S (.obj all) beside ∨ RootNote wrapped all) := by
  intro ms
  induction ms with
  | nil =>
    intro _ _ n
    rw [noteMembers_nil, members_nil']
    exact .inl rfl
  | cons x ms ih =>
    intro hsub hok n
    rw [noteMembers_cons, members_cons]
    refine agrees_then ?_ fun n => ih (fun y hy => hsub y (by simp [hy])) (fun y hy => hok y (by simp [hy])) n
    by_cases hs : x.1 = ['@']
    · rw [if_pos hs, if_pos (by rw [hs]; simp)]
      have hx : (['@'], x.2) ∈ all := by rw [← hs]; exact hsub x (by simp)
      cases hj : x.2 with
      | obj o =>
        simp only [addNotes]
        by_cases hw : (wrapped || o.isEmpty) = true
        · rw [if_pos hw]; exact .inl rfl
        · rw [if_neg hw]
          simp only [Bool.or_eq_true, not_or, Bool.not_eq_true] at hw
          refine .inr ⟨rfl, .inr ⟨hw.1, _, hx, ?_⟩⟩
          rw [hj]
          rintro e
          simp only [J.obj.injEq] at e
          rw [e] at hw
          simp at hw
      | _ => exact .inr ⟨rfl, .inl (.inside hx (by rw [hj]; simp))⟩
    · rw [if_neg hs]
      by_cases hat : '@' ∈ x.1
      · rw [if_pos hat, if_pos hat]; exact .inl rfl
      · rw [if_neg hat, if_neg hat]
        refine agrees_kid fun pres kids i k c hS hi hk => ?_
        subst hS
        exact agrees_mono (hok x (by simp) k.2 _ _ all x.1 c) fun h => .inl (.field (hsub x (by simp)) (isFor_of_idx hat hi) hk h)

/-- What one element does to a list. -/
def elemNotes (g : LoadOpt) (info : ListInfo) (kids : List (Meta × Schema)) (all : List (Str × J)) (key : Str) (x : J) (n : Inst) : NOut :=
  match n with
  | .list ch es =>
    let e := ietfEntry g info kids ch es x
    NOut.andThen ⟨e.1, []⟩ fun n => withEntryN n e.2 fun c => (noteElem g kids info.keys c x).andThen (checkNotes all key)
  | n => ⟨fail n .attributeError, []⟩

theorem noteElems_cons {info : ListInfo} {kids : List (Meta × Schema)} {all : List (Str × J)} {key : Str} {n : Inst} {x : J} {xs : List J} :
    noteElems g info kids all key n (x :: xs) =
    (((if g.over then clearNotes n else NOut.same n).andThen (elemNotes g info kids all key x)).andThen fun n =>
      noteElems g info kids all key n xs) := by
  conv => lhs; unfold noteElems
  rfl

theorem noteElems_nil {info : ListInfo} {kids : List (Meta × Schema)} {all : List (Str × J)} {key : Str} {n : Inst} :
    noteElems g info kids all key n [] = NOut.same n := by
  unfold noteElems; rfl

theorem elems_agree {info : ListInfo} {kids : List (Meta × Schema)} {all : List (Str × J)} {key : Str} :
    ∀ {xs : List J}, (∀ x ∈ xs, ∀ ms, x = .obj ms → ∀ y ∈ ms, NoteOk g y.2) → ∀ n,
    Agrees (noteElems g info kids all key n xs) (ietfElems g info kids n xs)
      (BadNote (.list info kids) (.arr xs) (all.lookup ('@' :: key))) := by
  intro xs
  induction xs with
  | nil =>
    intro _ n
    rw [noteElems_nil, iElems_nil]
    exact .inl rfl
  | cons x xs ih =>
    intro hok n
    rw [noteElems_cons, iElems_cons]
    refine agrees_then (agrees_then ?_ fun n => ?_) fun n => ?_
    · split <;> exact .inl rfl
    · unfold elemNotes elemStep
      cases n with
      | list ch es =>
        simp only
        refine agrees_then (.inl rfl) fun n => agrees_entry fun c => ?_
        have h1 : Agrees (noteElem g kids info.keys c x) (ietfElem g kids info.keys c x) (BadNote (.list info kids) (.arr (x :: xs)) (all.lookup ('@' :: key))) := by
          cases x with
          | obj ms =>
            simp only [noteElem, ietfElem]
            refine agrees_mono (members_agree (beside := all.lookup ('@' :: key)) (fun _ h => h) (hok _ (by simp) ms rfl) c) ?_
            rintro (h | h)
            · exact .entry (by simp) h
            · simp [RootNote] at h
          | _ => exact .inl (by simp [noteElem, ietfElem])
        have := agrees_then h1 fun n => agrees_mono (agrees_check (all := all) (key := key) (n := n)) (by
          rintro ⟨o, h1, h2⟩
          rw [h1]
          exact BadNote.beside (S := .list info kids) h2 (by rintro _ ⟨rfl⟩; simp))
        rw [andThen_same] at this
        exact this
      | _ => exact .inl rfl
    · refine agrees_mono (ih (fun y hy => hok y (by simp [hy])) n) fun h => ?_
      generalize all.lookup ('@' :: key) = b at h ⊢
      cases h with
      | beside h1 h2 => exact .beside h1 (by rintro _ ⟨rfl⟩; simp)
      | entry h1 h2 => exact .entry (by simp [h1]) h2

theorem child_agree (j : J) : NoteOk g j := by
  have main : NoteOk g j ∧ ∀ ms, j = .obj ms → ∀ y ∈ ms, NoteOk g y.2 := by
    induction j using J.ind with
    | harr xs ih =>
      refine ⟨?_, by simp⟩
      intro S own isKey all key c
      cases S with
      | list info kids =>
        unfold noteChild ietfChild
        exact elems_agree (fun x hx => (ih x hx).2) c
      | _ =>
        unfold noteChild ietfChild
        simp only
        split
        · exact .inl rfl
        · rename_i h
          exact agrees_std (by rintro _ ⟨rfl⟩ rfl; simp at h)
    | hobj ms ih =>
      refine ⟨?_, ?_⟩
      · intro S own isKey all key c
        unfold noteChild ietfChild
        have h1 : Agrees (NOut.andThen ⟨markPresent S own c, []⟩ (checkNotes all key)) ((markPresent S own c).andThen Out.same)
            (BadNote S (.obj ms) (all.lookup ('@' :: key))) :=
          agrees_then (.inl rfl) fun n => agrees_mono (agrees_check (all := all) (key := key) (n := n)) (by
            rintro ⟨o, h1, h2⟩
            rw [h1]
            exact .beside h2 (by simp))
        rw [andThen_same] at h1
        refine agrees_then h1 fun n => agrees_mono (members_agree (beside := all.lookup ('@' :: key)) (fun _ h => h) (fun x hx => (ih x hx).1) n) ?_
        rintro (h | h)
        · exact h
        · simp [RootNote] at h
      · intro ms' e y hy
        simp only [J.obj.injEq] at e
        subst e
        exact (ih y hy).1
    | _ =>
      refine ⟨?_, by simp⟩
      intro S own isKey all key c
      unfold noteChild ietfChild
      exact agrees_std (by simp)
  exact main.1

end
end Pyb
