import Verif.Lemmas.NotesKeep
import Verif.Props.Loaded

/-! # Metadata annotations (C88) -/

namespace Pyb
open Py Spec

/-- C88: annotations do not change the data a document is loaded as. -/
theorem C88_data (g : LoadOpt) (kids : List (Meta × Schema)) (hO : Orderly (rootCls kids)) (ns : List Inst) (doc : J)
    (hb : ¬ BadNote (rootCls kids) doc none) (hr : ¬ RootNoted doc) :
    (noteLoad g kids ns doc).1 = ietfLoad g kids ns (unnoted (rootCls kids) doc) := by
  cases doc with
  | obj ms =>
    have h1 := members_bare (g := g) (wrapped := false) (pres := false) (keys := []) (own := none) (ms := ms)
      (fun x _ => child_bare x.2) hO.2 (.cont false false ns)
    rcases members_agree (g := g) (wrapped := false) (S := .cont false kids) (keys := []) (own := none) (all := ms) (beside := none) (fun _ h => h)
      (fun x _ => child_agree x.2) (.cont false false ns) with h | ⟨_, h | ⟨_, j, h2, h3⟩⟩
    · simp only [rootCls, unnoted_obj, noteLoad, ietfLoad, h]
      rw [show ietfMembers g false (.cont false kids) [] none (.cont false false ns) ms = _ from h1.symm]
    · exact absurd h hb
    · exact absurd ⟨ms, j, rfl, h2, h3⟩ hr
  | _ => rfl

/-- C88: it does raise an exception if an annotation is no object, or the top-level object
is annotated. -/
theorem C88_bad (g : LoadOpt) (kids : List (Meta × Schema)) (hO : Orderly (rootCls kids)) (ns : List Inst) (doc : J)
    (h : BadNote (rootCls kids) doc none ∨ RootNoted doc) : (noteLoad g kids ns doc).1.2 ≠ none := by
  cases doc with
  | obj ms =>
    simp only [noteLoad]
    refine members_strict hO (fun x _ => child_strict x.2) ?_
    rcases h with h | ⟨ms', j, e, h1, h2⟩
    · exact .inl h
    · cases e
      exact .inr ⟨rfl, j, h1, h2⟩
  | _ => simp [noteLoad]

/-- C88: if a document is loaded without an exception (and without `overwrite`), every
object it annotates has the annotation, with a value the document gives for it.

Missing: lists without key, documents that contradict themselves, see C77; annotations of
leaf-lists, of the entries of leaf-lists and of the top-level object (refuted below). -/
theorem C88_attached_partial (g : LoadOpt) (hov : g.over = false) (kids : List (Meta × Schema)) (hf : ApartRoot kids)
    (hO : Orderly (rootCls kids)) (hK : Keyed (rootCls kids)) (ns : List Inst) (doc : J)
    (hl : ¬ Loose g.repr (rootCls kids) doc) (hc : ¬ Contradicts g.repr (rootCls kids) doc) (h : (noteLoad g kids ns doc).1.2 = none)
    (p : Path) (name : Str) (v : J) (hv : Annotates g.repr (rootCls kids) doc none p name v) (old : Option J) :
    ∃ w, noteAt p name old (noteLoad g kids ns doc).2 = some w ∧
      (old = some w ∨ Annotates g.repr (rootCls kids) doc none p name w) := by
  cases doc with
  | obj ms =>
    simp only [noteLoad] at h ⊢
    have ha : ∀ b, Annotates g.repr (rootCls kids) (.obj ms) b p name v := by
      intro b
      cases hv with
      | inside h1 h2 => exact .inside h1 h2
      | field h1 h2 h3 h4 => exact .field h1 h2 h3 h4
    have hg := members_full (st := false) (wrapped := false) (S := rootCls kids) (keys := []) (above := []) (own := none) (po := none)
      (n := .cont false false ns) (by simp) (fun _ _ e k hk => by cases e; exact ⟨_, hf k hk⟩) hO hK hl hc (fun x _ => child_full hov x.2) ha h old
    obtain ⟨w, hw⟩ := Option.isSome_iff_exists.1 hg
    refine ⟨w, hw, ?_⟩
    rcases noteAt_from hw with h1 | ⟨q, h1, h2⟩
    · exact .inl h1
    · exact .inr (annotates_same (members_sound (S := rootCls kids) hO hK hl (fun _ h => h) (fun x _ => child_sound x.2) _ h2) h1)
  | _ => simp [noteLoad] at h

/-- C88: so an annotation the document gives one value for has that value. -/
theorem C88_value_partial (g : LoadOpt) (hov : g.over = false) (kids : List (Meta × Schema)) (hf : ApartRoot kids)
    (hO : Orderly (rootCls kids)) (hK : Keyed (rootCls kids)) (ns : List Inst) (doc : J)
    (hl : ¬ Loose g.repr (rootCls kids) doc) (hc : ¬ Contradicts g.repr (rootCls kids) doc) (h : (noteLoad g kids ns doc).1.2 = none)
    (p : Path) (name : Str) (v : J) (hv : Annotates g.repr (rootCls kids) doc none p name v)
    (h1 : ∀ w, Annotates g.repr (rootCls kids) doc none p name w → w = v) (old : Option J) :
    noteAt p name old (noteLoad g kids ns doc).2 = some v := by
  have key : ∀ old', noteAt p name old' (noteLoad g kids ns doc).2 = some v ∨ old' ≠ none := by
    intro old'
    obtain ⟨w, h2, h3⟩ := C88_attached_partial g hov kids hf hO hK ns doc hl hc h p name v hv old'
    rcases h3 with h3 | h3
    · exact .inr (by simp [h3])
    · rw [h1 w h3] at h2
      exact .inl h2
  have h0 : noteAt p name none (noteLoad g kids ns doc).2 = some v := by
    rcases key none with h | h
    · exact h
    · exact absurd rfl h
  have over : ∀ (es : List NoteEv) (a b : Option J), noteAt p name a es = noteAt p name b es ∨
      (noteAt p name a es = a ∧ noteAt p name b es = b) := by
    intro es
    induction es with
    | nil => intro a b; exact .inr ⟨rfl, rfl⟩
    | cons e es ih =>
      intro a b
      cases e with
      | note q n v =>
        simp only [noteAt]
        split
        · exact .inl rfl
        · exact ih a b
      | gone q =>
        simp only [noteAt]
        split
        · exact .inl rfl
        · exact ih a b
  rcases over (noteLoad g kids ns doc).2 old none with h2 | ⟨_, h2⟩
  · rw [h2, h0]
  · rw [h0] at h2
    simp at h2

/-- C88: an object has no annotation that neither the document gives nor it had before, also
if there is an exception. -/
theorem C88_only (g : LoadOpt) (kids : List (Meta × Schema)) (hO : Orderly (rootCls kids)) (hK : Keyed (rootCls kids)) (ns : List Inst) (doc : J)
    (hl : ¬ Loose g.repr (rootCls kids) doc) (p : Path) (name : Str) (old : Option J) (w : J)
    (hw : noteAt p name old (noteLoad g kids ns doc).2 = some w) :
    old = some w ∨ Annotates g.repr (rootCls kids) doc none p name w := by
  cases doc with
  | obj ms =>
    rcases noteAt_from hw with h1 | ⟨q, h1, h2⟩
    · exact .inl h1
    · exact .inr (annotates_same (members_sound (S := rootCls kids) hO hK hl (fun _ h => h) (fun x _ => child_sound x.2) _ h2) h1)
  | _ => exact .inl hw

/-- C88: what the document does not concern keeps its annotations. -/
theorem C88_rest_partial (g : LoadOpt) (hov : g.over = false) (kids : List (Meta × Schema)) (hf : ApartRoot kids)
    (hO : Orderly (rootCls kids)) (hK : Keyed (rootCls kids)) (ns : List Inst) (doc : J) (hl : ¬ Loose g.repr (rootCls kids) doc)
    (h : (noteLoad g kids ns doc).1.2 = none) (p : Path) (T : Schema) (hT : clsAt kids p = some T)
    (hc : ¬ Concerns g.repr (rootCls kids) doc p) (name : Str) (old : Option J) : noteAt p name old (noteLoad g kids ns doc).2 = old := by
  cases doc with
  | obj ms =>
    simp only [noteLoad] at h ⊢
    exact members_spares (st := false) (wrapped := false) (S := rootCls kids) (keys := []) (above := []) (own := none) (po := none)
      (n := .cont false false ns) (by simp) (fun _ _ e k hk => by cases e; exact ⟨_, hf k hk⟩) hO hK hT hl hc (by simp [rootCls])
      (fun x _ => child_spares hov x.2) h old
  | _ => rfl

/-! ## The example -/

/-- Annotations of a leaf, of a container and of an entry. -/
def notedDoc : J :=
  .obj [(py!"m:c", .obj
    [(py!"@b", .obj [(py!"m:why", .str py!"x")]), (py!"b", .bool true), (py!"i", .str py!"n:red"),
     (py!"p", .obj [(py!"@", .obj [(py!"m:why", .str py!"y"), (py!"m:since", .num 3)]), (py!"y", .num 4)]),
     (py!"l", .arr [.obj [(py!"k", .str py!"y"), (py!"z", .num 7)],
       .obj [(py!"@", .obj [(py!"m:why", .str py!"w")]), (py!"z", .num 9), (py!"@z", .obj [(py!"m:why", .null)]), (py!"k", .str py!"w")]]),
     (py!"v", .arr [.str py!"5", .str py!"6"])])]

example : unnoted (rootCls jsonKids) notedDoc = newDoc := rfl
example : (noteLoad demoLoad jsonKids oldTree notedDoc).1 = ietfLoad demoLoad jsonKids oldTree newDoc := rfl

theorem noted_tidy : ¬ Loose demoLoad.repr (rootCls jsonKids) notedDoc ∧ ¬ Contradicts demoLoad.repr (rootCls jsonKids) notedDoc :=
  tidy_ok json_orderly (by decide)

theorem noteField {repr : J → Str} {pres : Bool} {kids : List (Meta × Schema)} {ms : List (Str × J)} {b : Option J} {p : Path} {n : Str} {v : J} (a i : Nat)
    {x : Str × J} {k : Meta × Schema} (hx : ms[a]? = some x) (hk : kids[i]? = some k) (hat : '@' ∉ x.1)
    (hn : safeName k.1.name = safeName (Spec.localName x.1)) (h : Annotates repr k.2 x.2 (ms.lookup ('@' :: x.1)) p n v) :
    Annotates repr (.cont pres kids) (.obj ms) b (.field i :: p) n v :=
  .field (List.mem_of_getElem? hx) ⟨hat, k, hk, hn⟩ hk h

/-- The annotations of the leaf `b`, the container `p` and of `z` in the entry `w`. -/
theorem noted_b : Annotates demoLoad.repr (rootCls jsonKids) notedDoc none [.field 0, .field 1] py!"m:why" (.str py!"x") :=
  noteField 0 0 rfl rfl (by decide) (by decide) (noteField 1 1 rfl rfl (by decide) (by decide) (.beside (o := [(py!"m:why", .str py!"x")]) (by simp) (by simp)))

theorem noted_p : Annotates demoLoad.repr (rootCls jsonKids) notedDoc none [.field 0, .field 4] py!"m:since" (.num 3) :=
  noteField 0 0 rfl rfl (by decide) (by decide) (noteField 3 4 rfl rfl (by decide) (by decide)
    (.inside (o := [(py!"m:why", .str py!"y"), (py!"m:since", .num 3)]) (by simp) (by simp)))

theorem noted_z : Annotates demoLoad.repr (rootCls jsonKids) notedDoc none [.field 0, .field 5, .key (.str py!"w"), .field 1] py!"m:why" .null :=
  noteField 0 0 rfl rfl (by decide) (by decide) (noteField 4 5 rfl rfl (by decide) (by decide)
    (.entry (x := .obj [(py!"@", .obj [(py!"m:why", .str py!"w")]), (py!"z", .num 9), (py!"@z", .obj [(py!"m:why", .null)]), (py!"k", .str py!"w")])
      (by simp) rfl (by decide) (noteField 1 1 rfl rfl (by decide) (by decide) (.beside (o := [(py!"m:why", .null)]) (by simp) (by simp)))))

example : (noteLoad demoLoad jsonKids oldTree notedDoc).1.2 = none ∧
    noteAt [.field 0, .field 1] py!"m:why" none (noteLoad demoLoad jsonKids oldTree notedDoc).2 = some (.str py!"x") ∧
    noteAt [.field 0, .field 4] py!"m:since" none (noteLoad demoLoad jsonKids oldTree notedDoc).2 = some (.num 3) ∧
    noteAt [.field 0, .field 5, .key (.str py!"w")] py!"m:why" none (noteLoad demoLoad jsonKids oldTree notedDoc).2 = some (.str py!"w") ∧
    noteAt [.field 0, .field 5, .key (.str py!"w"), .field 1] py!"m:why" none (noteLoad demoLoad jsonKids oldTree notedDoc).2 = some .null :=
  ⟨rfl, rfl, rfl, rfl, rfl⟩

example : ∃ w, noteAt [.field 0, .field 5, .key (.str py!"w"), .field 1] py!"m:why" none (noteLoad demoLoad jsonKids oldTree notedDoc).2 = some w :=
  let ⟨w, h, _⟩ := C88_attached_partial demoLoad rfl jsonKids json_flat.apart json_orderly json_keyed oldTree notedDoc noted_tidy.1 noted_tidy.2 rfl _ _ _ noted_z none
  ⟨w, h⟩

/-- `x` is another entry. -/
example : noteAt [.field 0, .field 5, .key (.str py!"x"), .field 1] py!"m:why" (some (.num 1)) (noteLoad demoLoad jsonKids oldTree notedDoc).2 = some (.num 1) :=
  C88_rest_partial demoLoad rfl jsonKids json_flat.apart json_orderly json_keyed oldTree notedDoc noted_tidy.1 rfl _ _ rfl
    (spares_of json_orderly (by decide)) _ _

/-- An annotation that is no object. -/
example : BadNote (rootCls jsonKids) (.obj [(py!"m:c", .obj [(py!"b", .bool true), (py!"@b", .num 1)])]) none :=
  .field (i := 0) (List.mem_of_getElem? (i := 0) rfl) ⟨by decide, _, rfl, by decide⟩ rfl
    (.field (i := 1) (List.mem_of_getElem? (i := 0) rfl) ⟨by decide, _, rfl, by decide⟩ rfl (.beside (o := .num 1) (by simp) (by simp)))

/-! ## Where it fails -/

/-- C88 fails for leaf-lists: RFC 7952 annotates their entries by an array beside the
leaf-list, which raises an exception. -/
theorem C88_leaflist_refuted :
    (noteLoad demoLoad jsonKids (freshKids jsonKids)
      (.obj [(py!"m:c", .obj [(py!"v", .arr [.str py!"5"]), (py!"@v", .arr [.obj [(py!"m:why", .num 1)]])])])).1.2 = some .attributeError := rfl

/-- C88 fails for the top-level object, which RFC 7952 lets be annotated. -/
theorem C88_root_refuted :
    (noteLoad demoLoad jsonKids (freshKids jsonKids) (.obj [(py!"@", .obj [(py!"m:why", .num 1)]), (py!"m:c", .obj [])])).1.2 = some .attributeError := rfl

def smallDoc : J :=
  .obj [(py!"m:c", .obj [(py!"@b", .obj [(py!"m:why", .str py!"x")]), (py!"b", .bool true),
    (py!"p", .obj [(py!"@", .obj [(py!"m:why", .str py!"y")]), (py!"y", .num 4)])])]

/-- What the library writes after loading it. -/
def smallOut : J := .obj [(py!"m:c", .obj [(py!"b", .bool true), (py!"p", .obj [(py!"y", .num 4)])])]

/-- The tree after loading it. -/
def smallTree : List Inst := (ietfLoad demoLoad jsonKids (freshKids jsonKids) smallOut).1

/-- C88 fails for documents written: they have no annotations, so that a document loaded from
one the library wrote attaches none. -/
theorem C88_roundtrip_refuted :
    (noteLoad demoLoad jsonKids (freshKids jsonKids) smallDoc).1 = (smallTree, none) ∧
    noteAt [.field 0, .field 1] py!"m:why" none (noteLoad demoLoad jsonKids (freshKids jsonKids) smallDoc).2 = some (.str py!"x") ∧
    ietfDump {} jsonKids smallTree = .ok smallOut ∧
    (noteLoad demoLoad jsonKids (freshKids jsonKids) smallOut).1 = (smallTree, none) ∧
    noteAt [.field 0, .field 1] py!"m:why" none (noteLoad demoLoad jsonKids (freshKids jsonKids) smallOut).2 = none :=
  ⟨rfl, rfl, rfl, rfl, rfl⟩

/-- Loading the same data without annotations takes the annotations off leaves, but leaves
those of containers and entries. -/
theorem C88_reload_refuted :
    (noteLoad demoLoad jsonKids smallTree smallOut).1 = (smallTree, none) ∧
    noteAt [.field 0, .field 1] py!"m:why" (some (.str py!"x")) (noteLoad demoLoad jsonKids smallTree smallOut).2 = none ∧
    noteAt [.field 0, .field 4] py!"m:why" (some (.str py!"y")) (noteLoad demoLoad jsonKids smallTree smallOut).2 = some (.str py!"y") :=
  ⟨rfl, rfl, rfl⟩

end Pyb
