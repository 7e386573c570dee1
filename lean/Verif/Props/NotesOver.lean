import Verif.Props.Notes
import Verif.Props.Overwrite

/-! # Annotations of what `overwrite` removes (C88) -/

namespace Pyb
open Py Spec

/-- What happened before stays in the record. -/
theorem andThen_evs (o : NOut) (f : Inst → NOut) : ∃ rest, (o.andThen f).evs = o.evs ++ rest := by
  unfold NOut.andThen
  cases o.out.err with
  | some e => exact ⟨[], by simp⟩
  | none => exact ⟨_, rfl⟩

/-- With `overwrite` the first thing that happens is that the entry goes. -/
theorem over_first {g : LoadOpt} (hov : g.over = true) {kids : List (Meta × Schema)} {ns : List Inst} {i : Nat} {k : Meta × Schema} {info : ListInfo}
    {lk : List (Meta × Schema)} {ch : Bool} {q : PyVal × Inst} (hk : kids[i]? = some k) (hs : k.2 = .list info lk) (hi : ns[i]? = some (.list ch [q]))
    {key : Str} (hidx : kidIdx kids (localKey key) = some i) (hat : '@' ∉ key) (x : J) (xs : List J) (post : List (Str × J)) :
    ∃ rest, (noteLoad g kids ns (.obj ((key, .arr (x :: xs)) :: post))).2 = .gone [.field i, .key q.1] :: rest := by
  have hne : key ≠ ['@'] := by
    intro h; rw [h] at hat; simp at hat
  simp only [noteLoad, noteMembers_cons, if_neg hne, if_neg hat]
  obtain ⟨r1, h1⟩ := andThen_evs (withKidN false (.cont false kids) none (.cont false false ns) (localKey key)
      (ietfUnknown g.skip (.cont false false ns) (.arr (x :: xs))) fun i k c =>
        noteChild g k.2 k.1.choice (([] : List Nat).contains i) ((key, .arr (x :: xs)) :: post) key c (.arr (x :: xs)))
    (fun n => noteMembers g false (.cont false kids) [] none ((key, .arr (x :: xs)) :: post) n post)
  rw [h1]
  simp only [withKidN, hidx, hk, hi, hs]
  have h2 : ∃ rest, (noteChild g (.list info lk) k.1.choice (([] : List Nat).contains i) ((key, .arr (x :: xs)) :: post) key (.list ch [q]) (.arr (x :: xs))).evs
      = .gone [.key q.1] :: rest := by
    unfold noteChild
    simp only [noteElems_cons, hov, if_true]
    obtain ⟨r2, h3⟩ := andThen_evs ((clearNotes (.list ch [q])).andThen (elemNotes g info lk ((key, .arr (x :: xs)) :: post) key x))
      fun n => noteElems g info lk ((key, .arr (x :: xs)) :: post) key n xs
    obtain ⟨r3, h4⟩ := andThen_evs (clearNotes (.list ch [q])) (elemNotes g info lk ((key, .arr (x :: xs)) :: post) key x)
    rw [h3, h4]
    exact ⟨_, rfl⟩
  obtain ⟨r2, h2⟩ := h2
  rw [h2]
  exact ⟨_, rfl⟩

/-- C88 with `overwrite`: of the entry a list had before, and of all that was in it, no
annotation is left when the list is overwritten, even if the document has an entry of the same key: every
annotation found there afterwards is one the document gives.

Not covered: lists below the top, or that come after other members of the document.  Lists with more than one entry
cannot be overwritten (C44). -/
theorem C88_overwrite_partial (g : LoadOpt) (hov : g.over = true) (kids : List (Meta × Schema)) (hn : GoodNames kids)
    (hO : Orderly (rootCls kids)) (hK : Keyed (rootCls kids)) (ns : List Inst) (i : Nat) (m : Meta) (info : ListInfo) (lk : List (Meta × Schema)) (ch : Bool)
    (q : PyVal × Inst) (hk : kids[i]? = some (m, .list info lk)) (hi : ns[i]? = some (.list ch [q]))
    (key : Str) (hkey : safeName (Spec.localName key) = safeName m.name) (hat : '@' ∉ key) (x : J) (xs : List J) (post : List (Str × J))
    (hl : ¬ Loose g.repr (rootCls kids) (.obj ((key, .arr (x :: xs)) :: post)))
    (k : PyVal) (hq : pyEq q.1 k = true) (p : Path) (name : Str) (old : Option J) (w : J)
    (hw : noteAt (.field i :: .key k :: p) name old (noteLoad g kids ns (.obj ((key, .arr (x :: xs)) :: post))).2 = some w) :
    Annotates g.repr (rootCls kids) (.obj ((key, .arr (x :: xs)) :: post)) none (.field i :: .key k :: p) name w := by
  have hidx : kidIdx kids (localKey key) = some i := by rw [localKey_eq]; exact kidIdx_name hn.2 hk hkey
  obtain ⟨rest, h1⟩ := over_first (ns := ns) hov hk rfl hi hidx hat x xs post
  have h2 : noteAt (.field i :: .key k :: p) name none (noteLoad g kids ns (.obj ((key, .arr (x :: xs)) :: post))).2 = some w := by
    rw [← hw, h1]
    have hg : atOrAbove [.field i, .key q.1] (.field i :: .key k :: p) = true := by
      simp [atOrAbove, Step.same, hq]
    simp only [noteAt, hg, if_true]
  rcases C88_only g kids hO hK ns _ hl _ _ none w h2 with h | h
  · cases h
  · exact h

/-- The list `l` has an annotated entry `x`, and is overwritten with one of the same key. -/
def overDoc : J := .obj [(py!"m:l", .arr [.obj [(py!"k", .str py!"x"), (py!"w", .num 3)]])]

def overOld : List Inst := owTree.set 0 (.list false [owEntry py!"x" (.leaf (.int 1) true) (.leaf (.int 0) false)])

example : (noteLoad owLoad owKids overOld overDoc).1.2 = none ∧
    noteAt [.field 0, .key (.str py!"x")] py!"m:why" (some (.num 1)) (noteLoad owLoad owKids overOld overDoc).2 = none := ⟨rfl, rfl⟩

theorem ow_orderly : Orderly (rootCls owKids) := by
  refine ⟨⟨by decide, by decide⟩, ⟨⟨by decide, by decide⟩, ?_, trivial, trivial, trivial, trivial⟩, ⟨⟨by decide, by decide⟩, trivial, trivial, trivial⟩, trivial, trivial⟩
  intro i hi
  simp at hi
  subst hi
  exact ⟨_, _, rfl⟩

theorem ow_keyed : Keyed (rootCls owKids) := by
  simp only [rootCls, owKids, owL, owC, keyed_cont, List.forall_mem_cons, List.not_mem_nil, false_implies, implies_true, and_true, keyed_list]
  exact ⟨⟨by simp, keyed_leaf _, keyed_leaf _, keyed_leaf _⟩, ⟨keyed_leaf _, keyed_leaf _⟩, keyed_leafList _⟩

/-- A document that annotates the new entry. -/
def overNoted : J := .obj [(py!"m:l", .arr [.obj [(py!"k", .str py!"x"), (py!"@", .obj [(py!"m:why", .num 2)])]])]

example : Annotates owLoad.repr (rootCls owKids) overNoted none [.field 0, .key (.str py!"x")] py!"m:why" (.num 2) :=
  C88_overwrite_partial owLoad rfl owKids ow_names ow_orderly ow_keyed overOld 0 (inM py!"l") { keys := [0] } owL false _ rfl rfl py!"m:l"
    (by decide) (by decide) (.obj [(py!"k", .str py!"x"), (py!"@", .obj [(py!"m:why", .num 2)])]) [] [] (tidy_ok ow_orderly (by decide)).1
    (.str py!"x") rfl [] py!"m:why" (some (.num 1)) (.num 2) rfl

end Pyb
