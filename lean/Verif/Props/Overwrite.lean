import Verif.Lemmas.OverwriteIetf
import Verif.Props.Native

/-! # Loading over existing data (C44, C45) -/

namespace Pyb
open Py Spec

/-! ## C44: `overwrite` -/

/-- C44 for native JSON: if loading with `overwrite` raises nothing, a list that is in the
document ends with entries under exactly the document's keys.

Not covered: what the entries hold (see `C44_native_merged_refuted`), loads that raise
(`C44_native_removal_refuted`), lists further down (for which `overwrite` is not passed
on), and user-ordered lists with two entries for one position. -/
theorem C44_native_keys_partial (g : LoadOpt) (hov : g.over = true) (kids : List (Meta × Schema)) (hn : GoodNames kids)
    (ns : List Inst) (i : Nat) (m : Meta) (info : ListInfo) (lk : List (Meta × Schema)) (ch : Bool) (es : List (PyVal × Inst))
    (hk : kids[i]? = some (m, .list info lk)) (hi : ns[i]? = some (.list ch es))
    (pre post : List (Str × J)) (key : Str) (entries : List (Str × J)) (hkey : safeName key = safeName m.name)
    (hother : ∀ x ∈ pre ++ post, safeName x.1 ≠ safeName m.name)
    (hpos : info.ordered = true → (entries.filterMap fun x => position x.2).Nodup)
    (ns' : List Inst) (h : nativeLoad g kids ns (.obj (pre ++ (key, .obj entries) :: post)) = (ns', none)) :
    ∃ ch' es', ns'[i]? = some (.list ch' es') ∧ (∀ q ∈ es', ∃ s ∈ entries.map Prod.fst, q.1 = .str s) ∧
      ∀ s ∈ entries.map Prod.fst, ∃ q ∈ es', q.1 = .str s := by
  simp only [nativeLoad, hov, Prod.mk.injEq] at h
  obtain ⟨h1, h2⟩ := h
  obtain ⟨e1, ns1, e2, e3⟩ := nTop_child hk hi (kidIdx_name hn.2 hk hkey)
    (fun x hx => kidIdx_other hk (hother x (List.mem_append_left _ hx))) (fun x hx => kidIdx_other hk (hother x (List.mem_append_right _ hx))) h2
  obtain ⟨ch', es', f1, f2, f3, _⟩ := nList_over hpos e1
  rw [e2] at h1
  simp only [Inst.kids] at h1
  subst h1
  exact ⟨ch', es', by rw [e3, f1], f2, f3⟩

/-- When it works, for native JSON and a document with entries: loading with `overwrite`
over a list succeeds only if all entries the list had, except perhaps the last, are in
the document.  So C44 fails for all other documents. -/
theorem C44_native_removal_refuted (g : LoadOpt) (hov : g.over = true) (kids : List (Meta × Schema)) (hn : GoodNames kids)
    (ns : List Inst) (i : Nat) (m : Meta) (info : ListInfo) (lk : List (Meta × Schema)) (ch : Bool) (es : List (PyVal × Inst))
    (hk : kids[i]? = some (m, .list info lk)) (hi : ns[i]? = some (.list ch es))
    (pre post : List (Str × J)) (key : Str) (entries : List (Str × J)) (hkey : safeName key = safeName m.name)
    (hother : ∀ x ∈ pre ++ post, safeName x.1 ≠ safeName m.name)
    (hpos : info.ordered = true → (entries.filterMap fun x => position x.2).Nodup) (hsome : entries ≠ [])
    (k : PyVal) (hold : k ∈ (es.map Prod.fst).dropLast) (hnew : ∀ s ∈ entries.map Prod.fst, k ≠ .str s) :
    (nativeLoad g kids ns (.obj (pre ++ (key, .obj entries) :: post))).2 ≠ none := by
  intro h
  simp only [nativeLoad, hov] at h
  obtain ⟨e1, _⟩ := nTop_child hk hi (kidIdx_name hn.2 hk hkey)
    (fun x hx => kidIdx_other hk (hother x (List.mem_append_left _ hx))) (fun x hx => kidIdx_other hk (hother x (List.mem_append_right _ hx))) h
  obtain ⟨_, _, _, _, _, f⟩ := nList_over hpos e1
  obtain ⟨s, hs, rfl⟩ := f hsome k hold
  exact hnew s hs rfl

/-- C44 for the containers of a module, with all that is in them: loading native JSON with
`overwrite` over any tree gives a container in the document the same children, and raises
the same, as loading into a new object. -/
theorem C44_native_container_partial (g : LoadOpt) (hov : g.over = true) (kids : List (Meta × Schema)) (hn : GoodNames kids)
    (ns : List Inst) (i : Nat) (m : Meta) (pres : Bool) (ck : List (Meta × Schema)) (ch pr : Bool) (old : List Inst)
    (hk : kids[i]? = some (m, .cont pres ck)) (hi : ns[i]? = some (.cont ch pr old)) (members : List (Str × J)) :
    (nativeLoad g kids ns (.obj [(m.name, .obj members)])).2 = (nativeLoad g kids (freshKids kids) (.obj [(m.name, .obj members)])).2 ∧
    ∃ c p c' p' new, (nativeLoad g kids ns (.obj [(m.name, .obj members)])).1[i]? = some (.cont c p new) ∧
      (nativeLoad g kids (freshKids kids) (.obj [(m.name, .obj members)])).1[i]? = some (.cont c' p' new) := by
  have hidx : kidIdx kids m.name = some i := kidIdx_self hn.2 hk
  have hfr : (freshKids kids)[i]? = some (.cont false false (freshKids ck)) := by
    rw [freshKids_get, hk]; simp [fresh]
  have one : ∀ (xs : List Inst) c, xs[i]? = some c → nativeLoad g kids xs (.obj [(m.name, .obj members)]) =
      (xs.set i (nativeChild g true (.cont pres ck) m.choice c (.obj members)).inst, (nativeChild g true (.cont pres ck) m.choice c (.obj members)).err) := by
    intro xs c hc
    simp only [nativeLoad, hov]
    rw [nMembers_cons]
    simp only [Bool.false_and, Bool.false_eq_true, if_false, withKid, hidx, hk, hc, holdPut]
    unfold Out.andThen
    cases he : (nativeChild g true (.cont pres ck) m.choice c (.obj members)).err with
    | some e => rfl
    | none => simp only [nMembers_nil, Out.same, Inst.kids]
  rw [one ns _ hi, one _ _ hfr]
  have hl := (List.getElem?_eq_some_iff.1 hi).1
  have hl' := (List.getElem?_eq_some_iff.1 hfr).1
  simp only [List.getElem?_set_self hl, List.getElem?_set_self hl', Option.some.injEq]
  have hal : ∃ sg x y x' y', (nativeChild g true (.cont pres ck) m.choice (.cont ch pr old) (.obj members)) =
      (⟨.cont x y old, sg, none⟩ : Out).andThen (fun c => nativeMembers g false true false (.cont pres ck) m.choice (unsetAll true ck c) members) ∧
      (nativeChild g true (.cont pres ck) m.choice (.cont false false (freshKids ck)) (.obj members)) =
      (⟨.cont x' y' (freshKids ck), sg, none⟩ : Out).andThen (fun c => nativeMembers g false true false (.cont pres ck) m.choice (unsetAll true ck c) members) := by
    unfold nativeChild
    cases pres
    · exact ⟨[], ch, pr, false, false, rfl, rfl⟩
    · exact ⟨[m.choice], true, true, true, true, rfl, rfl⟩
  obtain ⟨sg, x, y, x', y', e1, e2⟩ := hal
  rw [e1, e2]
  simp only [Out.andThen, unsetAll]
  obtain ⟨f1, a, b, a', b', z, f2, f3⟩ := nMembers_flags (g := g) (over := false) (ordered := false) (pres := pres) (kids := ck) (own := m.choice)
    members x y x' y' (freshKids ck)
  exact ⟨f1, a, b, a', b', z, f2, f3⟩

/-- C44 for IETF JSON, a list with at most one entry and an array with one element: the
list ends as if the element had been loaded into the empty list. -/
theorem C44_ietf_single_partial (g : LoadOpt) (hov : g.over = true) (kids : List (Meta × Schema)) (hn : GoodNames kids)
    (ns : List Inst) (i : Nat) (m : Meta) (info : ListInfo) (lk : List (Meta × Schema)) (ch : Bool) (es : List (PyVal × Inst))
    (hk : kids[i]? = some (m, .list info lk)) (hi : ns[i]? = some (.list ch es)) (hes : es.length ≤ 1)
    (key : Str) (hkey : safeName (localName key) = safeName m.name) (hat : '@' ∉ key) (x : J) :
    ietfLoad g kids ns (.obj [(key, .arr [x])]) = ietfLoad g kids (ns.set i (.list ch [])) (.obj [(key, .arr [x])]) := by
  have hidx : kidIdx kids (localKey key) = some i := by rw [localKey_eq]; exact kidIdx_name hn.2 hk hkey
  have hl := (List.getElem?_eq_some_iff.1 hi).1
  have hset : (ns.set i (.list ch []))[i]? = some (.list ch []) := List.getElem?_set_self hl
  have hc : ietfClear (.list ch es) = ietfClear (.list ch []) := by
    cases es with
    | nil => rfl
    | cons q es => cases es with | nil => rfl | cons q' es => simp at hes
  simp only [ietfLoad]
  rw [members_cons, members_cons]
  simp only [hat, if_false, withKid, hidx, hk, hi, hset, holdPut, Bool.false_eq_true]
  unfold ietfChild
  simp only
  rw [iElems_cons, iElems_cons]
  simp only [hov, if_true, hc, List.set_set]

/-- What happens in general, for IETF JSON: loading with `overwrite` an array with
elements for a list leaves, if it succeeds, one entry: that of the last element.  So C44
fails for all documents with more entries than one, and for all lists that had more. -/
theorem C44_ietf_last_refuted (g : LoadOpt) (hov : g.over = true) (kids : List (Meta × Schema)) (hn : GoodNames kids)
    (ns : List Inst) (i : Nat) (m : Meta) (info : ListInfo) (lk : List (Meta × Schema)) (ch : Bool) (es : List (PyVal × Inst))
    (hk : kids[i]? = some (m, .list info lk)) (hi : ns[i]? = some (.list ch es))
    (pre post : List (Str × J)) (key : Str) (hkey : safeName (localName key) = safeName m.name) (hat : '@' ∉ key)
    (hother : ∀ x ∈ pre ++ post, safeName (localName x.1) ≠ safeName m.name) (xs : List J) (x : J)
    (ns' : List Inst) (h : ietfLoad g kids ns (.obj (pre ++ (key, .arr (xs ++ [x])) :: post)) = (ns', none)) :
    es.length ≤ 1 ∧ ∃ q, ns'[i]? = some (.list ch [q]) ∧
      (ietfLoad g kids (ns.set i (.list ch [])) (.obj [(key, .arr [x])])).1[i]? = some (.list ch [q]) := by
  simp only [ietfLoad, Prod.mk.injEq] at h
  obtain ⟨h1, h2⟩ := h
  have hidx : kidIdx kids (localKey key) = some i := by rw [localKey_eq]; exact kidIdx_name hn.2 hk hkey
  obtain ⟨e1, ns1, e2, e3⟩ := iTop_child hk hi hidx hat
    (fun x hx => by rw [localKey_eq]; exact kidIdx_other hk (hother x (List.mem_append_left _ hx)))
    (fun x hx => by rw [localKey_eq]; exact kidIdx_other hk (hother x (List.mem_append_right _ hx))) h2
  rw [e2] at h1
  simp only [Inst.kids] at h1
  subst h1
  have hch : ∀ (n : Inst) (zs : List J), ietfChild g (.list info lk) m.choice false n (.arr zs) = ietfElems g info lk n zs := by
    intro n zs; conv => lhs; unfold ietfChild
  simp only [hch] at e1 e3
  obtain ⟨es', f1, f2⟩ := iElems_list hov _ _ e1
  obtain ⟨f3, f4⟩ := iElems_last hov e1
  obtain ⟨f5, f6⟩ := f2 (by simp)
  refine ⟨f5, ?_⟩
  obtain ⟨q, rfl⟩ : ∃ q, es' = [q] := by
    match es', f6 with
    | [q], _ => exact ⟨q, rfl⟩
  refine ⟨q, by rw [e3, f1], ?_⟩
  have hl := (List.getElem?_eq_some_iff.1 hi).1
  have hset : (ns.set i (.list ch []))[i]? = some (.list ch []) := List.getElem?_set_self hl
  simp only [ietfLoad]
  rw [members_cons]
  have hct : ([] : List Nat).contains i = false := rfl
  simp only [hat, if_false, withKid, hidx, hk, hset, holdPut, Bool.false_eq_true, hct, hch, List.set_set]
  unfold Out.andThen
  simp only [f4, members_nil', Out.same, Inst.kids]
  rw [List.getElem?_set_self hl, ← f3, f1]

/-! The example: `list l { key "k"; leaf k { type string; } leaf z { type uint8; } leaf w {
type uint8; } }`, `container c { leaf a { type uint8; } leaf b { type uint8; } }` and
`leaf-list v { type uint8; }`. -/

def owL : List (Meta × Schema) :=
  [(inM py!"k", .leaf (tStr.cls noRx)), (inM py!"z", .leaf (tU8.cls noRx)), (inM py!"w", .leaf (tU8.cls noRx))]
def owC : List (Meta × Schema) := [(inM py!"a", .leaf (tU8.cls noRx)), (inM py!"b", .leaf (tU8.cls noRx))]
def owKids : List (Meta × Schema) :=
  [(inM py!"l", .list { keys := [0] } owL), (inM py!"c", .cont false owC), (inM py!"v", .leafList (tU8.llCls noRx true))]

def owOps : List (Path × Op) :=
  [([.field 0], .add (.str py!"x")), ([.field 0, .key (.str py!"x"), .field 1], .set (.int 1) false),
   ([.field 0], .add (.str py!"y")), ([.field 1, .field 0], .set (.int 2) false),
   ([.field 2], .ll (.append (.int 5))), ([.field 2], .ll (.append (.int 6)))]

def owEntry (k : Str) (z w : Inst) : PyVal × Inst := (.str k, .cont true false [.leaf (.str k) true, z, w])

def owTree : List Inst :=
  [.list false [owEntry py!"x" (.leaf (.int 1) true) (.leaf (.int 0) false), owEntry py!"y" (.leaf (.int 0) false) (.leaf (.int 0) false)],
   .cont true false [.leaf (.int 2) true, .leaf (.int 0) false], .leafList [.int 5, .int 6] true]

theorem owTree_reached : history owKids (freshKids owKids) owOps = owTree := rfl

def owLoad : LoadOpt where
  repr := fun _ => []
  uuid := demoUuid
  over := true

theorem ow_names : GoodNames owKids := ⟨by decide, by decide⟩

/-- Overwriting with `x` only removes `y`, the last entry. -/
example : ∃ ns' ch' es', nativeLoad owLoad owKids owTree (.obj [(py!"l", .obj [(py!"x", .obj [(py!"k", .str py!"x")])])]) = (ns', none) ∧
    ns'[0]? = some (.list ch' es') ∧ (∀ q ∈ es', q.1 = .str py!"x") ∧ ∃ q ∈ es', q.1 = .str py!"x" := by
  obtain ⟨ch', es', h1, h2, h3⟩ := C44_native_keys_partial owLoad rfl owKids ow_names owTree 0 (inM py!"l") { keys := [0] } owL false _ rfl rfl
    [] [] py!"l" [(py!"x", .obj [(py!"k", .str py!"x")])] rfl (by simp) (by simp) _ rfl
  exact ⟨_, ch', es', rfl, h1, fun q hq => by simpa using h2 q hq, h3 _ (by simp)⟩

/-- Overwriting with `y` only would have to remove `x`, which is not last. -/
example : (nativeLoad owLoad owKids owTree (.obj [(py!"l", .obj [(py!"y", .obj [(py!"k", .str py!"y")])])])).2 ≠ none :=
  C44_native_removal_refuted owLoad rfl owKids ow_names owTree 0 (inM py!"l") { keys := [0] } owL false _ rfl rfl
    [] [] py!"l" _ rfl (by simp) (by simp) (by simp) (.str py!"x") (by decide) (by decide)

/-- It raises `RuntimeError`. -/
theorem C44_native_runtime_refuted :
    (nativeLoad owLoad owKids owTree (.obj [(py!"l", .obj [(py!"y", .obj [(py!"k", .str py!"y")])])])).2 = some .runtimeError := rfl

/-- The entries of native JSON are merged with those the list had: the entry `x` of the
document has no `z`, but keeps the one it had. -/
theorem C44_native_merged_refuted :
    nativeLoad owLoad owKids owTree (.obj [(py!"l", .obj [(py!"x", .obj [(py!"k", .str py!"x"), (py!"w", .num 3)])])]) =
      (owTree.set 0 (.list false [owEntry py!"x" (.leaf (.int 1) true) (.leaf (.int 3) true)]), none) := rfl

/-- Lists in containers of the document are in new objects: here all of `c` is. -/
example : ∃ c p c' p' new, (nativeLoad owLoad owKids owTree (.obj [(py!"c", .obj [(py!"b", .num 3)])])).1[1]? = some (.cont c p new) ∧
      (nativeLoad owLoad owKids (freshKids owKids) (.obj [(py!"c", .obj [(py!"b", .num 3)])])).1[1]? = some (.cont c' p' new) :=
  (C44_native_container_partial owLoad rfl owKids ow_names owTree 1 (inM py!"c") false owC true false _ rfl rfl _).2

example : (nativeLoad owLoad owKids owTree (.obj [(py!"c", .obj [(py!"b", .num 3)])])).1[1]? =
    some (.cont true false [.leaf (.int 0) false, .leaf (.int 3) true]) := rfl

def ow1 : List Inst := owTree.set 0 (.list false [owEntry py!"x" (.leaf (.int 1) true) (.leaf (.int 0) false)])

example : ietfLoad owLoad owKids ow1 (.obj [(py!"m:l", .arr [.obj [(py!"k", .str py!"y")]])]) =
    ietfLoad owLoad owKids (ow1.set 0 (.list false [])) (.obj [(py!"m:l", .arr [.obj [(py!"k", .str py!"y")]])]) :=
  C44_ietf_single_partial owLoad rfl owKids ow_names ow1 0 (inM py!"l") { keys := [0] } owL false _ rfl rfl (by decide) py!"m:l"
    (by decide) (by decide) _

/-- Of two elements only the last stays. -/
example : ∃ q, (ietfLoad owLoad owKids ow1 (.obj [(py!"m:l", .arr ([.obj [(py!"k", .str py!"p")]] ++ [.obj [(py!"k", .str py!"q")]]))])).1[0]? =
    some (.list false [q]) := by
  obtain ⟨_, q, h, _⟩ := C44_ietf_last_refuted owLoad rfl owKids ow_names ow1 0 (inM py!"l") { keys := [0] } owL false _ rfl rfl [] [] py!"m:l"
    (by decide) (by decide) (by simp) [.obj [(py!"k", .str py!"p")]] (.obj [(py!"k", .str py!"q")]) _ rfl
  exact ⟨q, h⟩

theorem C44_ietf_two_refuted :
    ietfLoad owLoad owKids ow1 (.obj [(py!"m:l", .arr [.obj [(py!"k", .str py!"p")], .obj [(py!"k", .str py!"q")]])]) =
      (owTree.set 0 (.list false [owEntry py!"q" (.leaf (.int 0) false) (.leaf (.int 0) false)]), none) := rfl

/-- A list with two entries cannot be overwritten: removing them raises `RuntimeError`,
with one of them gone. -/
theorem C44_ietf_runtime_refuted :
    ietfLoad owLoad owKids owTree (.obj [(py!"m:l", .arr [.obj [(py!"k", .str py!"p")]])]) =
      (owTree.set 0 (.list false [owEntry py!"y" (.leaf (.int 0) false) (.leaf (.int 0) false)]), some .runtimeError) := rfl

/-- An empty array removes nothing. -/
theorem C44_ietf_empty_refuted : ietfLoad owLoad owKids owTree (.obj [(py!"m:l", .arr [])]) = (owTree, none) := rfl

/-! ## C45: leaf-lists without `overwrite` -/

/-- C45, what happens for any old values and any array of values `ws` of the type (given
so that each equals the value stored for it): the old values followed by the new ones,
each once, but without the old values that are not in the document.

Not covered: values that are stored as something else than what the document has (see
`C45_converted_refuted`). -/
theorem C45_merge_partial (g : LoadOpt) (hov : g.over = false) (kids : List (Meta × Schema)) (hn : GoodNames kids)
    (ns : List Inst) (i : Nat) (m : Meta) (L : LLCls) (ch : Bool) (old : List PyVal)
    (hk : kids[i]? = some (m, .leafList L)) (hi : ns[i]? = some (.leafList old ch)) (js : List J) (ws : List PyVal)
    (hconv : js.map (fun j => L.conv (jPy g.repr j)) = ws.map some)
    (heq : ∀ (p : Nat) j w, js[p]? = some j → ws[p]? = some w → pyEq w (jPy g.repr j) = true) :
    ∃ ch', nativeLoad g kids ns (.obj [(m.name, .arr js)]) =
      (ns.set i (.leafList ((union old ws).filter fun v => ws.any fun w => pyEq w v) ch'), none) := by
  have hidx : kidIdx kids m.name = some i := kidIdx_self hn.2 hk
  obtain ⟨ch', sg, e⟩ := nMerge (L := L) (own := m.choice) (repr := g.repr) (xs := old) (ch := ch) hconv heq
  refine ⟨ch', ?_⟩
  simp only [nativeLoad, hov]
  rw [nMembers_cons]
  simp only [Bool.false_and, Bool.false_eq_true, if_false, withKid, hidx, hk, hi, holdPut]
  unfold nativeChild
  simp only [Bool.false_eq_true, if_false, e, Out.andThen, nMembers_nil, Out.same, Inst.kids]

theorem union_mem {new : List PyVal} : ∀ {old : List PyVal} {v : PyVal}, v ∈ union old new → v ∈ old ∨ v ∈ new := by
  induction new with
  | nil => intro old v h; exact .inl h
  | cons w new ih =>
    intro old v h
    simp only [union, List.foldl_cons] at h ih
    split at h
    · rcases ih h with h | h
      · exact .inl h
      · exact .inr (by simp [h])
    · rcases ih h with h | h
      · rcases List.mem_append.1 h with h | h
        · exact .inl h
        · exact .inr (by simpa using .inl (by simpa using h))
      · exact .inr (by simp [h])

/-- C45 for documents that have all the old values: the old values followed by the new
ones, without loss. -/
theorem C45_union_partial (g : LoadOpt) (hov : g.over = false) (kids : List (Meta × Schema)) (hn : GoodNames kids)
    (ns : List Inst) (i : Nat) (m : Meta) (L : LLCls) (ch : Bool) (old : List PyVal)
    (hk : kids[i]? = some (m, .leafList L)) (hi : ns[i]? = some (.leafList old ch)) (js : List J) (ws : List PyVal)
    (hconv : js.map (fun j => L.conv (jPy g.repr j)) = ws.map some)
    (heq : ∀ (p : Nat) j w, js[p]? = some j → ws[p]? = some w → pyEq w (jPy g.repr j) = true)
    (hall : ∀ v ∈ old, ∃ w ∈ ws, pyEq w v = true) :
    ∃ ch', nativeLoad g kids ns (.obj [(m.name, .arr js)]) = (ns.set i (.leafList (union old ws) ch'), none) := by
  obtain ⟨ch', e⟩ := C45_merge_partial g hov kids hn ns i m L ch old hk hi js ws hconv heq
  refine ⟨ch', ?_⟩
  rw [e, List.filter_eq_self.2]
  intro v hv
  rw [List.any_eq_true]
  rcases union_mem hv with hv | hv
  · exact hall v hv
  · exact ⟨v, hv, pyEq_refl v⟩

/-- What is kept and what is lost in general: an old value is there afterwards if and only
if the document has it. -/
theorem C45_lost_refuted (g : LoadOpt) (hov : g.over = false) (kids : List (Meta × Schema)) (hn : GoodNames kids)
    (ns : List Inst) (i : Nat) (m : Meta) (L : LLCls) (ch : Bool) (old : List PyVal)
    (hk : kids[i]? = some (m, .leafList L)) (hi : ns[i]? = some (.leafList old ch)) (js : List J) (ws : List PyVal)
    (hconv : js.map (fun j => L.conv (jPy g.repr j)) = ws.map some)
    (heq : ∀ (p : Nat) j w, js[p]? = some j → ws[p]? = some w → pyEq w (jPy g.repr j) = true)
    (v : PyVal) (hnew : ∀ w ∈ ws, pyEq w v = false) :
    ∃ vs ch', (nativeLoad g kids ns (.obj [(m.name, .arr js)])).1[i]? = some (.leafList vs ch') ∧ v ∉ vs := by
  obtain ⟨ch', e⟩ := C45_merge_partial g hov kids hn ns i m L ch old hk hi js ws hconv heq
  refine ⟨_, ch', by rw [e]; exact List.getElem?_set_self (List.getElem?_eq_some_iff.1 hi).1, ?_⟩
  intro h
  obtain ⟨_, h⟩ := List.mem_filter.1 h
  obtain ⟨w, hw, h⟩ := List.any_eq_true.1 h
  rw [hnew w hw] at h
  exact absurd h (by simp)

example : ∃ ch', nativeLoad demoLoad owKids owTree (.obj [(py!"v", .arr [.num 7, .num 6, .num 5])]) =
    (owTree.set 2 (.leafList [.int 5, .int 6, .int 7] ch'), none) :=
  C45_union_partial demoLoad rfl owKids ow_names owTree 2 (inM py!"v") (tU8.llCls noRx true) true [.int 5, .int 6] rfl rfl
    [.num 7, .num 6, .num 5] [.int 7, .int 6, .int 5] rfl (by
      intro p j w h1 h2
      match p with
      | 0 => simp at h1 h2; subst h1 h2; rfl
      | 1 => simp at h1 h2; subst h1 h2; rfl
      | 2 => simp at h1 h2; subst h1 h2; rfl
      | p + 3 => simp at h1) (by decide)

/-- The old value 5 is lost. -/
theorem C45_old_value_refuted :
    nativeLoad demoLoad owKids owTree (.obj [(py!"v", .arr [.num 7, .num 6])]) = (owTree.set 2 (.leafList [.int 6, .int 7] true), none) := rfl

/-- Numbers given as strings: all that is there and all that is added is lost. -/
theorem C45_converted_refuted :
    nativeLoad demoLoad owKids owTree (.obj [(py!"v", .arr [.str py!"7"])]) = (owTree.set 2 (.leafList [] true), none) := rfl

end Pyb
