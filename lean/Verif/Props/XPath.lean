import Verif.Lemmas.XPathParts
import Verif.Spec.LeafRef

/-! # The path helper: C50-C56 -/

namespace Pyb
open Py Spec

/-- A path of the schema, not the root's, that the helper can take. -/
structure ValidPath (K : List Str → List Str) (p : List PStep) : Prop where
  ne : p ≠ []
  good : ∀ s ∈ p, s.Good
  conf : Conforms K [] p

/-- An operation on the helper, with the texts of the path's steps. -/
def doOp (eqv : XObj → XObj → Bool) (h : Helper) : RegOp → Helper × Except Err Unit
  | .register p o => h.register eqv (p.map PStep.text) o
  | .unregister p => h.unregister (p.map PStep.text)

/-- The helper after a history. -/
def runOps (eqv : XObj → XObj → Bool) (ops : List RegOp) : Helper := ops.foldl (fun h op => (doOp eqv h op).1) Helper.new

/-! Examples: interfaces with a name as key, with a unit with an index and a type below. -/

def exK : List Str → List Str := fun t =>
  if t = [py!"ifs", py!"if"] then [py!"name"] else if t = [py!"ifs", py!"if", py!"unit"] then [py!"index", py!"type"] else []

def exIfs : List PStep := [⟨py!"ifs", []⟩]
def exIf (n : Str) : List PStep := exIfs ++ [⟨py!"if", [(py!"name", n)]⟩]
def exUnit : List PStep := exIf py!"ge-0/0/1" ++ [⟨py!"unit", [(py!"index", py!"3"), (py!"type", py!"v.4")]⟩]

theorem contains_head {s t : Str} (h : Contains s t) : ∀ c ∈ t, c ∈ s := by
  obtain ⟨a, b, rfl⟩ := h
  intro c hc
  simp [hc]

theorem goodValue_of {v : Str} (h1 : v ≠ [])
    (h2 : (v.all fun c => c ≠ ' ' && c ≠ '^' && c ≠ '\'' && c ≠ '"' && c ≠ ']' && c ≠ '|' && c ≠ '(' && decide (32 ≤ c.toNat) &&
      c.toNat ≠ 0xFFFE && c.toNat ≠ 0xFFFF) = true) : GoodValue v := by
  rw [List.all_eq_true] at h2
  refine ⟨h1, fun c hc => ?_, fun h => ?_⟩
  · have := h2 c hc
    simp at this
    simp [this]
  · have := h2 '(' (contains_head h _ (by simp))
    revert this
    decide

theorem ident_of {s : Str} (h1 : (s.all fun c => c.isAlphanum || c = '-' || c = '_' || c = '.') = true)
    (h2 : (match s with | [] => false | c :: _ => c.isAlpha || c = '_') = true) : Identifier s := by
  rw [List.all_eq_true] at h1
  constructor
  · intro c hc
    have := h1 c hc
    simp [or_assoc] at this
    unfold PlainChar
    simpa [or_assoc] using this
  · cases s with
    | nil => cases h2
    | cons c cs =>
      simp at h2
      exact ⟨c, cs, rfl, h2⟩

theorem exIfs_valid : ValidPath exK exIfs where
  ne := by simp [exIfs]
  good := by
    intro s hs
    rw [List.mem_singleton.1 hs]
    exact ⟨ident_of (by decide) (by decide), by simp, by simp, by simp⟩
  conf := .cons _ _ _ (by decide) (.nil _)

theorem exIf_valid {n : Str} (hn : GoodValue n) : ValidPath exK (exIf n) where
  ne := by simp [exIf]
  good := by
    intro s hs
    rcases List.mem_append.1 hs with hs | hs
    · exact exIfs_valid.good s hs
    · rw [List.mem_singleton.1 hs]
      refine ⟨ident_of (s := py!"if") (by decide) (by decide), ?_, by simp, ?_⟩
      · intro k hk
        rw [List.mem_singleton.1 hk]
        exact ⟨ident_of (s := py!"name") (by decide) (by decide), by simp, by simp⟩
      · intro k hk
        rw [List.mem_singleton.1 hk]
        exact hn
  conf := .cons _ _ _ (by decide) (.cons _ _ _ (by simp [exK]) (.nil _))

theorem exUnit_valid : ValidPath exK exUnit where
  ne := by simp [exUnit]
  good := by
    intro s hs
    rcases List.mem_append.1 hs with hs | hs
    · exact (exIf_valid (goodValue_of (by decide) (by decide))).good s hs
    · rw [List.mem_singleton.1 hs]
      refine ⟨ident_of (by decide) (by decide), ?_, by decide, ?_⟩
      · intro k hk
        simp only [List.mem_cons, List.not_mem_nil, or_false] at hk
        rcases hk with rfl | rfl <;> exact ⟨ident_of (by decide) (by decide), by decide, by decide⟩
      · intro k hk
        simp only [List.mem_cons, List.not_mem_nil, or_false] at hk
        rcases hk with rfl | rfl <;> exact goodValue_of (by decide) (by decide)
  conf := .cons _ _ _ (by decide) (.cons _ _ _ (by decide) (.cons _ _ _ (by decide) (.nil _)))

/-! ## C51 -/

section
variable {K : List Str → List Str} {eqv : XObj → XObj → Bool}

theorem doOp_step {h : Helper} {m : Registry} (ok : HelperOk K eqv h m) {op : RegOp} (hv : ValidPath K op.path) :
    HelperOk K eqv (doOp eqv h op).1 (regStep m op) ∧ (doOp eqv h op).2 = if OpAllowed m op then .ok () else .error .xpathError := by
  cases op with
  | register p o => exact register_step ok hv.ne hv.good hv.conf o
  | unregister p => exact unregister_step ok hv.ne hv.good hv.conf

theorem foldl_ok (ops : List RegOp) : ∀ (h : Helper) (m : Registry), HelperOk K eqv h m → (∀ op ∈ ops, ValidPath K op.path) →
    HelperOk K eqv (ops.foldl (fun h op => (doOp eqv h op).1) h) (ops.foldl regStep m) := by
  induction ops with
  | nil => intro h m ok _; exact ok
  | cons op ops ih =>
    intro h m ok hv
    exact ih _ _ (doOp_step ok (hv op (by simp))).1 fun o ho => hv o (by simp [ho])

theorem runOps_ok {ops : List RegOp} (hv : ∀ op ∈ ops, ValidPath K op.path) : HelperOk K eqv (runOps eqv ops) (registryAfter ops) :=
  foldl_ok ops _ _ helperOk_new hv

/-- C51, the lookups: after any history of `register` and `unregister`, what is looked up at a
path is what the history left there (an object put in the place of one that is `==` to it
does not take its place, see C52); nothing where nothing is.  The paths are those of some schema,
with key values the helper can take (see C56). -/
theorem C51_lookup_partial {ops : List RegOp} (hv : ∀ op ∈ ops, ValidPath K op.path) {q : List PStep} (hq : ValidPath K q) (caller) :
    (registryAfter ops q = none → (runOps eqv ops).get (q.map PStep.text) caller = .ok []) ∧
    (∀ o, registryAfter ops q = some o → ∃ o', (runOps eqv ops).get (q.map PStep.text) caller = .ok [o'] ∧ (o' = o ∨ eqv o' o = true)) := by
  have ok := runOps_ok (eqv := eqv) hv
  constructor
  · intro hn
    apply get_none ok.tree hq.ne hq.good hq.conf
    intro e he
    have := (ok.some_iff hq.ne).2 ⟨e, he⟩
    rw [hn] at this
    cases this
  · intro o ho
    obtain ⟨_, e, he⟩ := ok.dom q o ho
    obtain ⟨o1, o', h1, h2, h3⟩ := ok.abs q e hq.ne he
    rw [ho] at h1
    cases h1
    exact ⟨o', get_at ok.tree hq.ne hq.good hq.conf caller he h2, h3⟩

/-- The same for a path given as one text. -/
theorem C51_string_partial {q : List PStep} (hq : ValidPath K q) (h : Helper) (caller) :
    h.getStr ('/' :: joinSlash (q.map PStep.text)) caller = h.get (q.map PStep.text) caller := by
  obtain ⟨s, p, rfl⟩ := List.exists_cons_of_ne_nil hq.ne
  have hp : pathParts ('/' :: joinSlash ((s :: p).map PStep.text)) = [] :: (s :: p).map PStep.text := by
    rw [pathParts, pathPartsGo, if_pos (by decide), go_texts p [] s hq.good]
    rfl
  rw [Helper.getStr, hp]
  have he : encodePath h.look caller ([] :: (s :: p).map PStep.text) = encodePath h.look caller ((s :: p).map PStep.text) := by
    obtain ⟨h1, h2⟩ := text_rel (hq.good s (by simp))
    simp only [encodePath, List.map_cons, h1, h2, if_true, if_false, Bool.false_eq_true]
    rfl
  simp only [Helper.get, Helper.getEtree, he]

/-- C51, when the operations go well: an object can be put where its parent is, or replaced;
only what is there can be taken out. -/
theorem C51_succeeds_partial {ops : List RegOp} (hv : ∀ op ∈ ops, ValidPath K op.path) {op : RegOp} (ho : ValidPath K op.path) :
    (doOp eqv (runOps eqv ops) op).2 = if OpAllowed (registryAfter ops) op then .ok () else .error .xpathError :=
  (doOp_step (runOps_ok hv) ho).2

end

def exEqv : XObj → XObj → Bool := fun a b => a.text = b.text

/-- An interface and a unit are put in, another interface, and the first taken out. -/
def exOps : List RegOp :=
  [.register exIfs ⟨1, []⟩, .register (exIf py!"ge-0/0/1") ⟨2, []⟩, .register exUnit ⟨3, []⟩, .register (exIf py!"lo0") ⟨4, py!"x"⟩,
   .unregister (exIf py!"ge-0/0/1")]

theorem exOps_valid : ∀ op ∈ exOps, ValidPath exK op.path := by
  intro op hop
  simp only [exOps, List.mem_cons, List.not_mem_nil, or_false] at hop
  rcases hop with rfl | rfl | rfl | rfl | rfl
  · exact exIfs_valid
  · exact exIf_valid (goodValue_of (by decide) (by decide))
  · exact exUnit_valid
  · exact exIf_valid (goodValue_of (by decide) (by decide))
  · exact exIf_valid (goodValue_of (by decide) (by decide))

set_option maxRecDepth 4000 in
example : (∀ op ∈ exOps, ValidPath exK op.path) ∧ registryAfter exOps exUnit = none ∧ registryAfter (exOps.take 4) exUnit = some ⟨3, []⟩ ∧
    registryAfter exOps (exIf py!"lo0") = some ⟨4, py!"x"⟩ ∧ (runOps exEqv exOps).get (exUnit.map PStep.text) none = .ok [] :=
  ⟨exOps_valid, by decide, by decide, by decide, (C51_lookup_partial exOps_valid exUnit_valid none).1 (by decide)⟩

/-! ## C52 -/

/-- C52: an object put where an object is that is not `==` to it is found there from then on,
and all other paths give what they gave before, the ones below as well. -/
theorem C52_replace_partial {K : List Str → List Str} {eqv : XObj → XObj → Bool} {ops : List RegOp} (hv : ∀ op ∈ ops, ValidPath K op.path)
    {p : List PStep} (hp : ValidPath K p) {old o : XObj} (hold : (runOps eqv ops).get (p.map PStep.text) none = .ok [old])
    (hne : eqv old o = false) :
    (runOps eqv (ops ++ [.register p o])).get (p.map PStep.text) none = .ok [o] ∧
    ∀ q, ValidPath K q → q ≠ p → (runOps eqv (ops ++ [.register p o])).get (q.map PStep.text) none = (runOps eqv ops).get (q.map PStep.text) none := by
  have ok := runOps_ok (eqv := eqv) hv
  have hr : runOps eqv (ops ++ [.register p o]) = ((runOps eqv ops).register eqv (p.map PStep.text) o).1 := by
    simp [runOps, doOp]
  have ok' : HelperOk K eqv (runOps eqv (ops ++ [.register p o])) (registryAfter (ops ++ [.register p o])) := by
    apply runOps_ok
    intro op hop
    rcases List.mem_append.1 hop with hop | hop
    · exact hv op hop
    · rw [List.mem_singleton.1 hop]; exact hp
  rw [hr] at ok' ⊢
  generalize runOps eqv ops = h at *
  rcases register_cases ok hp.ne hp.good hp.conf o with ⟨e, old', ha, hl, hee, he⟩ | ⟨e, old', ha, hl, hee, he⟩ | ⟨q, s, par, _, hno, _, he⟩ | he
  · have := get_at ok.tree hp.ne hp.good hp.conf none ha hl
    rw [this] at hold
    cases hold
    rw [hne] at hee
    cases hee
  · rw [he] at ok' ⊢
    have hroot := ne_root ok.tree hp.ne ha
    have hat := fun {q y} => at_rePtr (q := q) (y := y) ok.tree (ha.mem ok.tree) hroot h.next
    constructor
    · refine get_at ok'.tree hp.ne hp.good hp.conf none (hat.2 ⟨e, ha, rfl⟩) ?_
      rw [rePtr_ptr (ok.tree.attrs e (ha.mem ok.tree)), if_pos rfl]
      exact Dict.get?_set_self _ _ _
    · intro q hq hqp
      by_cases hex : ∃ x, At h.elems q x
      · obtain ⟨x, hx⟩ := hex
        obtain ⟨_, o', _, ho', _⟩ := ok.abs q x hq.ne hx
        rw [get_at ok.tree hq.ne hq.good hq.conf none hx ho']
        refine get_at ok'.tree hq.ne hq.good hq.conf none (hat.2 ⟨x, hx, rfl⟩) ?_
        have hxe : x ≠ e := by
          rintro rfl
          exact hqp (at_path_unique ok.tree hx ha)
        have hid : x.id ≠ e.id := fun hid => hxe (ok.tree.byId (hx.mem ok.tree) (ha.mem ok.tree) hid)
        have hp2 : x.ptr ≠ e.ptr := fun hp => hxe (nodup_map_inj ok.tree.ptrs (hx.mem ok.tree) (ha.mem ok.tree) hp)
        rw [rePtr_ptr (ok.tree.attrs x (hx.mem ok.tree)), if_neg hid, Dict.get?_set, if_neg (ok.tree.ptr_ne (hx.mem ok.tree) (Nat.le_refl _)),
          get?_dictDel, if_neg hp2]
        exact ho'
      · rw [get_none ok.tree hq.ne hq.good hq.conf none fun x hx => hex ⟨x, hx⟩]
        apply get_none ok'.tree hq.ne hq.good hq.conf none
        intro y hy
        obtain ⟨x, hx, _⟩ := hat.1 hy
        exact hex ⟨x, hx⟩
  · rw [get_none ok.tree hp.ne hp.good hp.conf none hno] at hold
    cases hold
  · rcases pathLookup h ok.tree h.look none hp.ne hp.good hp.conf with ⟨e, ha, hv⟩ | ⟨hno, hv⟩
    · have := (register_step ok hp.ne hp.good hp.conf o).2
      rw [if_pos (.inl ((ok.some_iff hp.ne).2 ⟨e, ha⟩)), he] at this
      cases this
    · rw [get_none ok.tree hp.ne hp.good hp.conf none hno] at hold
      cases hold

/-- C52 is refuted for an object that is `==` to the one that is there: any such registration
changes nothing. -/
theorem C52_equal_unchanged {K : List Str → List Str} {eqv : XObj → XObj → Bool} {ops : List RegOp} (hv : ∀ op ∈ ops, ValidPath K op.path)
    {p : List PStep} (hp : ValidPath K p) {old o : XObj} (hold : (runOps eqv ops).get (p.map PStep.text) none = .ok [old])
    (heq : eqv old o = true) : runOps eqv (ops ++ [.register p o]) = runOps eqv ops := by
  have ok := runOps_ok (eqv := eqv) hv
  have hr : runOps eqv (ops ++ [.register p o]) = ((runOps eqv ops).register eqv (p.map PStep.text) o).1 := by
    simp [runOps, doOp]
  rw [hr]
  rcases register_cases ok hp.ne hp.good hp.conf o with ⟨e, old', ha, hl, hee, he⟩ | ⟨e, old', ha, hl, hee, he⟩ | ⟨q, s, par, _, hno, _, he⟩ | he
  · rw [he]
  · have := get_at ok.tree hp.ne hp.good hp.conf none ha hl
    rw [this] at hold
    cases hold
    rw [heq] at hee
    cases hee
  · rw [get_none ok.tree hp.ne hp.good hp.conf none hno] at hold
    cases hold
  · rcases pathLookup (runOps eqv ops) ok.tree (runOps eqv ops).look none hp.ne hp.good hp.conf with ⟨e, ha, hv⟩ | ⟨hno, hv⟩
    · have := (register_step ok hp.ne hp.good hp.conf o).2
      rw [if_pos (.inl ((ok.some_iff hp.ne).2 ⟨e, ha⟩)), he] at this
      cases this
    · rw [get_none ok.tree hp.ne hp.good hp.conf none hno] at hold
      cases hold

set_option maxRecDepth 4000 in
/-- C52 refuted: the lookup gives the first object, not the second. -/
theorem C52_equal_refuted : (runOps exEqv [.register exIfs ⟨1, py!"x"⟩, .register exIfs ⟨2, py!"x"⟩]).get (exIfs.map PStep.text) none = .ok [⟨1, py!"x"⟩] := by
  decide

set_option maxRecDepth 4000 in
example : (runOps exEqv (exOps.take 4)).get ((exIf py!"lo0").map PStep.text) none = .ok [⟨4, py!"x"⟩] ∧ exEqv ⟨4, py!"x"⟩ ⟨5, py!"y"⟩ = false ∧
    exEqv ⟨4, py!"x"⟩ ⟨5, py!"x"⟩ = true := by decide

/-! ## C53 -/

section
variable {K : List Str → List Str} {eqv : XObj → XObj → Bool}

theorem registry_mem (ops : List RegOp) : ∀ (m : Registry) (q o), ops.foldl regStep m q = some o → m q = some o ∨ .register q o ∈ ops := by
  induction ops with
  | nil => intro m q o h; exact .inl h
  | cons op ops ih =>
    intro m q o h
    rcases ih (regStep m op) q o h with h1 | h1
    · unfold regStep at h1
      split at h1
      · cases op with
        | register p o' =>
          simp only [effect] at h1
          split at h1
          · rename_i hqp
            cases h1
            subst hqp
            exact .inr (by simp)
          · exact .inl h1
        | unregister p =>
          simp only [effect] at h1
          split at h1
          · cases h1
          · exact .inl h1
      · exact .inl h1
    · exact .inr (by simp [h1])

theorem foldl_tight (ops : List RegOp) : ∀ (h : Helper) (m : Registry), HelperOk K eqv h m → LibTight h → (∀ op ∈ ops, ValidPath K op.path) →
    Tidy m ops → LibTight (ops.foldl (fun h op => (doOp eqv h op).1) h) := by
  induction ops with
  | nil => intro h m _ ht _ _; exact ht
  | cons op ops ih =>
    intro h m ok ht hv htd
    obtain ⟨h1, h2, h3⟩ := htd
    have hvp := hv op (by simp)
    obtain ⟨ok', hres⟩ := doOp_step ok hvp
    refine ih _ _ ok' ?_ (fun o ho => hv o (by simp [ho])) h3
    rw [if_pos h1] at hres
    cases op with
    | register p o => exact libTight_register ok ht hvp.ne hvp.good hvp.conf o hres
    | unregister p => exact libTight_unregister ok ht hvp.ne hvp.good hvp.conf (h2 p rfl)

end

/-- C53: if all went well and nothing was taken out with something still below it, each object
held (but that of the root) is found at some path. -/
theorem C53_no_leak_partial {K : List Str → List Str} {eqv : XObj → XObj → Bool} {ops : List RegOp} (hv : ∀ op ∈ ops, ValidPath K op.path)
    (htd : Tidy (fun _ => none) ops) {k : Str} {o : XObj} (hk : (runOps eqv ops).lib.get? k = some o) (hroot : k ≠ py!"root") :
    ∃ q, ValidPath K q ∧ (runOps eqv ops).get (q.map PStep.text) none = .ok [o] := by
  have ok := runOps_ok (eqv := eqv) hv
  have tight : LibTight (runOps eqv ops) := foldl_tight ops _ _ helperOk_new libTight_new hv htd
  rcases tight k o hk with h | ⟨q, e, hq, he, hp⟩
  · exact absurd h hroot
  · obtain ⟨o1, _, hm, _⟩ := ok.abs q e hq he
    rcases registry_mem ops _ q o1 hm with h | h
    · cases h
    · have hvq := hv _ h
      exact ⟨q, hvq, get_at ok.tree hvq.ne hvq.good hvq.conf none he (hp ▸ hk)⟩

example : Tidy (fun _ => none) (exOps.take 4) := by
  refine ⟨?_, ?_, ?_, ?_, ?_, ?_, ?_, ?_, trivial⟩
  all_goals first | (intro p h; cases h) | skip
  all_goals decide

set_option maxRecDepth 4000 in
/-- C53 is refuted: an object below one that is taken out stays in the library, and is not found. -/
theorem C53_children_refuted :
    let h := runOps exEqv [.register exIfs ⟨1, []⟩, .register (exIf py!"lo0") ⟨2, []⟩, .unregister exIfs]
    h.lib = [(py!"root", ⟨0, []⟩), (uuidStr 3, ⟨2, []⟩)] ∧ h.elems.length = 2 ∧ h.get ((exIf py!"lo0").map PStep.text) none = .ok [] := by
  decide

set_option maxRecDepth 4000 in
/-- C53 is refuted: an object whose parent is missing is refused, and stays in the library. -/
theorem C53_failed_refuted :
    (doOp exEqv Helper.new (.register (exIf py!"lo0") ⟨2, []⟩)).2 = .error .xpathError ∧
    (doOp exEqv Helper.new (.register (exIf py!"lo0") ⟨2, []⟩)).1.lib = [(py!"root", ⟨0, []⟩), (uuidStr 1, ⟨2, []⟩)] := by
  decide

/-! ## C55 -/

/-- C55: `get_unique` gives the object if `get` gives just that one. -/
theorem C55_unique (h : Helper) (path : List Str) (caller) (o : XObj) : h.getUnique path caller = .ok o ↔ h.get path caller = .ok [o] := by
  rw [Helper.getUnique]
  rcases hg : h.get path caller with e | ⟨_ | ⟨a, _ | ⟨b, r⟩⟩⟩ <;> simp

/-- C55, else it raises. -/
theorem C55_raises (h : Helper) (path : List Str) (caller) {os : List XObj} (hg : h.get path caller = .ok os) (hn : os.length ≠ 1) :
    h.getUnique path caller = .error .runtimeError := by
  rw [Helper.getUnique, hg]
  match os with
  | [] => rfl
  | [a] => simp at hn
  | _ :: _ :: _ => rfl

/-- C55 for the path of a list without keys, after any history: `get` gives as many objects as
the list has entries; `get_unique` gives one if there is exactly one entry, else it raises. -/
theorem C55_entries_partial {K : List Str → List Str} {eqv : XObj → XObj → Bool} {ops : List RegOp} (hv : ∀ op ∈ ops, ValidPath K op.path)
    {q : List PStep} {tag : Str} (hg : ∀ s ∈ q, s.Good) (hc : Conforms K [] q) (htag : Identifier tag) :
    ((∃ ks, (registryAfter ops (q ++ [⟨tag, ks⟩])).isSome = true ∧ ∀ ks', (registryAfter ops (q ++ [⟨tag, ks'⟩])).isSome = true → ks' = ks) ↔
      ∃ o, (runOps eqv ops).getUnique ((q ++ [(⟨tag, []⟩ : PStep)]).map PStep.text) none = .ok o) ∧
    ((¬ ∃ ks, (registryAfter ops (q ++ [⟨tag, ks⟩])).isSome = true ∧ ∀ ks', (registryAfter ops (q ++ [⟨tag, ks'⟩])).isSome = true → ks' = ks) →
      (runOps eqv ops).getUnique ((q ++ [(⟨tag, []⟩ : PStep)]).map PStep.text) none = .error .runtimeError) := by
  have ok := runOps_ok (eqv := eqv) hv
  generalize runOps eqv ops = h at *
  obtain ⟨es, hes, hnd, hmem⟩ := eval_list ok.tree hg hc htag h.look none
  have hall : ∀ e ∈ es, (h.lib.get? e.ptr).isSome = true := by
    intro e he
    obtain ⟨ks, ha⟩ := (hmem e).1 he
    exact ok.lib e (ha.mem ok.tree)
  obtain ⟨os, hos, hlen, _⟩ := libObjs_all hall
  have hget : h.get ((q ++ [(⟨tag, []⟩ : PStep)]).map PStep.text) none = .ok os := by
    rw [Helper.get, hes]; exact hos
  have hsome : ∀ ks, (registryAfter ops (q ++ [⟨tag, ks⟩])).isSome = true ↔ ∃ e, At h.elems (q ++ [⟨tag, ks⟩]) e := fun ks => ok.some_iff (by simp)
  have key : (∃ ks, (registryAfter ops (q ++ [⟨tag, ks⟩])).isSome = true ∧ ∀ ks', (registryAfter ops (q ++ [⟨tag, ks'⟩])).isSome = true → ks' = ks) ↔
      es.length = 1 := by
    constructor
    · rintro ⟨ks, h1, h2⟩
      obtain ⟨e, he⟩ := (hsome ks).1 h1
      have hm := (hmem e).2 ⟨ks, he⟩
      match es, hm, hnd, hmem with
      | [_], _, _, _ => rfl
      | a :: b :: r, _, hnd, hmem =>
        exfalso
        obtain ⟨ka, hka⟩ := (hmem a).1 (by simp)
        obtain ⟨kb, hkb⟩ := (hmem b).1 (by simp)
        have e1 := h2 ka ((hsome ka).2 ⟨a, hka⟩)
        have e2 := h2 kb ((hsome kb).2 ⟨b, hkb⟩)
        subst e1 e2
        have := at_unique ok.tree hka hkb
        subst this
        simp at hnd
    · intro hl
      match es, hl, hmem with
      | [e], _, hmem =>
        obtain ⟨ks, hks⟩ := (hmem e).1 (by simp)
        refine ⟨ks, (hsome ks).2 ⟨e, hks⟩, fun ks' hs => ?_⟩
        obtain ⟨e', he'⟩ := (hsome ks').1 hs
        have := List.mem_singleton.1 ((hmem e').2 ⟨ks', he'⟩)
        subst this
        have := at_path_unique ok.tree hks he'
        have := (snoc_inj this).2
        injection this with _ h2
        exact h2.symm
  rw [key]
  constructor
  · constructor
    · intro hl
      match os, hlen, hget with
      | [o], _, hget => exact ⟨o, (C55_unique _ _ _ _).2 hget⟩
      | [], hlen, _ => rw [hl] at hlen; simp at hlen
      | _ :: _ :: _, hlen, _ => rw [hl] at hlen; simp at hlen
    · rintro ⟨o, ho⟩
      have := (C55_unique _ _ _ _).1 ho
      rw [hget] at this
      cases this
      exact hlen.symm
  · intro hl
    exact C55_raises _ _ _ hget (by rw [hlen]; exact hl)

set_option maxRecDepth 4000 in
example : (registryAfter exOps (exIfs ++ [⟨py!"if", [(py!"name", py!"lo0")]⟩])).isSome = true ∧
    (runOps exEqv exOps).getUnique ((exIfs ++ [(⟨py!"if", []⟩ : PStep)]).map PStep.text) none = .ok ⟨4, py!"x"⟩ ∧
    (runOps exEqv (exOps.take 4)).getUnique ((exIfs ++ [(⟨py!"if", []⟩ : PStep)]).map PStep.text) none = .error .runtimeError := by decide

/-! ## C56 -/

/-- C56: the step made for a list entry is read as the list's name and the keys. -/
theorem C56_predicate_partial {s : PStep} (h : s.Good) (hne : s.keys ≠ []) : tagAttrs (s.tag ++ keyString s.keys) = .ok (s.tag, some s.keys) :=
  tagAttrs_keys (good_tag h) h.keysOk hne

/-- C56 for the step made when an entry is deleted, if the last key does not end in `[`. -/
theorem C56_delete_partial {s : PStep} (h : s.Good) (hne : s.keys ≠ []) (hlast : ∀ l, s.keys.getLast? = some l → l.2.getLast? ≠ some '[') :
    tagAttrs (s.tag ++ keyStringDel s.keys) = .ok (s.tag, some s.keys) :=
  tagAttrs_del (good_tag h) h.keysOk hne hlast

example : (∀ s ∈ exUnit, s.Good) ∧ (⟨py!"unit", [(py!"index", py!"3"), (py!"type", py!"v.4")]⟩ : PStep) ∈ exUnit ∧
    keyString [(py!"index", py!"3"), (py!"type", py!"v.4")] = py!"[index='3' type='v.4']" ∧
    keyStringDel [(py!"index", py!"3"), (py!"type", py!"v.4")] = py!"[index=3 type=v.4]" := ⟨exUnit_valid.good, by simp [exUnit], by decide, by decide⟩

/-- C56 is refuted: a key value with a space in it cannot be read, one with `]` gives another
value, one with `||` raises. -/
theorem C56_predicate_refuted :
    tagAttrs (py!"user" ++ keyString [(py!"name", py!"John Doe")]) = .error .xpathError ∧
    tagAttrs (py!"user" ++ keyString [(py!"name", py!"a^b")]) = .error .xpathError ∧
    tagAttrs (py!"user" ++ keyString [(py!"name", py!"a]b")]) = .ok (py!"user[name='a]b']", none) ∧
    tagAttrs (py!"user" ++ keyString [(py!"name", py!"a||b")]) = .error .valueError ∧
    tagAttrs (py!"user" ++ keyString [(py!"name", py!"")]) = .error .xpathError ∧
    tagAttrs (py!"user" ++ keyStringDel [(py!"name", py!"a[")]) = .ok (py!"user", some [(py!"name", py!"a")]) := by
  refine ⟨by decide, by decide, by decide, by decide, by decide, by decide⟩

/-! ## C50 -/

/-- C50: the steps of a path are found again, if quoted texts have no brackets. -/
theorem C50_split_partial {ss : List (List SPart)} (hne : ss ≠ []) (h : ∀ ps ∈ ss, ∀ p ∈ ps, OuterPart p ∧ NoQuotedBrackets p) :
    pathParts (joinSlash (ss.map stepText)) = ss.map stepText := by
  rw [pathParts, go_join ss [] hne h]
  cases ss with
  | nil => exact absurd rfl hne
  | cons s ss => simp

/-- `a[b="x/y"]`, `c"/"`, `d[e/f='g']`. -/
def exSteps : List (List SPart) :=
  [[.chars py!"a", .pred [.chars py!"b=", .quoted py!"x/y"]], [.chars py!"c", .quoted py!"/"], [.chars py!"d", .pred [.chars py!"e/f='g'"]]]

example : (∀ ps ∈ exSteps, ∀ p ∈ ps, OuterPart p ∧ NoQuotedBrackets p) ∧
    joinSlash (exSteps.map stepText) = py!"a[b=\"x/y\"]/c\"/\"/d[e/f='g']" := by
  constructor
  · intro ps hps p hp
    simp only [exSteps, List.mem_cons, List.not_mem_nil, or_false] at hps
    rcases hps with rfl | rfl | rfl
    all_goals
      simp only [List.mem_cons, List.not_mem_nil, or_false] at hp
      rcases hp with rfl | rfl
    all_goals simp [OuterPart, NoQuotedBrackets, InnerPart]
  · decide

/-- C50 is refuted: a quoted bracket ends the predicate, `a[b="]" or c/d]`. -/
theorem C50_split_refuted :
    let s : List SPart := [.chars py!"a", .pred [.chars py!"b=", .quoted py!"]", .chars py!" or c/d"]]
    (∀ p ∈ s, OuterPart p) ∧ pathParts (joinSlash [stepText s]) = [py!"a[b=\"]\" or c", py!"d]"] := by
  refine ⟨?_, by decide⟩
  intro p hp
  simp only [List.mem_cons, List.not_mem_nil, or_false] at hp
  rcases hp with rfl | rfl <;> simp [OuterPart, InnerPart]

/-! ## C54 -/

theorem refFound_iff {objs : List RefObj} (h : objs.length = 1 ∨ ∀ o ∈ objs, ∀ es, o.kind ≠ .leafList es) (value : Str) :
    refFound objs value = true ↔ Referenced objs value := by
  have many : (∀ o ∈ objs, ∀ es, o.kind ≠ .leafList es) → (objs.any (·.text = value) = true ↔ Referenced objs value) := by
    intro h
    simp only [List.any_eq_true, decide_eq_true_eq, Referenced]
    constructor
    · rintro ⟨o, ho, he⟩
      refine ⟨o, ho, ?_⟩
      have := h o ho
      unfold refValues
      split
      · rename_i es hk; exact absurd hk (this es)
      · simp [he]
    · rintro ⟨o, ho, he⟩
      refine ⟨o, ho, ?_⟩
      have := h o ho
      unfold refValues at he
      split at he
      · rename_i es hk; exact absurd hk (this es)
      · exact (List.mem_singleton.1 he).symm
  unfold refFound
  match objs, h, many with
  | [], _, _ => simp [Referenced]
  | [⟨b, .leaf, t⟩], _, _ => simp [Referenced, refValues, eq_comm]
  | [⟨b, .list, t⟩], _, _ => simp [Referenced, refValues, eq_comm]
  | [⟨b, .leafList es, t⟩], _, _ => simp [Referenced, refValues]
  | a :: b :: r, .inr h, many => exact many h
  | a :: b :: r, .inl h, _ => simp at h

/-- C54, with a path helper, when the path does not lead to one single leaf that is not a
list key, nor to several leaf-lists: assignment works exactly if require-instance is false or
the value is there; it then keeps the value and writes nothing elsewhere. -/
theorem C54_require_partial {h : Helper} {info : XObj → RefObj} {setT} {req : Bool} {path : Str} {caller} {value : Str} {xs : List XObj}
    (hx : h.getStr path caller = .ok xs) (hptr : ¬ SingleLeaf (xs.map info))
    (hll : xs.length = 1 ∨ ∀ x ∈ xs, ∀ es, (info x).kind ≠ .leafList es) :
    (req = false ∨ Referenced (xs.map info) value → refInit (some h) info setT req path caller value = .ok (.value value, none)) ∧
    (¬ (req = false ∨ Referenced (xs.map info) value) → refInit (some h) info setT req path caller value = .error .valueError) := by
  have hll' : (xs.map info).length = 1 ∨ ∀ o ∈ xs.map info, ∀ es, o.kind ≠ .leafList es := by
    rcases hll with h | h
    · exact .inl (by simpa using h)
    · refine .inr fun o ho => ?_
      obtain ⟨x, hx, rfl⟩ := List.mem_map.1 ho
      exact h x hx
  have hf := refFound_iff hll' value
  have key : refInit (some h) info setT req path caller value =
      if req && !refFound (xs.map info) value then .error .valueError else .ok (.value value, none) := by
    simp only [refInit, hx]
    split
    · rename_i o ho
      rw [if_neg]
      intro hc
      apply hptr
      refine ⟨o, ho, ?_, ?_⟩
      · simp at hc; exact hc.1
      · simp [RefObj.isList] at hc
        cases hk : o.kind <;> simp [hk] at hc ⊢
    · rfl
  rw [key]
  constructor
  · rintro (h | h)
    · simp [h]
    · simp [hf.2 h]
  · intro hn
    have hr : req = true := by
      cases req with
      | true => rfl
      | false => exact absurd (.inl rfl) hn
    have : refFound (xs.map info) value = false := by
      apply Bool.eq_false_iff.2
      intro h
      exact hn (.inr (hf.1 h))
    simp [hr, this]

/-- Two interfaces, whose names are keys. -/
def exInfo : XObj → RefObj := fun o => ⟨true, .leaf, o.text⟩

def exNames : Helper := runOps exEqv
  [.register [⟨py!"ref", []⟩] ⟨9, []⟩, .register exIfs ⟨1, []⟩, .register (exIf py!"e0") ⟨2, py!"e0"⟩, .register (exIf py!"e0" ++ [⟨py!"name", []⟩]) ⟨3, py!"e0"⟩,
   .register (exIf py!"e1") ⟨4, py!"e1"⟩, .register (exIf py!"e1" ++ [⟨py!"name", []⟩]) ⟨5, py!"e1"⟩]

set_option maxRecDepth 8000 in
example : exNames.getStr py!"/ifs/if/name" (some [py!"ref"]) = .ok [⟨3, py!"e0"⟩, ⟨5, py!"e1"⟩] ∧
    ¬ SingleLeaf ([⟨3, py!"e0"⟩, ⟨5, py!"e1"⟩].map exInfo) ∧
    refInit (some exNames) exInfo (fun _ => .ok ()) true py!"../ifs/if/name" (some [py!"ref"]) py!"e1" = .ok (.value py!"e1", none) ∧
    refInit (some exNames) exInfo (fun _ => .ok ()) true py!"../ifs/if/name" (some [py!"ref"]) py!"e2" = .error .valueError := by
  refine ⟨by decide, ?_, by decide, by decide⟩
  rintro ⟨o, h, _⟩
  simp at h

set_option maxRecDepth 4000 in
/-- C54 is refuted: if the path leads to one leaf that is not a list key, a value that is not
there is taken, and written to that leaf. -/
theorem C54_pointer_refuted :
    let h := runOps exEqv [.register exIfs ⟨1, py!"old"⟩]
    let info : XObj → RefObj := fun o => ⟨false, .leaf, o.text⟩
    ¬ Referenced ([⟨1, py!"old"⟩].map info) py!"new" ∧ h.getStr py!"/ifs" none = .ok [⟨1, py!"old"⟩] ∧
    refInit (some h) info (fun _ => .ok ()) true py!"/ifs" none py!"new" = .ok (.pointer, some py!"new") := by
  refine ⟨by simp [Referenced, refValues], by decide, by decide⟩

set_option maxRecDepth 4000 in
/-- C54 is refuted: if the path leads to several leaf-lists, a value of one of them is refused. -/
theorem C54_leaflists_refuted :
    let h := runOps exEqv [.register exIfs ⟨0, []⟩, .register (exIf py!"a") ⟨1, py!"['x']"⟩, .register (exIf py!"b") ⟨2, py!"['y']"⟩]
    let info : XObj → RefObj := fun o => ⟨false, .leafList [o.text.drop 2 |>.take 1], o.text⟩
    h.getStr py!"/ifs/if" none = .ok [⟨1, py!"['x']"⟩, ⟨2, py!"['y']"⟩] ∧ Referenced ([⟨1, py!"['x']"⟩, ⟨2, py!"['y']"⟩].map info) py!"x" ∧
    refInit (some h) info (fun _ => .ok ()) true py!"/ifs/if" none py!"x" = .error .valueError := by
  refine ⟨by decide, ?_, by decide⟩
  simp [Referenced, refValues]

/-- C54 is refuted: without a path helper any value is taken. -/
theorem C54_no_helper_refuted (info : XObj → RefObj) (setT) (path : Str) (caller) (value : Str) :
    refInit none info setT true path caller value = .ok (.value value, none) := rfl

end Pyb
