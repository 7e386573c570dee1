import Verif.Lemmas.LoadedCheck
import Verif.Props.JsonUnknown

/-! # A loaded document is in the tree (C77) -/

namespace Pyb
open Py Spec

theorem root_cont {g : LoadOpt} {kids : List (Meta × Schema)} {ns : List Inst} (ms : List (Str × J)) :
    ∃ ch pr ns', (ietfMembers g false (rootCls kids) [] none (rootObj ns) ms).inst = .cont ch pr ns' := by
  suffices ∀ n : Inst, (∃ ch pr ns, n = .cont ch pr ns) → ∃ ch pr ns', (ietfMembers g false (rootCls kids) [] none n ms).inst = .cont ch pr ns' from
    this _ ⟨_, _, _, rfl⟩
  induction ms with
  | nil => intro n hn; rw [members_nil']; exact hn
  | cons x ms ih =>
    rintro n ⟨ch, pr, ns, rfl⟩
    rw [members_cons]
    have hw : ∃ ch' pr' ns', (if '@' ∈ x.1 then Out.same (.cont ch pr ns) else withKid false (rootCls kids) none (.cont ch pr ns) (localKey x.1)
        (ietfUnknown g.skip (.cont ch pr ns) x.2) fun i k c => ietfChild g k.2 k.1.choice (([] : List Nat).contains i) c x.2).inst = .cont ch' pr' ns' := by
      split
      · exact ⟨_, _, _, rfl⟩
      · simp only [withKid]
        split
        · exact ⟨ch, pr, ns, ietfUnknown_inst⟩
        · split
          · rename_i k ch' pr' ns' _ e
            split
            · exact ⟨_, _, _, rfl⟩
            · exact ⟨_, _, _, rfl⟩
          · exact ⟨_, _, _, rfl⟩
    unfold Out.andThen
    split
    · exact hw
    · exact ih _ hw

theorem obj_kids {n : Inst} {ch pr : Bool} {ns : List Inst} (h : n = .cont ch pr ns) {s : Step} {p : Path} :
    objAt n.kids (s :: p) = nodeAt n (s :: p) := by
  subst h
  cases s <;> simp [objAt, Inst.kids, nodeAt_cont, nodeAt_cont_key]

/-- C77: if a document is loaded without an exception (and without `overwrite`), every leaf
and leaf-list it gives a value for holds that value, as if it had been assigned.

Missing: lists without key; documents that contradict themselves (two values for the same
leaf, two cases of a choice) and lists with several keys the last of which is empty or ends
with a space; the values that are silently ignored (refuted below). -/
theorem C77_ietf_values_partial (g : LoadOpt) (hov : g.over = false) (kids : List (Meta × Schema)) (hf : ApartRoot kids)
    (hO : Orderly (rootCls kids)) (hK : Keyed (rootCls kids)) (ns ns' : List Inst) (doc : J)
    (hl : ¬ Loose g.repr (rootCls kids) doc) (hc : ¬ Contradicts g.repr (rootCls kids) doc)
    (h : ietfLoad g kids ns doc = (ns', none)) (p : Path) (x : J) (hs : Says g.repr (rootCls kids) doc p x) (hx : ¬ Ignored x) :
    ∃ T n, clsAt kids p = some T ∧ objAt ns' p = some n ∧ HoldsDoc g.repr T x n := by
  cases hs with
  | @field _ _ ms y i k p _ h1 h2 h3 h4 =>
    simp only [ietfLoad, Prod.mk.injEq] at h
    obtain ⟨rfl, he⟩ := h
    obtain ⟨ch, pr, ns1, e1⟩ := root_cont (g := g) (kids := kids) (ns := ns) ms
    have hmem := List.mem_of_getElem? h3
    have hkf := hf k hmem
    obtain ⟨T, m, g1, g2, g3⟩ := ietfMembers_post (st := false) (own := none) (above := []) (keys := []) (po := none) (wrapped := false) (pres := false) (v := x) (p := p) hO.1
      (fun h => by simp at h) h3 (fun z hz _ b c m g1 g2 g3 => by
        obtain ⟨T, hT⟩ := says_schema h4
        exact (ietf_frame g hov z.2).1 _ _ k.2 b c p m T hkf (orderly_kid hO.2 hmem) (keyed_kid hK h3) hT g2 g1 g3) hl hc h1 h2 (by simp)
      (fun c h5 => (ietf_post g hov y.2).1 _ _ k.2 c p x hkf (orderly_kid hO.2 hmem) (keyed_kid hK h3) (fun h => hl (.inside h1 h2 h3 h))
          (fun h => hc (.inside h1 h2 h3 h)) h4 hx h5) he
    refine ⟨T, m, g1, ?_, g3⟩
    rw [obj_kids e1]
    exact g2

/-- C77: what the document does not concern is the same as before, also if there is an
exception. -/
theorem C77_ietf_rest_partial (g : LoadOpt) (hov : g.over = false) (kids : List (Meta × Schema)) (hf : ApartRoot kids)
    (hO : Orderly (rootCls kids)) (hK : Keyed (rootCls kids)) (ns : List Inst) (doc : J) (hl : ¬ Loose g.repr (rootCls kids) doc)
    (p : Path) (T : Schema) (n : Inst) (hT : clsAt kids p = some T) (hc : ¬ Concerns g.repr (rootCls kids) doc p)
    (hn : objAt ns p = some n) : objAt (ietfLoad g kids ns doc).1 p = some n := by
  cases doc with
  | obj ms =>
    obtain ⟨ch, pr, ns1, e1⟩ := root_cont (g := g) (kids := kids) (ns := ns) ms
    cases p with
    | nil => exact absurd .here hc
    | cons s p =>
    simp only [ietfLoad]
    rw [obj_kids e1]
    cases s with
    | key k => simp [clsAt, schemaAt] at hT
    | field i =>
      have hT' : schemaAt (.cont false kids) (.field i :: p) = some T := hT
      rw [schemaAt_cont] at hT'
      cases hk : kids[i]? with
      | none => simp [hk] at hT'
      | some k =>
        rw [hk] at hT'
        have hmem := List.mem_of_getElem? hk
        exact ietfMembers_frame (st := false) (own := none) (above := []) hO.1 (fun h => by simp at h) hk (fun z hz _ b c g1 g2 g3 =>
          (ietf_frame g hov z.2).1 _ _ k.2 b c p n T (hf k hmem) (orderly_kid hO.2 hmem) (keyed_kid hK hk) hT' g2 g1 g3) hl hc hn
  | _ => exact hn

/-! ## Values encoded as RFC 7951 says -/

theorem sent_unique {repr : J → Str} {yt : Str} {x : J} {u v : PyVal} (h1 : Sent repr yt x u) (h2 : Sent repr yt x v) : u = v := by
  cases h1 with
  | plain a b => cases h2 <;> first | rfl | contradiction
  | empty a => cases h2 with
    | plain b c => exact absurd a b
    | empty => rfl
    | array b => rw [a] at b; exact absurd b (by decide)
  | name a b => cases h2 with
    | plain c d => exact absurd a d
    | name => rfl
    | qualified c d => simp at b
  | @qualified m s a b =>
    generalize hz : J.str (m ++ ':' :: s) = z at h2
    cases h2 with
    | plain c d => exact absurd a d
    | empty => simp at hz
    | name c d => simp only [J.str.injEq] at hz; subst hz; simp at d
    | @qualified m' s' c d =>
      simp only [J.str.injEq] at hz
      have : ∀ (m m' : Str), ':' ∉ m → ':' ∉ m' → m ++ ':' :: s = m' ++ ':' :: s' → s = s' := by
        intro m
        induction m with
        | nil =>
          intro m' _ h2 h
          cases m' with
          | nil => simpa using h
          | cons c m' => simp at h h2; exact absurd h.1 h2.1
        | cons c m ih =>
          intro m' h1 h2 h
          cases m' with
          | nil => simp at h h1; exact absurd h.1.symm h1.1
          | cons c' m' =>
            simp only [List.cons_append, List.cons.injEq] at h
            exact ih m' (by simp at h1; exact h1.2) (by simp at h2; exact h2.2) h.2
      rw [this m m' b d hz]
    | array => simp at hz
  | array a => cases h2 with
    | plain c d => exact absurd a d
    | empty c => rw [a] at c; exact absurd c (by decide)
    | array => rfl

/-- C77: values encoded as RFC 7951 says are read as the value they stand for. -/
theorem C77_rfc7951_partial (rx : Str → Str → Bool) (repr : J → Str) (mod : Str) (t : YTy) (d : Option PyVal) (v : PyVal) (x : J) (n : Inst)
    (h : Stored rx t v) (hw : EncodedWell t v) (hx : Rfc7951 mod t v x) (hn : HoldsDoc repr (.leaf (t.cls rx d)) x n) :
    n = .leaf v true := by
  obtain ⟨u, w, h1, h2, rfl⟩ := hn
  by_cases ht : ∃ nm y, t = .ext nm y
  · obtain ⟨nm, y, rfl⟩ := ht
    have ext : ∀ s, x = .str s → y.call (.str s) = .ok v → Inst.leaf w true = .leaf v true := by
      rintro s rfl hc
      obtain ⟨hv, _⟩ := h
      cases hv with
      | ext _ _ o ha hv =>
        obtain ⟨e1, e2⟩ := ext_names ha
        have := sent_unique h1 (.plain e1 e2)
        subst this
        have e3 := ext_set (rx := rx) (name := nm) (d := d) hc
        rw [show (YTy.cls rx (.ext nm y) d).set (jPy repr (.str s)) = _ from e3] at h2
        injection h2 with h2
        rw [h2]
    obtain ⟨hv, hv'⟩ := h
    cases hv with
    | ext _ _ _ ha hv =>
      cases hx with
      | dec nm fd z s h3 h4 =>
        refine ext s rfl ?_
        have e := ext_call_same hv (by simp)
        simp only [ExtTy.call, toDecimal, h4] at e ⊢
        exact e
      | bin nm b => exact ext _ rfl (ext_call_text hv)
      | bits nm allowed ns ns' hp => exact ext _ rfl (ext_call_bits hv hp)
  obtain ⟨j, j', _, h4, h5, h6⟩ := C46_encoding_partial rx repr mod t d v h hw
  have hi : ¬ Ignored j := by cases h4 <;> simp [Ignored]
  have h7 := (ietfVal_sent (repr := repr) h5 hi).1
  suffices u = jPy repr j' by
    rw [this, h6] at h2
    injection h2 with h2
    rw [h2]
  cases hx with
  | small a b c n hlt => cases h4 with
    | small => exact sent_unique h1 h7
    | large a b c n hlt' => exact absurd hlt' hlt
  | large a b c n hlt => cases h4 with
    | small a b c n hlt' => exact absurd hlt hlt'
    | large => exact sent_unique h1 h7
  | str => cases h4; exact sent_unique h1 h7
  | bool => cases h4; exact sent_unique h1 h7
  | empty => cases h4; exact sent_unique h1 h7
  | dec => exact absurd ⟨_, _, rfl⟩ ht
  | bin => exact absurd ⟨_, _, rfl⟩ ht
  | bits => exact absurd ⟨_, _, rfl⟩ ht
  | ident name ids s m hm =>
    have hy : ((YTy.ident name ids).cls rx d).yangType = py!"identityref" := hw.1
    rw [hy] at h1 h7
    obtain ⟨hv, _⟩ := h
    cases hv with
    | ident _ _ _ ha hs hc hmod =>
      have hcol : ∀ m, ids.lookup s = some m → ':' ∉ m := fun m hm => hmod (s, m) (List.lookup_eq_some_iff.1 hm |> fun ⟨a, b, e, _⟩ => by simp [e])
      have e1 := sent_unique h1 (.qualified rfl (hcol m hm))
      have e2 : jPy repr j' = .str s := by
        cases h4 with
        | ident _ _ _ m' hm' => exact sent_unique h7 (.qualified rfl (hcol m' hm'))
        | identHere => exact sent_unique h7 (.name rfl hc)
      rw [e1, e2]
  | identHere name ids s hm =>
    have hy : ((YTy.ident name ids).cls rx d).yangType = py!"identityref" := hw.1
    rw [hy] at h1 h7
    obtain ⟨hv, _⟩ := h
    cases hv with
    | ident _ _ _ ha hs hc hmod =>
      have hcol : ∀ m, ids.lookup s = some m → ':' ∉ m := fun m hm => hmod (s, m) (List.lookup_eq_some_iff.1 hm |> fun ⟨a, b, e, _⟩ => by simp [e])
      have e1 := sent_unique h1 (.name rfl hc)
      have e2 : jPy repr j' = .str s := by
        cases h4 with
        | ident _ _ _ m' hm' => exact sent_unique h7 (.qualified rfl (hcol m' hm'))
        | identHere => exact sent_unique h7 (.name rfl hc)
      rw [e1, e2]

/-! ## The example -/

def newDoc : J :=
  .obj [(py!"m:c", .obj
    [(py!"b", .bool true), (py!"i", .str py!"n:red"), (py!"p", .obj [(py!"y", .num 4)]),
     (py!"l", .arr [.obj [(py!"k", .str py!"y"), (py!"z", .num 7)], .obj [(py!"z", .num 9), (py!"k", .str py!"w")]]),
     (py!"v", .arr [.str py!"5", .str py!"6"])])]

/-- Before the load: `a` (the other case) and `e` are set, entries `x` and `y`. -/
def oldTree : List Inst := history jsonKids (freshKids jsonKids)
  [([.field 0, .field 0], .set (.int 1) false), ([.field 0, .field 3], .set (.bool true) false), ([.field 0, .field 5], .add (.str py!"x")),
   ([.field 0, .field 5, .key (.str py!"x"), .field 1], .set (.int 50) false), ([.field 0, .field 5], .add (.str py!"y"))]

theorem json_keyed : Keyed (rootCls jsonKids) := by
  simp only [rootCls, jsonKids, keyed_cont, List.forall_mem_cons, List.not_mem_nil, false_implies, implies_true, and_true, jsonC, keyed_list]
  exact ⟨keyed_leaf _, keyed_leaf _, keyed_leaf _, keyed_leaf _, keyed_leaf _, ⟨by simp, by simp only [jsonL, List.forall_mem_cons, List.not_mem_nil, false_implies, implies_true, and_true]; exact ⟨keyed_leaf _, keyed_leaf _⟩⟩, keyed_leafList _⟩

example : (ietfLoad demoLoad jsonKids oldTree newDoc).2 = none := rfl
example : ¬ Loose demoLoad.repr (rootCls jsonKids) newDoc ∧ ¬ Contradicts demoLoad.repr (rootCls jsonKids) newDoc :=
  tidy_ok json_orderly (by decide)
theorem saysField {repr : J → Str} {pres : Bool} {kids : List (Meta × Schema)} {ms : List (Str × J)} {p : Path} {v : J} (a i : Nat) {x : Str × J}
    {k : Meta × Schema} (hx : ms[a]? = some x) (hk : kids[i]? = some k) (hat : '@' ∉ x.1) (hn : safeName k.1.name = safeName (Spec.localName x.1))
    (h : Says repr k.2 x.2 p v) : Says repr (.cont pres kids) (.obj ms) (.field i :: p) v :=
  .field (List.mem_of_getElem? hx) ⟨hat, k, hk, hn⟩ hk h

theorem saysEntry {repr : J → Str} {info : ListInfo} {kids : List (Meta × Schema)} {xs : List J} {i : Nat} {p : Path} {v : J} {k : PyVal} (a : Nat) {x : J}
    (hx : xs[a]? = some x) (hk : docKey repr info kids x = some k) (hi : i ∉ info.keys)
    (h : Says repr (.cont false kids) x (.field i :: p) v) : Says repr (.list info kids) (.arr xs) (.key k :: .field i :: p) v :=
  .entry (List.mem_of_getElem? hx) hk hi h

theorem new_says : Says demoLoad.repr (rootCls jsonKids) newDoc [.field 0, .field 5, .key (.str py!"w"), .field 1] (.num 9) :=
  saysField 0 0 rfl rfl (by decide) (by decide) (saysField 3 5 rfl rfl (by decide) (by decide)
    (saysEntry 1 rfl rfl (by decide) (saysField 0 1 rfl rfl (by decide) (by decide) .leaf)))

example : ∃ n, objAt (ietfLoad demoLoad jsonKids oldTree newDoc).1 [.field 0, .field 5, .key (.str py!"w"), .field 1] = some n ∧
    HoldsDoc demoLoad.repr (.leaf (tPercent.cls noRx)) (.num 9) n := by
  have ht := tidy_ok (repr := demoLoad.repr) (j := newDoc) json_orderly (by decide)
  obtain ⟨T, n, h1, h2, h3⟩ := C77_ietf_values_partial demoLoad rfl jsonKids json_flat.apart json_orderly json_keyed oldTree _ newDoc ht.1 ht.2 rfl _ _
    new_says (by simp [Ignored])
  obtain rfl : T = .leaf (tPercent.cls noRx) := (Option.some.inj h1).symm
  exact ⟨n, h2, h3⟩

/-- The document does not concern the entry `x`. -/
theorem new_spares : ¬ Concerns demoLoad.repr (rootCls jsonKids) newDoc [.field 0, .field 5, .key (.str py!"x"), .field 1] :=
  spares_of json_orderly (by decide)

example : objAt (ietfLoad demoLoad jsonKids oldTree newDoc).1 [.field 0, .field 5, .key (.str py!"x"), .field 1] = some (.leaf (.int 50) true) :=
  C77_ietf_rest_partial demoLoad rfl jsonKids json_flat.apart json_orderly json_keyed oldTree newDoc
    (tidy_ok json_orderly (by decide)).1 _ _ _ rfl new_spares rfl

/-! ## Where it fails -/

/-- C77 fails for `null`, `[]` and an object without members in the place of a value: they
are accepted, and nothing is set. -/
theorem C77_ignored_refuted :
    ietfLoad demoLoad jsonKids (freshKids jsonKids) (.obj [(py!"m:c", .obj [(py!"a", .null), (py!"i", .arr []), (py!"e", .obj [])])]) =
      (freshKids jsonKids, none) := rfl

/-- A number in the place of a list is accepted, and empties the list. -/
theorem C77_list_emptied_refuted :
    (objAt oldTree [.field 0, .field 5, .key (.str py!"x"), .field 1] = some (.leaf (.int 50) true)) ∧
    (ietfLoad demoLoad jsonKids oldTree (.obj [(py!"m:c", .obj [(py!"l", .num 1)])])).2 = none ∧
    objAt (ietfLoad demoLoad jsonKids oldTree (.obj [(py!"m:c", .obj [(py!"l", .num 1)])])).1 [.field 0, .field 5] = some (.list true []) :=
  ⟨rfl, rfl, rfl⟩

/-- A list with two keys. -/
def pairKids : List (Meta × Schema) :=
  [(inM py!"l", .list { keys := [0, 1] } [(inM py!"k", .leaf (tStr.cls noRx)), (inM py!"q", .leaf (tStr.cls noRx)), (inM py!"z", .leaf (tPercent.cls noRx))])]

def pairDoc (z : Int) : J := .obj [(py!"m:l", .arr [.obj [(py!"k", .str py!"a"), (py!"q", .str []), (py!"z", .num z)]])]

/-- C77 fails if the last of several keys is empty: the entry is made, but then not found,
and a document for it raises an exception. -/
theorem C77_last_key_refuted :
    (ietfLoad demoLoad pairKids (freshKids pairKids) (pairDoc 1)).2 = none ∧
    (ietfLoad demoLoad pairKids (ietfLoad demoLoad pairKids (freshKids pairKids) (pairDoc 1)).1 (pairDoc 2)).2 = some .keyError := ⟨rfl, rfl⟩

end Pyb
