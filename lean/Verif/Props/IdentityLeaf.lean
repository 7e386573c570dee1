import Verif.Lemmas.IdentityLeaf
import Verif.Model.IdentityLeaf
import Verif.Spec.IdentityLeaf
import Verif.Props.Identity
import Verif.Props.Xml

/-! # Identities in documents (C78) -/

namespace Pyb
open Py Spec

theorem lookup_map {β γ : Type} (f : β → γ) (y : Str) (e : List (Str × β)) : (e.map fun q => (q.1, f q.2)).lookup y = (e.lookup y).map f := by
  induction e with
  | nil => rfl
  | cons q e ih =>
    obtain ⟨a, b⟩ := q
    simp only [List.map_cons, List.lookup_cons]
    cases y == a <;> simp [ih]

section
variable {mods : List (List (Str × Str))} {defs : List IdDef} {fuel : Nat} {t : IdStore}

/-- The dictionary of a base: the module and namespace of each identity. -/
theorem dict_value (ho : OneEach defs) (hb : BasesOk defs) (h : buildStore fuel mods defs = some (.ok t)) {b : IdDef} (hd : b ∈ defs)
    {x : Str} (hx : Spelling mods b x) (hu : ∀ d' ∈ defs, Spelling mods d' x → d'.mod = b.mod ∧ d'.name = b.name) :
    ∃ e, (identityDict t).get? x = some e ∧ (∀ y, e.has y = true ↔ ∃ c, NamesId mods defs b y c) ∧
      ∀ y v, e.get? y = some v → ∃ c, NamesId mods defs b y c ∧ v = (c.mod, c.ns) := by
  obtain ⟨e, h1, h2⟩ := dict_entry ho hb h hd hx hu
  refine ⟨e, h1, h2, ?_⟩
  obtain ⟨_, hr, hn, h3, h4, h5⟩ := buildStore_spec ho hb h
  cases hr
  obtain ⟨i, hi, hir⟩ := List.mem_map.1 (h3 b hd)
  have hpi : ∀ j ∈ t, j.prefixes ≠ [] := by
    intro j hj
    obtain ⟨e, he, _, h6, _⟩ := h4 j hj
    intro hnil
    have := (newIdent_known mods e e.mod).2 (.inl rfl)
    rw [← h6, hnil] at this
    simp at this
  have same : i.prefixes = (newIdent (importPrefixes mods) b).prefixes := by
    obtain ⟨e', he', h6, h7, _⟩ := h4 i hi
    have := ho e' he' b hd (congrArg Prod.fst (h6.trans hir)) (congrArg Prod.snd (h6.trans hir))
    exact this ▸ h7
  have he : (identityDict t).get? x = some (spells t i) := by
    refine identityDict_get t hpi i hi x ((keyOf_spelling hir.symm same x).2 hx) ?_
    intro j hj hne hk
    obtain ⟨e, he, h6, h7, _⟩ := h4 j hj
    have h8 := hu e he ((keyOf_spelling h6 h7 x).1 hk)
    have hji : j.ref = i.ref := by rw [← h6, hir]; exact Prod.ext h8.1 h8.2
    have a := findId_mem hn hj
    have b := findId_mem hn hi
    rw [hji, b] at a
    cases a
    exact hne rfl
  rw [h1] at he
  obtain rfl := Option.some.inj he
  intro y v hv
  obtain ⟨c, hc, ch, h6, h7, rfl⟩ := spells_get hv
  obtain ⟨hch, rfl⟩ := findId_some h6
  obtain ⟨e, he, h8, h9, h10⟩ := h4 ch hch
  refine ⟨e, ⟨he, ?_, (keyOf_spelling h8 h9 y).1 h7⟩, ?_⟩
  · have := (h5 i hi ch.ref).1 hc
    rw [hir, ← h8] at this
    exact this
  · have a : ch.mod = e.mod := congrArg Prod.fst h8.symm
    rw [a, h10]

theorem derived_ok {mods : List (List (Str × Str))} {defs : List IdDef} {b c : IdDef} {y : Str} (h : NamesId mods defs b y c) (z : Str) (hz : Spelling mods c z) :
    NamesId mods defs b z c := ⟨h.1, h.2.1, hz⟩

/-- What is known of the class of the leaf: it takes the texts that stand for identities
derived from the base, and knows their modules. -/
theorem identTy_of (rx : Str → Str → Bool) (ho : OneEach defs) (hb : BasesOk defs) (h : buildStore fuel mods defs = some (.ok t))
    (hat : ∀ d ∈ defs, ∀ x, Spelling mods d x → startsWith x py!"@" = false) {b : IdDef} (hd : b ∈ defs)
    {x : Str} (hx : Spelling mods b x) (hu : ∀ d' ∈ defs, Spelling mods d' x → d'.mod = b.mod ∧ d'.name = b.name) :
    ∃ e, (identityDict t).get? x = some e ∧
      (∀ dflt y c, NamesId mods defs b y c → ((identTy e).cls rx dflt).set (.str y) = .ok (.str y)) ∧
      (∀ y c, NamesId mods defs b y c → ClearId mods defs b y c → (identTy e).ser.idents.lookup y = some c.mod) := by
  obtain ⟨e, h1, h2, h3⟩ := dict_value ho hb h hd hx hu
  refine ⟨e, h1, ?_, ?_⟩
  · intro dflt y c hc
    have hy : y ∈ e.map (·.1) := (Dict.has_iff e y).1 ((h2 y).2 ⟨c, hc⟩)
    have key := (C15_members_exact rx (e.map (·.1)) (by
      intro n hn
      obtain ⟨c, hc⟩ := (h2 n).1 ((Dict.has_iff e n).2 hn)
      exact hat c hc.1 n hc.2.2) (.str y))
    have e1 : (e.map fun q => (q.1, q.2.1)).map Prod.fst = e.map (·.1) := by simp
    have e2 : (((identTy e).cls rx dflt).set (.str y)).toExcept = setLeaf rx (enumTy (e.map (·.1))) (.str y) := by
      rw [← e1, ← build_setLeaf]; rfl
    rw [key, if_pos (by simpa [PyVal.toStr] using hy)] at e2
    exact toExcept_ok_iff.1 e2
  · intro y c hc hcl
    have hh : e.has y = true := (h2 y).2 ⟨c, hc⟩
    obtain ⟨v, hv⟩ := Option.isSome_iff_exists.1 hh
    obtain ⟨c', h4, h5⟩ := h3 y v hv
    rw [hcl c' h4] at h5
    have : (identTy e).ser.idents = e.map fun q => (q.1, q.2.1) := rfl
    rw [this, lookup_map]
    have hv' : List.lookup y e = some v := hv
    rw [hv', h5]
    rfl

/-- Reading a qualified or plain name: only what follows the first colon counts. -/
theorem read_plain {n : Str} (hn : ':' ∉ n) : ietfVal py!"identityref" (.str n) = .ok (.str n) := by
  simp [ietfVal, hn]

theorem read_qualified {p n : Str} (hp : ':' ∉ p) : ietfVal py!"identityref" (.str (p ++ ':' :: n)) = .ok (.str n) := by
  have h : (p ++ ':' :: n).dropWhile (· ≠ ':') = ':' :: n := by
    rw [List.dropWhile_append_of_pos (by intro c hc; simp; rintro rfl; exact hp hc)]
    simp
  have hm : ':' ∈ p ++ ':' :: n := by simp
  have e : py!"identityref" ≠ py!"empty" := by decide
  simp only [ietfVal, if_neg e, if_true, if_pos hm, h, List.tail_cons]

/-- What is written for a value of an identityref. -/
theorem written {rx : Str → Str → Bool} {e : Dict IdInfo} {dflt : Option PyVal} {mod y m : Str} (h : (identTy e).ser.idents.lookup y = some m) :
    serLeaf true mod ((identTy e).cls rx dflt) (.str y) =
      .ok (.str (if m ≠ mod then (if startsWith y m then y else m ++ ':' :: y) else y)) := by
  have h1 : serLeaf true mod ((identTy e).cls rx dflt) (.str y) = .ok (serIdentity mod (identTy e).ser.idents (.str y)) := rfl
  rw [h1, serIdentity]
  simp only [PyVal.toStr, h]
  split
  · by_cases hs : startsWith y m = true
    · simp [hs]
    · simp [hs]
  · rfl

theorem xml_written {rx : Str → Str → Bool} {e : Dict IdInfo} {dflt : Option PyVal} {nsOf : Str → Str} {mt : Meta} {y m : Str}
    (h : (identTy e).ser.idents.lookup y = some m) (hy : y.all xmlChar = true) (hm : m.all xmlChar = true) (hne : y ≠ []) :
    xmlLeaf nsOf mt ((identTy e).cls rx dflt) (.str y) true =
      .ok (.elem mt.ns mt.name [(m, nsOf m)] (some (if m ≠ mt.module_ then (if startsWith y m then y else m ++ ':' :: y) else y)) []) := by
  have h1 : xmlDecls nsOf ((identTy e).cls rx dflt) (.str y) true = .ok [(m, nsOf m)] := by
    have g1 : ((identTy e).cls rx dflt).yangType = py!"identityref" := rfl
    have g2 : (((identTy e).cls rx dflt).ser (.str y)).idents.lookup (PyVal.str y).toStr = some m := h
    simp only [xmlDecls, g1, and_self, if_true, g2]
  have h2 : xmlVal mt.module_ ((identTy e).cls rx dflt) (.str y) = serLeaf true mt.module_ ((identTy e).cls rx dflt) (.str y) := by
    unfold xmlVal
    rw [if_neg (by show py!"identityref" ≠ py!"empty"; decide)]
  simp only [xmlLeaf, h1, h2, written h, bind, Except.bind, scalarText]
  generalize hz : (if m ≠ mt.module_ then (if startsWith y m then y else m ++ ':' :: y) else y) = z
  have hz1 : z.all xmlChar = true ∧ z ≠ [] := by
    rw [← hz]
    split
    · split
      · exact ⟨hy, hne⟩
      · refine ⟨?_, by simp⟩
        rw [List.all_append, hm, List.all_cons, hy]
        rfl
    · exact ⟨hy, hne⟩
  rw [xmlText_ok hz1.1, someText_ne hz1.2]
  rfl

/-- Reading the text of an element. -/
theorem xml_read {rx : Str → Str → Bool} {e : Dict IdInfo} {dflt : Option PyVal} {n s : Str} {own : Option Choice} {c : Inst}
    (hs : ietfVal py!"identityref" (.str s) = .ok (.str n)) (hset : ((identTy e).cls rx dflt).set (.str n) = .ok (.str n)) :
    (xmlSet ((identTy e).cls rx dflt) own false c (some s)).err = none ∧
      (xmlSet ((identTy e).cls rx dflt) own false c (some s)).inst = .leaf (.str n) true := by
  have g1 : ((identTy e).cls rx dflt).yangType = py!"identityref" := rfl
  have g2 : py!"identityref" ≠ py!"empty" := by decide
  simp only [ietfVal, if_neg g2, if_true, Except.ok.injEq, J.str.injEq] at hs
  simp only [xmlSet, Bool.false_eq_true, if_false, g1, if_neg g2, if_true, hs, leafSet, hset]
  exact ⟨trivial, trivial⟩

variable (rx : Str → Str → Bool) (repr : J → Str) (dflt : Option PyVal)
  (ho : OneEach defs) (hb : BasesOk defs) (h : buildStore fuel mods defs = some (.ok t))
  (hname : ∀ d ∈ defs, ':' ∉ d.name)
  (hat : ∀ d ∈ defs, ∀ x, Spelling mods d x → startsWith x py!"@" = false)
  (b : IdDef) (hd : b ∈ defs) (x : Str) (hx : Spelling mods b x)
  (hu : ∀ d' ∈ defs, Spelling mods d' x → d'.mod = b.mod ∧ d'.name = b.name)
  (c : IdDef)

include ho hb h hname hat hd hx hu

/-- C78: a leaf `type identityref { base x; }` of module `mod`, set to the name of an
identity derived from the base: it is written as RFC 7951 says, and what is written is read
as the same value.

Missing: identities with the same name in several modules (`C78_same_name_refuted`), names
that start with the name of the module (`C46_identity_name_refuted`), other spellings
(`C78_prefix_refuted`), leaves whose type is a typedef (`C46_identity_typedef_refuted`). -/
theorem C78_name_partial (hmod : ∀ d ∈ defs, ':' ∉ d.mod) (hc : NamesId mods defs b c.name c) (hcl : ClearId mods defs b c.name c) (hp : ¬ c.mod <+: c.name) (mod : Str) :
    ∃ e j j', (identityDict t).get? x = some e ∧ ((identTy e).cls rx dflt).set (.str c.name) = .ok (.str c.name) ∧
      serLeaf true mod ((identTy e).cls rx dflt) (.str c.name) = .ok j ∧ JsonIdentity mod c j ∧
      ietfVal ((identTy e).cls rx dflt).yangType j = .ok j' ∧ ((identTy e).cls rx dflt).set (jPy repr j') = .ok (.str c.name) := by
  obtain ⟨e, h1, h2, h3⟩ := identTy_of rx ho hb h hat hd hx hu
  have h4 := h2 dflt c.name c hc
  have h5 := written (rx := rx) (dflt := dflt) (mod := mod) (h3 _ _ hc hcl)
  have hs : startsWith c.name c.mod = false := by
    rw [Bool.eq_false_iff]
    simpa [startsWith, List.isPrefixOf_iff_prefix] using hp
  by_cases em : c.mod = mod
  · rw [if_neg (by simp [em])] at h5
    exact ⟨e, _, _, h1, h4, h5, .same em, read_plain (hname c hc.1), h4⟩
  · rw [if_pos em, if_neg (by simp [hs])] at h5
    exact ⟨e, _, _, h1, h4, h5, .qualified, read_qualified (hmod c hc.1), h4⟩

/-- C78: set to `module:name`: this is what is written. -/
theorem C78_qualified_partial (hc : NamesId mods defs b (c.mod ++ ':' :: c.name) c) (hcl : ClearId mods defs b (c.mod ++ ':' :: c.name) c) (mod : Str) :
    ∃ e, (identityDict t).get? x = some e ∧ ((identTy e).cls rx dflt).set (.str (c.mod ++ ':' :: c.name)) = .ok (.str (c.mod ++ ':' :: c.name)) ∧
      serLeaf true mod ((identTy e).cls rx dflt) (.str (c.mod ++ ':' :: c.name)) = .ok (.str (c.mod ++ ':' :: c.name)) := by
  obtain ⟨e, h1, h2, h3⟩ := identTy_of rx ho hb h hat hd hx hu
  refine ⟨e, h1, h2 dflt _ c hc, ?_⟩
  rw [written (h3 _ _ hc hcl)]
  have hs : startsWith (c.mod ++ ':' :: c.name) c.mod = true := by simp [startsWith]
  simp [hs]

/-- C78: what RFC 7951 allows in a document for an identity derived from the base is read,
and stored as the name of the identity.  So it stands for the same identity, unless there
are several with this name. -/
theorem C78_read (hmod : ∀ d ∈ defs, ':' ∉ d.mod) (y : Str) (hc : NamesId mods defs b y c) (mod : Str) (j : J) (hj : JsonIdentity mod c j) :
    ∃ e j', (identityDict t).get? x = some e ∧ ietfVal ((identTy e).cls rx dflt).yangType j = .ok j' ∧
      ((identTy e).cls rx dflt).set (jPy repr j') = .ok (.str c.name) ∧ NamesId mods defs b c.name c := by
  obtain ⟨e, h1, h2, h3⟩ := identTy_of rx ho hb h hat hd hx hu
  have hc' : NamesId mods defs b c.name c := derived_ok hc _ (.inl rfl)
  have h4 := h2 dflt c.name c hc'
  cases hj with
  | qualified => exact ⟨e, _, h1, read_qualified (hmod c hc.1), h4, hc'⟩
  | same => exact ⟨e, _, h1, read_plain (hname c hc.1), h4, hc'⟩

/-- C78 fails for values with another prefix than the name of the module: they are
accepted, but what is written is not the encoding of the identity. -/
theorem C78_prefix_refuted (p : Str) (hp : p ≠ c.mod) (hc : NamesId mods defs b (p ++ ':' :: c.name) c) (hcl : ClearId mods defs b (p ++ ':' :: c.name) c) (mod : Str) :
    ∃ e j, (identityDict t).get? x = some e ∧ ((identTy e).cls rx dflt).set (.str (p ++ ':' :: c.name)) = .ok (.str (p ++ ':' :: c.name)) ∧
      serLeaf true mod ((identTy e).cls rx dflt) (.str (p ++ ':' :: c.name)) = .ok j ∧ ¬ JsonIdentity mod c j := by
  obtain ⟨e, h1, h2, h3⟩ := identTy_of rx ho hb h hat hd hx hu
  have hn := hname c hc.1
  have a : p ++ ':' :: c.name ≠ c.name := by intro e; exact hn (by rw [← e]; simp)
  have a' : p ++ ':' :: c.name ≠ c.mod ++ ':' :: c.name := fun e => hp (qual_inj hn hn e).1
  have b1 : c.mod ++ ':' :: (p ++ ':' :: c.name) ≠ c.mod ++ ':' :: c.name := by
    intro e
    have := List.append_cancel_left e
    simp only [List.cons.injEq, true_and] at this
    exact a this
  have b2 : c.mod ++ ':' :: (p ++ ':' :: c.name) ≠ c.name := by intro e; exact hn (by rw [← e]; simp)
  refine ⟨e, _, h1, h2 dflt _ c hc, written (h3 _ _ hc hcl), ?_⟩
  split
  · split
    · intro h; generalize hj : J.str (p ++ ':' :: c.name) = j at h
      cases h with
      | qualified => exact a' (J.str.inj hj)
      | same => exact a (J.str.inj hj)
    · intro h; generalize hj : J.str (c.mod ++ ':' :: (p ++ ':' :: c.name)) = j at h
      cases h with
      | qualified => exact b1 (J.str.inj hj)
      | same => exact b2 (J.str.inj hj)
  · intro h; generalize hj : J.str (p ++ ':' :: c.name) = j at h
    cases h with
    | qualified => exact a' (J.str.inj hj)
    | same => exact a (J.str.inj hj)

/-- C78 fails for documents with a wrong module name: it is not looked at, so an identity
that does not exist is taken for one that does. -/
theorem C78_any_module_refuted (q : Str) (hq : ':' ∉ q) (hc : NamesId mods defs b c.name c) :
    ∃ e j', (identityDict t).get? x = some e ∧ ietfVal ((identTy e).cls rx dflt).yangType (.str (q ++ ':' :: c.name)) = .ok j' ∧
      ((identTy e).cls rx dflt).set (jPy repr j') = .ok (.str c.name) := by
  obtain ⟨e, h1, h2, h3⟩ := identTy_of rx ho hb h hat hd hx hu
  exact ⟨e, _, h1, read_qualified hq, h2 dflt c.name c hc⟩

/-- C78, XML: a leaf set to the name of an identity is written as RFC 7950 says (the
namespace of the module of the identity is declared), and what is written is read as the
same value.  `nsOf` gives the namespaces of modules.  Missing: as for JSON. -/
theorem C78_xml_name_partial (hmod : ∀ d ∈ defs, ':' ∉ d.mod) (hc : NamesId mods defs b c.name c) (hcl : ClearId mods defs b c.name c) (hp : ¬ c.mod <+: c.name)
    (hx1 : c.name.all xmlChar = true) (hx2 : c.mod.all xmlChar = true) (hne : c.name ≠ [])
    (nsOf : Str → Str) (mt : Meta) (hns : nsOf c.mod = c.ns) (hmt : mt.ns = nsOf mt.module_) :
    ∃ e y, (identityDict t).get? x = some e ∧ xmlLeaf nsOf mt ((identTy e).cls rx dflt) (.str c.name) true = .ok y ∧ XmlIdentity c y ∧
      ∀ own n, (xmlSet ((identTy e).cls rx dflt) own false n y.text).err = none ∧
        (xmlSet ((identTy e).cls rx dflt) own false n y.text).inst = .leaf (.str c.name) true := by
  obtain ⟨e, h1, h2, h3⟩ := identTy_of rx ho hb h hat hd hx hu
  have h4 := h2 dflt c.name c hc
  have h5 := xml_written (rx := rx) (dflt := dflt) (nsOf := nsOf) (mt := mt) (h3 _ _ hc hcl) hx1 hx2 hne
  have hs : startsWith c.name c.mod = false := by
    rw [Bool.eq_false_iff]
    simpa [startsWith, List.isPrefixOf_iff_prefix] using hp
  by_cases em : c.mod = mt.module_
  · rw [if_neg (by simp [em])] at h5
    refine ⟨e, _, h1, h5, ?_, fun own n => xml_read (read_plain (hname c hc.1)) h4⟩
    rw [hmt, ← em, hns]
    exact .same
  · rw [if_pos em, if_neg (by simp [hs])] at h5
    exact ⟨e, _, h1, h5, .qualified (by rw [hns]; simp), fun own n => xml_read (read_qualified (hmod c hc.1)) h4⟩

/-- C78, XML: an encoding of an identity derived from the base, with any prefix, is read and
stored as the name of the identity. -/
theorem C78_xml_read (y : Str) (hc : NamesId mods defs b y c) (ns nm txt : Str) (d : List (Str × Str)) (hpre : ∀ p, txt = p ++ ':' :: c.name → ':' ∉ p)
    (hj : XmlIdentity c (.elem ns nm d (some txt) [])) :
    ∃ e, (identityDict t).get? x = some e ∧ ∀ own n, (xmlSet ((identTy e).cls rx dflt) own false n (some txt)).err = none ∧
      (xmlSet ((identTy e).cls rx dflt) own false n (some txt)).inst = .leaf (.str c.name) true := by
  obtain ⟨e, h1, h2, h3⟩ := identTy_of rx ho hb h hat hd hx hu
  have h4 := h2 dflt c.name c (derived_ok hc _ (.inl rfl))
  refine ⟨e, h1, fun own n => ?_⟩
  cases hj with
  | qualified => exact xml_read (read_qualified (hpre _ rfl)) h4
  | same => exact xml_read (read_plain (hname c hc.1)) h4

end

/-! ## The example: a leaf with base `b:X`, and the identity `W` of module `b` -/

def exB (n : Str) (bs : List Str) : IdDef := { mod := py!"b", name := n, ns := py!"urn:b", prefix_ := py!"pb", bases := bs, imports := [] }
def exX : IdDef := exB py!"X" []
def exW : IdDef := exB py!"W" [py!"pb:X", py!"Y"]

theorem exW_derived : DerivedFrom exDefs (exW.mod, exW.name) (exX.mod, exX.name) :=
  .single ⟨exW, by simp [exDefs, exW, exB], rfl, py!"pb:X", by simp [exW, exB], .own py!"X" (by decide) (by decide)⟩

theorem exMods_prefix {d : IdDef} {q : Str} (hd : d ∈ exDefs) (h : KnownPrefix exMods d q) : q ∈ [py!"a", py!"b", py!"pb"] := by
  rcases h with rfl | rfl | ⟨m, hm, h⟩
  · simp only [exDefs, List.mem_cons, List.not_mem_nil, or_false] at hd; rcases hd with rfl | rfl | rfl | rfl <;> decide
  · simp only [exDefs, List.mem_cons, List.not_mem_nil, or_false] at hd; rcases hd with rfl | rfl | rfl | rfl <;> decide
  · simp only [exMods, List.mem_cons, List.not_mem_nil, or_false] at hm
    rcases hm with rfl | rfl
    · simp at h; simp [h.2]
    · simp at h

/-- In the example every spelling ends with the name of the identity, and the names differ. -/
theorem exDefs_name {d d' : IdDef} (hd : d ∈ exDefs) (hd' : d' ∈ exDefs) {y : Str} (h : Spelling exMods d y) (h' : Spelling exMods d' y) : d = d' := by
  have key : d.name = d'.name := by
    have hn := exDefs_noColon d hd
    have hn' := exDefs_noColon d' hd'
    rcases h with rfl | ⟨q, _, rfl⟩ <;> rcases h' with h' | ⟨q', _, h'⟩
    · exact h'
    · exact absurd (by rw [h']; simp) hn
    · exact absurd (by rw [← h']; simp) hn'
    · exact (qual_inj hn hn' h').2
  simp only [exDefs, List.mem_cons, List.not_mem_nil, or_false] at hd hd'
  rcases hd with rfl | rfl | rfl | rfl <;> rcases hd' with rfl | rfl | rfl | rfl <;> first | rfl | (simp at key)

theorem exDefs_at : ∀ d ∈ exDefs, ∀ x, Spelling exMods d x → startsWith x py!"@" = false := by
  intro d hd x h
  rcases h with rfl | ⟨q, hq, rfl⟩
  · simp only [exDefs, List.mem_cons, List.not_mem_nil, or_false] at hd; rcases hd with rfl | rfl | rfl | rfl <;> decide
  · have := exMods_prefix hd hq
    simp only [List.mem_cons, List.not_mem_nil, or_false] at this
    rcases this with rfl | rfl | rfl <;> simp [startsWith, List.isPrefixOf]

theorem exDefs_colon : ∀ d ∈ exDefs, ':' ∉ d.mod := by
  intro d hd
  simp only [exDefs, List.mem_cons, List.not_mem_nil, or_false] at hd
  rcases hd with rfl | rfl | rfl | rfl <;> decide

theorem exX_mem : exX ∈ exDefs := by simp [exDefs, exX, exB]
theorem exW_mem : exW ∈ exDefs := by simp [exDefs, exW, exB]
theorem exX_base : Spelling exMods exX py!"b:X" := .inr ⟨py!"b", .inl rfl, rfl⟩
theorem exX_only : ∀ d' ∈ exDefs, Spelling exMods d' py!"b:X" → d'.mod = exX.mod ∧ d'.name = exX.name := by
  intro d' hd' h
  rw [exDefs_name hd' exX_mem h exX_base]
  exact ⟨rfl, rfl⟩
theorem exW_names {y : Str} (hy : Spelling exMods exW y) : NamesId exMods exDefs exX y exW := ⟨exW_mem, exW_derived, hy⟩
theorem exW_clear {y : Str} (hy : Spelling exMods exW y) : ClearId exMods exDefs exX y exW := fun _ h => exDefs_name h.1 exW_mem h.2.2 hy

/-- A leaf of module `m`. -/
example : ∃ e j j', (identityDict exStore).get? py!"b:X" = some e ∧ ((identTy e).cls noRx none).set (.str exW.name) = .ok (.str exW.name) ∧
    serLeaf true py!"m" ((identTy e).cls noRx none) (.str exW.name) = .ok j ∧ JsonIdentity py!"m" exW j ∧
    ietfVal ((identTy e).cls noRx none).yangType j = .ok j' ∧ ((identTy e).cls noRx none).set (jPy (fun _ => []) j') = .ok (.str exW.name) :=
  C78_name_partial (fuel := 8) (mods := exMods) noRx (fun _ => []) none exDefs_one exDefs_bases rfl exDefs_noColon exDefs_at exX exX_mem _ exX_base exX_only exW
    exDefs_colon (exW_names (.inl rfl)) (exW_clear (.inl rfl)) (by decide) py!"m"

example : ∃ e j, (identityDict exStore).get? py!"b:X" = some e ∧ ((identTy e).cls noRx none).set (.str py!"pb:W") = .ok (.str py!"pb:W") ∧
    serLeaf true py!"m" ((identTy e).cls noRx none) (.str py!"pb:W") = .ok j ∧ ¬ JsonIdentity py!"m" exW j :=
  C78_prefix_refuted (fuel := 8) (mods := exMods) noRx none exDefs_one exDefs_bases rfl exDefs_noColon exDefs_at exX exX_mem _ exX_base exX_only exW
    py!"pb" (by decide) (exW_names (.inr ⟨_, .inr (.inl rfl), rfl⟩)) (exW_clear (.inr ⟨_, .inr (.inl rfl), rfl⟩)) py!"m"

set_option maxRecDepth 8000 in
/-- What is written in this case. -/
example : ((identityDict exStore).get? py!"b:X").map (fun e => serLeaf true py!"m" ((identTy e).cls noRx none) (.str py!"pb:W")) =
    some (.ok (.str py!"b:pb:W")) := rfl

example : ∃ e, (identityDict exStore).get? py!"b:X" = some e ∧ ((identTy e).cls noRx none).set (.str py!"b:W") = .ok (.str py!"b:W") ∧
    serLeaf true py!"m" ((identTy e).cls noRx none) (.str py!"b:W") = .ok (.str py!"b:W") :=
  C78_qualified_partial (fuel := 8) (mods := exMods) noRx none exDefs_one exDefs_bases rfl exDefs_noColon exDefs_at exX exX_mem _ exX_base exX_only exW
    (exW_names (.inr ⟨_, .inl rfl, rfl⟩)) (exW_clear (.inr ⟨_, .inl rfl, rfl⟩)) py!"m"

example : ∃ e j', (identityDict exStore).get? py!"b:X" = some e ∧ ietfVal ((identTy e).cls noRx none).yangType (.str py!"b:W") = .ok j' ∧
    ((identTy e).cls noRx none).set (jPy (fun _ => []) j') = .ok (.str exW.name) ∧ NamesId exMods exDefs exX exW.name exW :=
  C78_read (fuel := 8) (mods := exMods) noRx (fun _ => []) none exDefs_one exDefs_bases rfl exDefs_noColon exDefs_at exX exX_mem _ exX_base exX_only exW
    exDefs_colon exW.name (exW_names (.inl rfl)) py!"m" _ .qualified

example : ∃ e j', (identityDict exStore).get? py!"b:X" = some e ∧ ietfVal ((identTy e).cls noRx none).yangType (.str py!"bogus:W") = .ok j' ∧
    ((identTy e).cls noRx none).set (jPy (fun _ => []) j') = .ok (.str exW.name) :=
  C78_any_module_refuted (fuel := 8) (mods := exMods) noRx (fun _ => []) none exDefs_one exDefs_bases rfl exDefs_noColon exDefs_at exX exX_mem _ exX_base exX_only exW
    py!"bogus" (by decide) (exW_names (.inl rfl))

example : ∃ e y, (identityDict exStore).get? py!"b:X" = some e ∧ xmlLeaf demoNs (inM py!"i") ((identTy e).cls noRx none) (.str exW.name) true = .ok y ∧ XmlIdentity exW y ∧
    ∀ own n, (xmlSet ((identTy e).cls noRx none) own false n y.text).err = none ∧ (xmlSet ((identTy e).cls noRx none) own false n y.text).inst = .leaf (.str exW.name) true :=
  C78_xml_name_partial (fuel := 8) (mods := exMods) noRx none exDefs_one exDefs_bases rfl exDefs_noColon exDefs_at exX exX_mem _ exX_base exX_only exW
    exDefs_colon (exW_names (.inl rfl)) (exW_clear (.inl rfl)) (by decide) (by decide) (by decide) (by decide) demoNs (inM py!"i") rfl rfl

example : ∃ e, (identityDict exStore).get? py!"b:X" = some e ∧ ∀ own n, (xmlSet ((identTy e).cls noRx none) own false n (some py!"q:W")).err = none ∧
    (xmlSet ((identTy e).cls noRx none) own false n (some py!"q:W")).inst = .leaf (.str exW.name) true :=
  C78_xml_read (fuel := 8) (mods := exMods) noRx none exDefs_one exDefs_bases rfl exDefs_noColon exDefs_at exX exX_mem _ exX_base exX_only exW
    exW.name (exW_names (.inl rfl)) py!"urn:m" py!"i" py!"q:W" [(py!"q", py!"urn:b")]
    (by intro p hp; have := (qual_inj (p := py!"q") (n := py!"W") (by decide) (by decide) hp).1; rw [← this]; decide)
    (.qualified (p := py!"q") (by decide))

/-! ## Where it fails -/

/-- Modules `k` and `n` both define an identity `red` derived from `X` of module `a`. -/
def redDefs : List IdDef :=
  [{ mod := py!"a", name := py!"X", ns := py!"urn:a", prefix_ := py!"a", bases := [], imports := [] },
   { mod := py!"k", name := py!"red", ns := py!"urn:k", prefix_ := py!"k", bases := [py!"a:X"], imports := [(py!"a", py!"a")] },
   { mod := py!"n", name := py!"red", ns := py!"urn:n", prefix_ := py!"n", bases := [py!"a:X"], imports := [(py!"a", py!"a")] }]

def redStore : IdStore := match buildStore 8 [] redDefs with
  | some (.ok t) => t
  | _ => []

def redDict : Dict IdInfo := ((identityDict redStore).get? py!"a:X").getD []

/-- C78 fails if two modules have identities of the same name: the document says `k:red`,
it is loaded without an exception, and written as `n:red`. -/
theorem C78_same_name_refuted :
    buildStore 8 [] redDefs = some (.ok redStore) ∧ (identityDict redStore).get? py!"a:X" = some redDict ∧
    ietfVal ((identTy redDict).cls noRx none).yangType (.str py!"k:red") = .ok (.str py!"red") ∧
    ((identTy redDict).cls noRx none).set (.str py!"red") = .ok (.str py!"red") ∧
    serLeaf true py!"m" ((identTy redDict).cls noRx none) (.str py!"red") = .ok (.str py!"n:red") :=
  ⟨rfl, rfl, rfl, rfl, rfl⟩

/-- The same in a tree: what is written is not what was loaded. -/
theorem C78_same_name_tree_refuted (kids : List (Meta × Schema)) (hk : kids = [(inM py!"i", .leaf ((identTy redDict).cls noRx none))]) :
    ietfLoad demoLoad kids (freshKids kids) (.obj [(py!"m:i", .str py!"k:red")]) = ([.leaf (.str py!"red") true], none) ∧
    ietfDump {} kids [.leaf (.str py!"red") true] = .ok (.obj [(py!"m:i", .str py!"n:red")]) := by
  subst hk
  exact ⟨rfl, rfl⟩

end Pyb
