import Verif.Lemmas.XmlLoadedCheck
import Verif.Props.Xml
import Verif.Props.NativeLoaded

/-! # A loaded XML document is in the tree (C77) -/

namespace Pyb
open Py Spec

theorem x_root_cont {infer : Str → PyVal} {kids : List (Meta × Schema)} {ns : List Inst} (xs : List Xml) :
    ∃ ch pr ns', (xmlMembers infer false (rootCls kids) [] none (rootObj ns) xs).inst = .cont ch pr ns' := by
  suffices ∀ n : Inst, (∃ ch pr ns, n = .cont ch pr ns) → ∃ ch pr ns', (xmlMembers infer false (rootCls kids) [] none n xs).inst = .cont ch pr ns' from
    this _ ⟨_, _, _, rfl⟩
  induction xs with
  | nil => intro n hn; rw [xmembers_nil]; exact hn
  | cons x xs ih =>
    rintro n ⟨ch, pr, ns, rfl⟩
    rw [xmembers_cons]
    have hw : ∃ ch' pr' ns', (withKid false (rootCls kids) none (.cont ch pr ns) x.name (fail (.cont ch pr ns) .attributeError)
        fun i k c => xmlChild infer k.2 k.1.choice (([] : List Nat).contains i) c x).inst = .cont ch' pr' ns' := by
      simp only [withKid]
      split
      · exact ⟨ch, pr, ns, rfl⟩
      · split
        · split
          · exact ⟨_, _, _, rfl⟩
          · exact ⟨_, _, _, rfl⟩
        · exact ⟨_, _, _, rfl⟩
    unfold Out.andThen
    split
    · exact hw
    · exact ih _ hw

/-- C77: if an XML document is loaded without an exception, every leaf it has an element for
holds the text of this element, as if it had been assigned, and every leaf-list holds the
value of each of its elements.

Missing: lists without key; documents that contradict themselves (two elements for the same
leaf or entry, two cases of a choice); elements without text for leaves that are not of type
`empty` (`C77_xml_no_text_refuted`); for leaf-lists, the value is what the text looks like
(`C69_typed_strings_refuted`). -/
theorem C77_xml_values_partial (infer : Str → PyVal) (kids : List (Meta × Schema)) (hf : ApartRoot kids)
    (hO : Orderly (rootCls kids)) (ns ns' : List Inst) (doc : Xml) (hc : ¬ XContradicts infer (rootCls kids) doc)
    (h : xmlLoad infer kids ns doc = (ns', none)) (p : Path) (t : Option Str) (hs : XSays infer (rootCls kids) doc p t)
    (T : Schema) (hT : clsAt kids p = some T) (ht : ¬ XIgnored T t) :
    ∃ n, objAt ns' p = some n ∧ XHolds infer T t n := by
  cases hs with
  | @field _ _ _ y i k p _ h1 h2 h3 h4 =>
    simp only [xmlLoad, Prod.mk.injEq] at h
    obtain ⟨rfl, he⟩ := h
    obtain ⟨ch, pr, ns1, e1⟩ := x_root_cont (infer := infer) (kids := kids) (ns := ns) doc.kids
    have hmem := List.mem_of_getElem? h3
    have hT' : schemaAt (.cont false kids) (.field i :: p) = some T := hT
    obtain ⟨T', m, g1, g2, g3⟩ := xmlMembers_post (st := false) (own := none) (above := []) (keys := []) (po := none) (wrapped := false) (pres := false) (p := p) (t := t) hO
      (fun k hk => ⟨_, hf k hk⟩) (fun h => by simp at h) h3 hc h1 h2 (by simp) h4
      (fun c h5 => xml_post infer y _ _ k.2 c p t (hf k hmem) (orderly_kid hO.2 hmem) (fun h => hc (.inside h1 h2 h3 h)) h4 (fun T' g => by
        rw [schemaAt_cont, h3] at hT'
        simp only [Option.bind_some] at hT'
        rw [hT'] at g
        obtain rfl := Option.some.inj g
        exact ht) h5) he
    rw [hT'] at g1
    obtain rfl := Option.some.inj g1
    refine ⟨m, ?_, g3⟩
    rw [obj_kids e1]
    exact g2

/-- C77: what the document does not concern is the same as before, also if there is an
exception. -/
theorem C77_xml_rest (infer : Str → PyVal) (kids : List (Meta × Schema)) (hf : ApartRoot kids) (hO : Orderly (rootCls kids))
    (ns : List Inst) (doc : Xml) (p : Path) (T : Schema) (n : Inst) (hT : clsAt kids p = some T)
    (hc : ¬ XConcerns infer (rootCls kids) doc p) (hn : objAt ns p = some n) : objAt (xmlLoad infer kids ns doc).1 p = some n := by
  obtain ⟨ch, pr, ns1, e1⟩ := x_root_cont (infer := infer) (kids := kids) (ns := ns) doc.kids
  cases p with
  | nil => exact absurd .here hc
  | cons s p =>
  simp only [xmlLoad]
  rw [obj_kids e1]
  cases s with
  | key k => simp [clsAt, schemaAt] at hT
  | field i =>
    have hT' : schemaAt (.cont false kids) (.field i :: p) = some T := hT
    rw [schemaAt_cont] at hT'
    cases hk : kids[i]? with
    | none => simp [hk] at hT'
    | some k =>
      rw [hk] at hT'
      have hmem := List.mem_of_getElem? hk
      refine xmlMembers_frame (st := false) (own := none) (above := []) (fun h => by simp at h) hk (fun y hy hfor b c h3 => ?_) (fun y hy i' k' h1 h2 h3 => ?_) hn
      · exact xml_frame infer y _ _ k.2 b c p n T (hf k hmem) (orderly_kid hO.2 hmem) hT' (fun h => hc (.field hy hfor hk h)) h3
      · exact hc (.rival hy h1 h2 hk h3)

/-! ## The example -/

def xlDoc : Xml := xElem py!"m"
  [xElem py!"c"
    [xLeaf py!"v" py!"5", xLeaf py!"b" py!"true", xElem py!"l" [xLeaf py!"k" py!"w", xLeaf py!"z" py!"9"],
     xElem py!"l" [xLeaf py!"k" py!"y", xLeaf py!"z" py!"7"], xLeaf py!"v" py!"6"]]

theorem xSaysField {infer : Str → PyVal} {pres : Bool} {kids : List (Meta × Schema)} {x : Xml} {p : Path} {t : Option Str} (a i : Nat) {y : Xml}
    {k : Meta × Schema} (hy : x.kids[a]? = some y) (hk : kids[i]? = some k) (hn : safeName k.1.name = safeName y.name)
    (h : XSays infer k.2 y p t) : XSays infer (.cont pres kids) x (.field i :: p) t :=
  .field (List.mem_of_getElem? hy) ⟨k, hk, hn⟩ hk h

theorem xl_says : XSays demoInfer (rootCls natKids) xlDoc [.field 0, .field 2, .key (.str py!"w"), .field 1] (some py!"9") :=
  xSaysField 0 0 rfl rfl (by decide) (xSaysField 2 2 rfl rfl (by decide)
    (.entry rfl (by simp) (xSaysField 1 1 rfl rfl (by decide) (.leaf (x := xLeaf py!"z" py!"9")))))

theorem xl_says_first : XSays demoInfer (rootCls natKids) xlDoc [.field 0, .field 3] (some py!"5") :=
  xSaysField 0 0 rfl rfl (by decide) (xSaysField 0 3 rfl rfl (by decide) (.leafList (x := xLeaf py!"v" py!"5")))

example : (xmlLoad demoInfer natKids natOld xlDoc).2 = none := rfl

example : ∃ n, objAt (xmlLoad demoInfer natKids natOld xlDoc).1 [.field 0, .field 2, .key (.str py!"w"), .field 1] = some n ∧
    XHolds demoInfer (.leaf (tPercent.cls noRx)) (some py!"9") n :=
  C77_xml_values_partial demoInfer natKids nat_flat.apart nat_orderly natOld _ xlDoc (xTidy_ok nat_orderly (by decide)) rfl _ _ xl_says _ rfl
    (by simp [XIgnored])

example : ∃ n, objAt (xmlLoad demoInfer natKids natOld xlDoc).1 [.field 0, .field 3] = some n ∧
    XHolds demoInfer (.leafList (tU64.llCls noRx)) (some py!"5") n :=
  C77_xml_values_partial demoInfer natKids nat_flat.apart nat_orderly natOld _ xlDoc (xTidy_ok nat_orderly (by decide)) rfl _ _ xl_says_first _ rfl
    (by simp [XIgnored])

example : objAt (xmlLoad demoInfer natKids natOld xlDoc).1 [.field 0, .field 2, .key (.str py!"x"), .field 1] = some (.leaf (.int 50) true) :=
  C77_xml_rest demoInfer natKids nat_flat.apart nat_orderly natOld xlDoc _ _ _ rfl (xSpares_of nat_orderly (by decide)) rfl

/-! ## Where it fails -/

/-- C77 fails for an element without text for a leaf (the empty string): it is accepted, and
the leaf keeps the value it had. -/
theorem C77_xml_no_text_refuted :
    history strKids (freshKids strKids) [([.field 0], .set (.str py!"old") false)] = [.leaf (.str py!"old") true] ∧
    xmlLoad demoInfer strKids [.leaf (.str py!"old") true] (xElem py!"m" [xElem py!"s" []]) = ([.leaf (.str py!"old") true], none) :=
  ⟨rfl, rfl⟩

/-- In general, and for every type but `empty` (and identityref, which raises): such an element changes nothing. -/
theorem C77_xml_no_texts_refuted (infer : Str → PyVal) (kids : List (Meta × Schema)) (hn : GoodNames kids) (ns : List Inst) (i : Nat)
    (m : Meta) (L : LeafCls) (hk : kids[i]? = some (m, .leaf L)) (c : Inst) (hi : ns[i]? = some c) (h1 : L.yangType ≠ py!"empty") (h2 : L.yangType ≠ py!"identityref")
    (ns0 ns1 name : Str) (ds ds1 : List (Str × Str)) (t : Option Str) :
    xmlLoad infer kids ns (.elem ns0 name ds t [.elem ns1 m.name ds1 none []]) = (ns, none) := by
  simp only [xmlLoad, Xml.kids, xmlMembers, withKid, Xml.name, kidIdx_self hn.2 hk, hk, hi, xmlChild, xmlSet, List.contains_nil, Bool.false_eq_true, if_false,
    h1, h2, holdPut, Out.same, Out.andThen]
  congr 1
  simp only [Inst.kids]
  refine List.ext_getElem? fun j => ?_
  rw [List.getElem?_set]
  split
  · rename_i e; subst e; rw [if_pos (List.getElem?_eq_some_iff.1 hi).1]; exact hi.symm
  · rfl

example : xmlLoad demoInfer strKids [.leaf (.str py!"old") true] (.elem py!"urn:m" py!"m" [] none [.elem py!"urn:m" py!"s" [] none []]) =
    ([.leaf (.str py!"old") true], none) :=
  C77_xml_no_texts_refuted demoInfer strKids ⟨by decide, by decide⟩ _ 0 _ _ rfl _ rfl (by decide) (by decide) _ _ _ _ _ _

end Pyb
