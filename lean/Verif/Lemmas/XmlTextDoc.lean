import Verif.Lemmas.XmlText
import Verif.Lemmas.JsonTextDoc
import Verif.Lemmas.XmlDoc

/-! # XML text: the documents of bindings can be written, and what is not written is not read -/

namespace Pyb
open Py Spec

theorem writableAll_iff {xs : List Xml} : WritableAll xs ↔ ∀ x ∈ xs, Writable x := by
  induction xs with
  | nil => simp [WritableAll]
  | cons x xs ih => simp [WritableAll, ih]

theorem xmlText_back {s : Str} {t : Option Str} (h : xmlText s = .ok t) : ∀ u, t = some u → u ≠ [] ∧ u.all xmlChar = true := by
  rw [xmlText] at h
  split at h
  · rename_i hc
    simp only [Except.ok.injEq] at h
    subst h
    intro u e
    split at e
    · cases e
    · cases e; rename_i hne; exact ⟨hne, hc⟩
  · cases h

theorem scalarText_back {j : J} {t : Option Str} (h : scalarText j = .ok t) : ∀ u, t = some u → u ≠ [] ∧ u.all xmlChar = true := by
  cases j with
  | null => cases h; intro u e; cases e
  | bool b => exact xmlText_back h
  | num n => exact xmlText_back h
  | str s => exact xmlText_back h
  | float x => cases h
  | arr xs => cases h
  | obj ms => cases h

theorem elemText_back {j : J} {t : Option Str} (h : elemText j = .ok t) : ∀ u, t = some u → u ≠ [] ∧ u.all xmlChar = true := by
  cases j with
  | null => exact xmlText_back h
  | bool b => exact xmlText_back h
  | num n => exact xmlText_back h
  | str s => exact xmlText_back h
  | float x => cases h
  | arr xs => cases h
  | obj ms => cases h

theorem xmlLeaf_writable {nsOf : Str → Str} {m : Meta} {L : LeafCls} {v : PyVal} {ch : Bool} {x : Xml}
    (hn : XmlNames nsOf m (.leaf L)) (h : xmlLeaf nsOf m L v ch = .ok x) : Writable x := by
  simp only [XmlNames] at hn
  obtain ⟨h1, h2, h3⟩ := hn
  simp only [xmlLeaf, bind_ok] at h
  obtain ⟨d, hd, j, _, t, ht, h⟩ := h
  simp only [pure, Except.pure, Except.ok.injEq] at h
  subst h
  have hds : (d.map (·.1)).Nodup ∧ ∀ q ∈ d, Identifier q.1 ∧ Uri q.2 := by
    rw [xmlDecls] at hd
    split at hd
    · split at hd
      · rename_i i hi
        cases hd
        refine ⟨by simp, ?_⟩
        intro q hq
        simp at hq
        subst hq
        exact h3 _ _ _ hi
      · cases hd
    · cases hd
      exact ⟨by simp, by simp⟩
  simp only [Writable]
  exact ⟨h1, h2, hds.1, hds.2, scalarText_back ht, by simp, trivial⟩

theorem xmlLeafList_writable {m : Meta} {L : LLCls} {vs : List PyVal} {xs : List Xml}
    (h1 : Identifier m.name) (h2 : Uri m.ns) (h : xmlLeafList m L vs = .ok xs) : WritableAll xs := by
  rw [xmlLeafList] at h
  refine writableAll_iff.2 (mapM_forall h fun v _ y hy => ?_)
  simp only [bind_ok] at hy
  obtain ⟨j, _, t, ht, hy⟩ := hy
  simp only [pure, Except.pure, Except.ok.injEq] at hy
  subst hy
  simp only [Writable]
  exact ⟨h1, h2, by simp, by simp, elemText_back ht, by simp, trivial⟩

theorem writable_cont {ns name : Str} {xs : List Xml} (h1 : Identifier name) (h2 : Uri ns) (h : WritableAll xs) :
    Writable (.elem ns name [] none xs) := by
  simp only [Writable]
  exact ⟨h1, h2, by simp, by simp, by simp, by simp, h⟩

theorem writableAll_append {xs ys : List Xml} (h1 : WritableAll xs) (h2 : WritableAll ys) : WritableAll (xs ++ ys) := by
  rw [writableAll_iff] at *
  intro x hx
  rcases List.mem_append.1 hx with hx | hx
  · exact h1 x hx
  · exact h2 x hx

mutual
theorem xmlNode_writable {nsOf : Str → Str} {flt : Bool} (m : Meta) : ∀ (S : Schema) (n : Inst) (xs : List Xml),
    XmlNames nsOf m S → xmlNode nsOf flt m S n = .ok (some xs) → WritableAll xs
  | .leaf L, n, xs, hn, h => by
    cases n with
    | leaf v ch =>
      rw [xmlNode] at h
      split at h
      · cases hl : xmlLeaf nsOf m L v ch with
        | error e => simp [hl, Except.map] at h
        | ok x =>
          simp only [hl, Except.map, Except.ok.injEq, Option.some.injEq] at h
          subst h
          exact ⟨xmlLeaf_writable hn hl, trivial⟩
      · cases h
    | leafList vs ch => simp [xmlNode] at h
    | cont a b c => simp [xmlNode] at h
    | list a b => simp [xmlNode] at h
  | .leafList L, n, xs, hn, h => by
    simp only [XmlNames] at hn
    cases n with
    | leafList vs ch =>
      simp only [xmlNode, bind_ok] at h
      obtain ⟨_, _, h⟩ := h
      split at h
      · cases hl : xmlLeafList m L vs with
        | error e => simp [hl, Except.map] at h
        | ok x =>
          simp only [hl, Except.map, Except.ok.injEq, Option.some.injEq] at h
          subst h
          exact xmlLeafList_writable hn.1 hn.2 hl
      · cases h
    | leaf vs ch => simp [xmlNode] at h
    | cont a b c => simp [xmlNode] at h
    | list a b => simp [xmlNode] at h
  | .cont pres kids, n, xs, hn, h => by
    simp only [XmlNames] at hn
    cases n with
    | cont ch pr ns =>
      rw [xmlNode] at h
      split at h
      · rename_i ys hy
        simp only [Except.ok.injEq] at h
        split at h
        · cases h
        · cases h
          exact ⟨writable_cont hn.1 hn.2.1 (xmlKids_writable kids ns ys hn.2.2 hy), trivial⟩
      · cases h
    | leaf vs ch => simp [xmlNode] at h
    | leafList a b => simp [xmlNode] at h
    | list a b => simp [xmlNode] at h
  | .list info kids, n, xs, hn, h => by
    simp only [XmlNames] at hn
    cases n with
    | list ch es =>
      rw [xmlNode] at h
      split at h
      · rename_i ys hy
        have hall : WritableAll ys := by
          refine writableAll_iff.2 (mapM_forall hy fun q _ y hq => ?_)
          cases hk : xmlKids nsOf flt kids q.2.kids with
          | error e => simp [hk, Except.map] at hq
          | ok zs =>
            simp only [hk, Except.map, Except.ok.injEq] at hq
            subst hq
            exact writable_cont hn.1 hn.2.1 (xmlKids_writable kids _ zs hn.2.2 hk)
        simp only [Except.ok.injEq] at h
        split at h
        · cases h
        · cases h
          exact hall
      · cases h
    | leaf vs ch => simp [xmlNode] at h
    | leafList a b => simp [xmlNode] at h
    | cont a b c => simp [xmlNode] at h
theorem xmlKids_writable {nsOf : Str → Str} {flt : Bool} : ∀ (kids : List (Meta × Schema)) (ns : List Inst) (xss : List (List Xml)),
    XmlNamesAll nsOf kids → xmlKids nsOf flt kids ns = .ok xss → WritableAll xss.flatten
  | [], ns, xss, _, h => by
    simp only [xmlKids, Except.ok.injEq] at h
    subst h
    trivial
  | k :: ks, [], xss, _, h => by
    simp only [xmlKids, Except.ok.injEq] at h
    subst h
    trivial
  | k :: ks, n :: ns, xss, hn, h => by
    simp only [XmlNamesAll] at hn
    rw [xmlKids] at h
    split at h
    · rename_i hk
      cases h
      exact xmlKids_writable ks ns _ hn.2 hk
    · rename_i x ys hx hk
      cases h
      rw [List.flatten_cons]
      exact writableAll_append (xmlNode_writable k.1 k.2 n x hn.1 hx) (xmlKids_writable ks ns _ hn.2 hk)
    · cases h
    · cases h
end

theorem xmlDump_writable {nsOf : Str → Str} {flt : Bool} {name mns : Str} {kids : List (Meta × Schema)} {ns : List Inst} {x : Xml}
    (h1 : Identifier name) (h2 : Uri mns) (hn : XmlNamesAll nsOf kids) (h : xmlDump nsOf flt name mns kids ns = .ok x) : Writable x := by
  rw [xmlDump] at h
  cases hk : xmlKids nsOf flt kids ns with
  | error e => simp [hk, Except.map] at h
  | ok xs =>
    simp only [hk, Except.map, Except.ok.injEq] at h
    subst h
    exact writable_cont h1 h2 (xmlKids_writable kids ns xs hn hk)

/-! ## Reading does not depend on the declarations -/

theorem asWritten_parts (inh : Str) (x : Xml) :
    (asWritten inh x).ns = x.ns ∧ (asWritten inh x).name = x.name ∧ (asWritten inh x).text = x.text ∧ (asWritten inh x).kids = asWrittenAll x.ns x.kids := by
  cases x; exact ⟨rfl, rfl, rfl, rfl⟩

theorem asWrittenAll_empty (inh : Str) (xs : List Xml) : (asWrittenAll inh xs).isEmpty = xs.isEmpty := by
  cases xs <;> rfl

theorem xmlFind_written (inh ns name : Str) (xs : List Xml) :
    (xmlFind ns name (asWrittenAll inh xs)).map (·.text) = (xmlFind ns name xs).map (·.text) := by
  induction xs with
  | nil => rfl
  | cons x xs ih =>
    have hp := asWritten_parts inh x
    unfold xmlFind at ih ⊢
    rw [asWrittenAll, List.find?_cons, List.find?_cons, hp.1, hp.2.1]
    cases h : (x.ns == ns && x.name == name)
    · exact ih
    · simp only [Except.map, hp.2.2.1]

theorem xmlKeys_written (infer : Str → PyVal) (inh ns : Str) (names : List Str) (xs : List Xml) :
    xmlKeys infer ns names (asWrittenAll inh xs) = xmlKeys infer ns names xs := by
  unfold xmlKeys
  congr 1
  funext k
  have h := xmlFind_written inh ns k xs
  cases h1 : xmlFind ns k (asWrittenAll inh xs) <;> cases h2 : xmlFind ns k xs <;> simp [h1, h2, Except.map] at h ⊢ <;> simp [h]

theorem xmlEntry_written (infer : Str → PyVal) (info : ListInfo) (kids : List (Meta × Schema)) (ch : Bool) (es : Members Inst)
    (inh ns : Str) (xs : List Xml) : xmlEntry infer info kids ch es ns (asWrittenAll inh xs) = xmlEntry infer info kids ch es ns xs := by
  unfold xmlEntry
  rw [xmlKeys_written]

mutual
theorem xmlChild_written (infer : Str → PyVal) : ∀ (x : Xml) (inh : Str) (S : Schema) (own : Option Choice) (isKey : Bool) (c : Inst),
    xmlChild infer S own isKey c (asWritten inh x) = xmlChild infer S own isKey c x
  | .elem ns name decls text kids, inh, S, own, isKey, c => by
    simp only [asWritten, xmlChild, xmlEntry_written, asWrittenAll_empty, xmlMembers_written infer kids]
theorem xmlMembers_written (infer : Str → PyVal) : ∀ (xs : List Xml) (inh : Str) (wrapped : Bool) (S : Schema) (keys : List Nat) (own : Option Choice) (n : Inst),
    xmlMembers infer wrapped S keys own n (asWrittenAll inh xs) = xmlMembers infer wrapped S keys own n xs
  | [], _, _, _, _, _, _ => rfl
  | x :: xs, inh, wrapped, S, keys, own, n => by
    simp only [asWrittenAll, xmlMembers, xmlChild_written infer x, xmlMembers_written infer xs, (asWritten_parts inh x).2.1]
end

theorem xmlLoad_written (infer : Str → PyVal) (kids : List (Meta × Schema)) (ns : List Inst) (inh : Str) (x : Xml) :
    xmlLoad infer kids ns (asWritten inh x) = xmlLoad infer kids ns x := by
  unfold xmlLoad
  rw [(asWritten_parts inh x).2.2.2, xmlMembers_written]

/-! ## ASCII -/

theorem ident_ascii {s : Str} (h : Identifier s) : Ascii s := by
  intro c hc
  have := ident_name h c hc
  simp only [nameChar, cmdChar, isDigit, Bool.or_eq_true, Bool.and_eq_true, decide_eq_true_eq] at this
  rcases this with ⟨((((((h | h) | h) | h) | h) | h)), _⟩ | h
  · omega
  · omega
  · omega
  all_goals (subst h; decide)

theorem uri_ascii {u : Str} (h : Uri u) : Ascii u := fun c hc => by have := (h.2 c hc).2.1; omega

theorem line_ascii (pretty : Bool) (lvl : Nat) : Ascii (xmlLine pretty lvl) := by
  intro c hc
  cases pretty
  · simp [xmlLine] at hc
  · simp only [xmlLine, if_true, List.mem_cons, List.mem_replicate] at hc
    rcases hc with rfl | ⟨_, rfl⟩ <;> decide

theorem decl_ascii {p : Option Str} {u : Str} (hp : ∀ x, p = some x → Identifier x) (hu : Uri u) : Ascii (' ' :: xmlnsText p u) := by
  have hlit : ∀ s : Str, s.all (fun c => c.toNat < 128) = true → Ascii s := fun s h c hc => by simpa using List.all_eq_true.1 h c hc
  cases p with
  | none =>
    exact (ascii_append (ascii_append (hlit py!" xmlns=\"" rfl) (uri_ascii hu)) (hlit ['"'] rfl) :)
  | some x =>
    exact (ascii_append (ascii_append (ascii_append (ascii_append (hlit py!" xmlns:" rfl) (ident_ascii (hp x rfl))) (hlit py!"=\"" rfl)) (uri_ascii hu)) (hlit ['"'] rfl) :)

mutual
theorem write_ascii (pretty : Bool) (lvl : Nat) (inh : Str) : ∀ x, Writable x → Ascii (x.write pretty lvl inh)
  | .elem ns name decls text kids, h => by
    simp only [Writable] at h
    obtain ⟨hname, hns, _, hd, _, _, hall⟩ := h
    have hdecls : Ascii ((xmlOwnDecls inh ns decls).flatMap fun d => ' ' :: xmlnsText d.1 d.2) := by
      intro c hc
      obtain ⟨d, hdm, hc⟩ := List.mem_flatMap.1 hc
      refine decl_ascii ?_ ?_ c hc
      · intro p e
        rcases List.mem_append.1 (List.mem_filter.1 hdm).1 with hm | hm
        · obtain ⟨q, hq, rfl⟩ := List.mem_map.1 hm
          cases e; exact (hd q hq).1
        · simp at hm; subst hm; cases e
      · rcases List.mem_append.1 (List.mem_filter.1 hdm).1 with hm | hm
        · obtain ⟨q, hq, rfl⟩ := List.mem_map.1 hm
          exact (hd q hq).2
        · simp at hm; subst hm; exact hns
    have hlit : ∀ s : Str, s.all (fun c => c.toNat < 128) = true → Ascii s := fun s h c hc => by simpa using List.all_eq_true.1 h c hc
    simp only [Xml.write]
    refine ascii_append (ascii_append (ascii_cons (by decide) (ident_ascii hname)) hdecls) ?_
    split
    · exact hlit _ rfl
    · refine ascii_append (ascii_append (ascii_append (ascii_append (ascii_append (ascii_cons (by decide) ?_) ?_) ?_) ?_) ?_) ?_
      · intro c hc
        obtain ⟨d, _, hc⟩ := List.mem_flatMap.1 hc
        exact esc_ascii d c hc
      · exact writeAll_ascii _ _ _ kids hall
      · split
        · exact hlit _ rfl
        · exact line_ascii _ _
      · exact hlit _ rfl
      · exact ident_ascii hname
      · exact hlit _ rfl
theorem writeAll_ascii (pretty : Bool) (lvl : Nat) (inh : Str) : ∀ xs, WritableAll xs → Ascii (Xml.writeAll pretty lvl inh xs)
  | [], _ => by intro c hc; simp [Xml.writeAll] at hc
  | x :: xs, h => by
    simp only [WritableAll] at h
    rw [Xml.writeAll]
    exact ascii_append (ascii_append (line_ascii pretty lvl) (write_ascii pretty lvl inh x h.1)) (writeAll_ascii pretty lvl inh xs h.2)
end

end Pyb
