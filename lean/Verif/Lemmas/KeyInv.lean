import Verif.Lemmas.LoadInv

/-! # Keys and key leaves, throughout a session -/

namespace Pyb
open Py Spec

variable {st : Bool}

/-- No condition: the tree has the shape of its class. -/
abbrev Top : CInv := fun _ _ _ _ _ => True

theorem stable_top : Stable st true false (fun _ => True) Top := by
  constructor <;> intros <;> first | trivial | simp_all

/-- All entries of all lists agree with their keys. -/
inductive KeyInv : Schema → Inst → Prop where
  | leaf (L n) : KeyInv (.leaf L) n
  | leafList (L n) : KeyInv (.leafList L) n
  | cont (pres kids ch pr ns) :
      (∀ (i : Nat) (k : Meta × Schema) c, kids[i]? = some k → ns[i]? = some c → KeyInv k.2 c) → KeyInv (.cont pres kids) (.cont ch pr ns)
  | list (info kids ch es) : (∀ q ∈ es, info.keys ≠ [] → KeyAgrees info kids q.1 q.2) → (∀ q ∈ es, KeyInv (.cont false kids) q.2) →
      KeyInv (.list info kids) (.list ch es)

theorem keyInv_fresh : ∀ S, KeyInv S (fresh S) := by
  intro S
  induction S using Schema.ind with
  | hleaf L => exact .leaf ..
  | hll L => exact .leafList ..
  | hcont pres kids ih =>
    refine .cont _ _ _ _ _ ?_
    intro i k c hk hc
    rw [freshKids_get, hk] at hc
    simp at hc
    subst hc
    exact ih k (List.mem_of_getElem? hk)
  | hlist info kids ih => exact .list _ _ _ _ (by simp) (by simp)

theorem keyInv_freshKids (pres : Bool) (kids : List (Meta × Schema)) {ch pr : Bool} : KeyInv (.cont pres kids) (.cont ch pr (freshKids kids)) := by
  refine .cont _ _ _ _ _ ?_
  intro i k c hk hc
  rw [freshKids_get, hk] at hc
  simp at hc
  subst hc
  exact keyInv_fresh _

theorem keyInv_contPut {po : Option Choice} {pres : Bool} {kids : List (Meta × Schema)} {ch pr : Bool} {ns : List Inst} {i : Nat}
    {k : Meta × Schema} {o : Out} (hk : kids[i]? = some k) (hn : KeyInv (.cont pres kids) (.cont ch pr ns)) (ho : KeyInv k.2 o.inst) :
    KeyInv (.cont pres kids) (contPut pres po kids ch pr ns i o).inst := by
  obtain ⟨ns', h1, h2⟩ := contPut_spec pres po kids ch pr ns i o
  cases hn with
  | cont _ _ _ _ _ i3 =>
  rw [h1]
  refine .cont _ _ _ _ _ ?_
  intro j k' c' hk' hc'
  rw [h2 j, hk'] at hc'
  cases hx : (ns.set i o.inst)[j]? with
  | none => simp [hx, clr] at hc'
  | some x =>
    simp only [hx, clr, Option.some.injEq] at hc'
    subst hc'
    split
    · exact keyInv_fresh _
    · by_cases e : i = j
      · subst e
        have hi : i < ns.length := by
          have := (List.getElem?_eq_some_iff.1 hx).1
          simpa using this
        rw [List.getElem?_set_self hi] at hx
        simp at hx; subst hx
        rw [hk] at hk'; simp at hk'; subst hk'
        exact ho
      · rw [List.getElem?_set_ne e] at hx
        exact i3 j k' x hk' hx

theorem keyInv_copyKids {po : Option Choice} {pres : Bool} {kids : List (Meta × Schema)}
    (hkid : ∀ k ∈ kids, ∀ v, KeyInv k.2 (copyNode k.2 k.1.choice (fresh k.2) v).inst) (vs : List Inst) (sg : List (Option Choice)) :
    KeyInv (.cont pres kids) (copyKids pres po kids kids vs 0 ⟨.cont true pres (freshKids kids), sg, none⟩).inst := by
  refine copyKids_ind (P := fun o => KeyInv (.cont pres kids) o.inst) pres po kids ?_ kids vs 0 _ (by simp) rfl
    (keyInv_freshKids pres kids)
  intro i k v o ch pr ns hk ho hinv
  rw [ho] at hinv
  exact keyInv_contPut (po := po) hk hinv (hkid k (List.mem_of_getElem? hk) v)

theorem keyInv_copyNode : ∀ (S : Schema) (own : Option Choice) (n v : Inst), KeyInv S n → KeyInv S (copyNode S own n v).inst := by
  intro S
  induction S using Schema.ind with
  | hleaf L => intro own n v hn; exact .leaf ..
  | hll L => intro own n v hn; exact .leafList ..
  | hcont pres kids ih =>
    intro own n v hn
    cases v <;> simp only [copyNode] <;> try exact hn
    rename_i _ _ ns
    split
    · exact keyInv_copyKids (fun k hk v => ih k hk _ _ v (keyInv_fresh _)) ns _
    · exact hn
  | hlist info kids ih =>
    intro own n v hn
    cases v <;> simp only [copyNode] <;> first | exact hn | exact .list _ _ _ _ (by simp) (by simp)

theorem keyInv_keySet {kids : List (Meta × Schema)} {e : Inst} (he : KeyInv (.cont false kids) e) (j : Nat) (v : PyVal) :
    KeyInv (.cont false kids) (keySet kids e j v).inst := by
  simp only [keySet]
  split
  · rename_i m L ch pr ns hk
    exact keyInv_contPut hk he (.leaf ..)
  · exact he

theorem keyInv_setKeys {info : ListInfo} {kids : List (Meta × Schema)} {raws : List PyVal} : ∀ {i : Nat} {e e' : Inst},
    KeyInv (.cont false kids) e → setKeys (entryCls info kids) i raws e = .ok e' → KeyInv (.cont false kids) e' := by
  induction raws with
  | nil => intro i e e' he h; simp only [setKeys, Except.ok.injEq] at h; subst h; exact he
  | cons r rs ih =>
    intro i e e' he h
    simp only [setKeys, bind_ok] at h
    obtain ⟨e1, h1, h2⟩ := h
    refine ih ?_ h2
    simp only [entryCls] at h1
    split at h1
    · rw [← (toExcept_ok h1).2]; exact keyInv_keySet he ..
    · simp at h1

theorem keyInv_start {info : ListInfo} {kids : List (Meta × Schema)} {u v} {e : Inst} (h0 : startEntry (entryCls info kids) u v = .ok e) :
    KeyInv (.cont false kids) e := by
  unfold startEntry at h0
  split at h0
  · simp only [Except.ok.injEq] at h0; subst h0; exact keyInv_fresh (.cont false kids)
  · rename_i v
    obtain ⟨g1, g2⟩ := toExcept_ok h0
    subst g2
    cases v <;> simp only [copyEntry, fail, reduceCtorEq] at g1 ⊢
    exact keyInv_copyKids (pres := false) (fun k hk v => keyInv_copyNode _ _ _ _ (keyInv_fresh _)) _ _
  · simp at h0

theorem keyInv_mkEntry {info : ListInfo} {kids : List (Meta × Schema)} {u v raws} {e : Inst}
    (h : mkEntry (entryCls info kids) u v raws = .ok e) : KeyInv (.cont false kids) e := by
  simp only [mkEntry, bind_ok] at h
  obtain ⟨e0, h0, h1⟩ := h
  exact keyInv_setKeys (keyInv_start h0) h1

/-! ## Key leaves stay -/

/-- What `KeysPlain` says of one list. -/
def PlainHere (info : ListInfo) (kids : List (Meta × Schema)) : Prop := info.keys.Nodup ∧
  ∀ j ∈ info.keys, ∃ m L, kids[j]? = some (m, .leaf L) ∧ (m.choice = none ∨ ∀ k ∈ kids, k.1.choice = m.choice)

theorem plainHere {info kids} (h : KeysPlain (.list info kids)) : PlainHere info kids := h [] info kids rfl

theorem keysPlain_kid {pres} {kids : List (Meta × Schema)} {i : Nat} {k : Meta × Schema} (h : KeysPlain (.cont pres kids))
    (hk : kids[i]? = some k) : KeysPlain k.2 := by
  intro p info ks hp
  exact h (.field i :: p) info ks (by simp only [schemaAt, hk]; exact hp)

theorem keysPlain_entry {info kids} (h : KeysPlain (.list info kids)) : KeysPlain (.cont false kids) := by
  intro p info' ks hp
  exact h (.key .none :: p) info' ks (by simp only [schemaAt]; exact hp)

theorem not_rival {info kids} (h : PlainHere info kids) {i j : Nat} {k k' : Meta × Schema} (hi : kids[i]? = some k) (hj : kids[j]? = some k')
    (hjk : j ∈ info.keys) : ¬ Rivals k.1 k'.1 := by
  obtain ⟨m, L, hm, hc⟩ := h.2 j hjk
  rw [hm] at hj
  simp only [Option.some.injEq] at hj
  subst hj
  rintro ⟨c, d, h1, h2, h3, h4⟩
  rcases hc with hc | hc
  · simp [hc] at h2
  · rw [hc k (List.mem_of_getElem? hi), h2] at h1
    simp at h1
    exact h4 (by rw [h1])

/-- An operation on another child of an entry leaves the key leaves alone. -/
theorem contPut_keeps {a : List Str} {w po : Option Choice} {info : ListInfo} {kids : List (Meta × Schema)}
    (hf : Choices st a w (.list info kids)) (hP : PlainHere info kids) {ch pr : Bool} {ns : List Inst} (hl : ns.length = kids.length)
    {i : Nat} {k : Meta × Schema} {o : Out} (hk : kids[i]? = some k) (hg : GoodSigs st (choiceNames kids ++ a) k.1.choice o.sigs) :
    (contPut false po kids ch pr ns i o).inst.kids[i]? = some o.inst ∧
    ∀ j ∈ info.keys, j ≠ i → (contPut false po kids ch pr ns i o).inst.kids[j]? = ns[j]? := by
  have hi : i < ns.length := by rw [hl]; exact (List.getElem?_eq_some_iff.1 hk).1
  obtain ⟨ns', h1, h2, _, _, _, h6⟩ := contPut_flat (pres := false) (po := po) (ch := ch) (pr := pr) hf hk hi hg
  rw [h1]
  refine ⟨h2, fun j hj hne => ?_⟩
  obtain ⟨m, L, hm, _⟩ := hP.2 j hj
  exact h6 j _ hm hne fun hr => absurd hr (not_rival hP hk hm hj)

theorem nodeAt_one {e : Inst} {pres kids} (h : TreeInv Top (.cont pres kids) e) (j : Nat) : nodeAt e [.field j] = e.kids[j]? := by
  obtain ⟨ch, pr, ns, rfl, _⟩ := h.cont_inv
  simp only [nodeAt, Inst.kids]
  cases ns[j]? <;> rfl

theorem keySet_holds {a : List Str} {w : Option Choice} {info : ListInfo} {kids : List (Meta × Schema)} (hf : Choices st a w (.list info kids))
    (hP : PlainHere info kids) {e : Inst} (he : TreeInv Top (.cont false kids) e) {j : Nat} (hj : j ∈ info.keys) {v : PyVal}
    (ho : (keySet kids e j v).err = none) :
    TreeInv Top (.cont false kids) (keySet kids e j v).inst ∧ HoldsKey kids (keySet kids e j v).inst j v ∧
    ∀ j' ∈ info.keys, j' ≠ j → (keySet kids e j v).inst.kids[j']? = e.kids[j']? := by
  have hT := keySet_inv (above := a) (own := w) stable_top (fun _ => hf) he j v
  refine ⟨hT, ?_⟩
  obtain ⟨m, L, hm, _⟩ := hP.2 j hj
  obtain ⟨ch, pr, ns, rfl, _, hl, _⟩ := he.cont_inv
  unfold HoldsKey
  rw [nodeAt_one hT]
  simp only [keySet, hm] at ho ⊢
  have hw : ∃ w, L.set v = .ok w := by
    simp only [contPut, leafSet] at ho
    split at ho <;> simp at ho
    rename_i w hw
    exact ⟨w, hw⟩
  obtain ⟨w', hw⟩ := hw
  obtain ⟨h1, h2⟩ := contPut_keeps (po := none) hf hP (ch := ch) (pr := pr) hl hm
    (o := leafSet L m.choice (ns.getD j (fresh (.leaf L))) v) (leafSet_good ..)
  refine ⟨⟨m, L, w', rfl, ?_, hw⟩, h2⟩
  rw [h1]
  simp [leafSet, hw]

theorem setKeys_holds {a : List Str} {w : Option Choice} {info : ListInfo} {kids : List (Meta × Schema)} (hf : Choices st a w (.list info kids))
    (hP : PlainHere info kids) : ∀ {raws : List PyVal} {i : Nat} {e e' : Inst}, TreeInv Top (.cont false kids) e →
      setKeys (entryCls info kids) i raws e = .ok e' →
      (∀ (b : Nat) r j, raws[b]? = some r → info.keys[i + b]? = some j → HoldsKey kids e' j r) ∧
      (∀ (b : Nat) j, b < i → info.keys[b]? = some j → e'.kids[j]? = e.kids[j]?) := by
  intro raws
  induction raws with
  | nil =>
    intro i e e' he h
    simp only [setKeys, Except.ok.injEq] at h
    subst h
    exact ⟨by simp, fun _ _ _ _ => rfl⟩
  | cons r rs ih =>
    intro i e e' he h
    simp only [setKeys, bind_ok] at h
    obtain ⟨e1, h1, h2⟩ := h
    simp only [entryCls] at h1
    split at h1
    case h_2 => simp at h1
    case h_1 j hj =>
    obtain ⟨g1, rfl⟩ := toExcept_ok h1
    have hjm := List.mem_of_getElem? hj
    obtain ⟨a1, a2, a3⟩ := keySet_holds hf hP he hjm g1
    obtain ⟨b1, b2⟩ := ih a1 h2
    have hT := setKeys_inv (above := a) (own := w) stable_top (fun _ => hf) a1 h2
    refine ⟨fun b r' j' hr hj' => ?_, fun b j' hb hj' => ?_⟩
    · cases b with
      | zero =>
        simp at hr hj'
        subst hr
        rw [hj] at hj'; simp at hj'; subst hj'
        obtain ⟨m, L, v, c1, c2, c3⟩ := a2
        refine ⟨m, L, v, c1, ?_, c3⟩
        rw [nodeAt_one a1] at c2
        rw [nodeAt_one hT, b2 i j (by omega) hj]; exact c2
      | succ b =>
        simp at hr
        exact b1 b r' j' hr (by rw [show i + 1 + b = i + (b + 1) by omega]; exact hj')
    · rw [b2 b j' (by omega) hj']
      refine a3 j' (List.mem_of_getElem? hj') ?_
      rintro rfl
      obtain ⟨hb1, hb2⟩ := List.getElem?_eq_some_iff.1 hj'
      obtain ⟨hi1, hi2⟩ := List.getElem?_eq_some_iff.1 hj
      have := List.pairwise_iff_getElem.1 hP.1 b i hb1 hi1 hb
      exact this (by rw [hb2, hi2])

/-- A new entry holds the values it was made with. -/
theorem mkEntry_holds {a : List Str} {w : Option Choice} {info : ListInfo} {kids : List (Meta × Schema)} (hf : Choices st a w (.list info kids))
    (hP : PlainHere info kids) {u v raws e} (h : mkEntry (entryCls info kids) u v raws = .ok e) :
    ∀ (i : Nat) j r, info.keys[i]? = some j → raws[i]? = some r → HoldsKey kids e j r := by
  simp only [mkEntry, bind_ok] at h
  obtain ⟨e0, h0, h1⟩ := h
  have hT : TreeInv Top (.cont false kids) e0 :=
    made_inv (above := a) (own := w) (info := { info with keys := [] }) stable_top (fun _ => hf) (.inr ⟨u, v, [], by simp, by
      simp only [mkEntry, setKeys, bind_ok]
      exact ⟨e0, h0, rfl⟩⟩)
  intro i j r hj hr
  exact (setKeys_holds hf hP hT h1).1 i r j hr (by simpa using hj)

theorem agrees_congr {info kids k k' e} (h : pyEq k k' = true) (hk : KeyAgrees info kids k e) : KeyAgrees info kids k' e := by
  obtain ⟨raws, h1, h2, h3⟩ := hk
  refine ⟨raws, h1, ?_, h3⟩
  rcases h2 with ⟨r, b, c⟩ | ⟨a, b⟩
  · refine .inl ⟨r, b, ?_⟩
    rcases c with c | c
    · left; rw [pyEq_symm] at h; rw [pyEq_trans h]; exact c
    · right; subst c; exact pyEq_str h
  · refine .inr ⟨a, ?_⟩
    subst b; exact pyEq_str h

theorem written_pos {n : Nat} {k : PyVal} {raws : List PyVal} (hk : keyParts n k = .ok raws) : raws.length = n ∧ WrittenAs k raws := by
  obtain ⟨hl, h⟩ := keyParts_ok hk
  refine ⟨hl, ?_⟩
  rcases h with ⟨_, h2, _⟩ | ⟨h1, s, h2, h3⟩
  · exact .inl ⟨k, h2, .inl (pyEq_refl k)⟩
  · refine .inr ⟨by omega, ?_⟩
    rw [h2, h3]
    congr 1
    rw [List.map_map]
    have : (PyVal.toStr ∘ PyVal.str) = (id : Str → Str) := rfl
    rw [this, List.map_id]
    exact (join_splitOn ' ' s).symm

theorem written_named (raws : List PyVal) : WrittenAs (namedKey raws) raws := by
  by_cases h : raws.length = 1
  · left
    match raws, h with
    | [r], _ => exact ⟨r, rfl, .inr rfl⟩
  · exact .inr ⟨h, rfl⟩

theorem store_key {E} {ms : Members E} {k : PyVal} {e : E} {q : PyVal × E} (h : q ∈ store ms k e) : q ∈ ms ∨ (q.2 = e ∧ pyEq k q.1 = true) := by
  induction ms with
  | nil => simp [store] at h; subst h; exact .inr ⟨rfl, pyEq_refl _⟩
  | cons p ms ih =>
    simp only [store] at h
    split at h
    · rename_i hp
      rcases List.mem_cons.1 h with rfl | h
      · exact .inr ⟨rfl, by rw [pyEq_symm]; exact hp⟩
      · exact .inl (List.mem_cons_of_mem _ h)
    · rcases List.mem_cons.1 h with rfl | h
      · exact .inl (List.mem_cons_self ..)
      · exact (ih h).imp (List.mem_cons_of_mem _) id

/-! ## Operations -/

theorem keyInv_listOut {a : List Str} {w : Option Choice} {info : ListInfo} {kids : List (Meta × Schema)} (hf : Choices st a w (.list info kids))
    (hP : PlainHere info kids) {ch ch' : Bool} {es : Members Inst} (hn : KeyInv (.list info kids) (.list ch es)) {op : LOp Inst}
    (hop : ∀ k f, op ≠ .edit k f) (sg : List (Option Choice)) :
    KeyInv (.list info kids) (listOut ch' es sg (ylStep (entryCls info kids) info.keys.length es op)).inst := by
  cases hn with
  | list _ _ _ _ h1 h2 =>
  cases hr : ylStep (entryCls info kids) info.keys.length es op with
  | error e => exact .list _ _ _ _ h1 h2
  | ok es' =>
    simp only [listOut]
    rcases ylStep_ok hr with ⟨k, u, v, raws, e, hk, he, rfl, _⟩ | ⟨raws, u, v, e, hl, he, rfl, _⟩ | ⟨k, he, _⟩ | ⟨k, f, e, he, _⟩
    · refine .list _ _ _ _ (fun q hq hne => ?_) fun q hq => ?_
      · rcases store_key hq with h | ⟨h, hk'⟩
        · exact h1 q h hne
        · rw [h]
          exact agrees_congr hk' ⟨raws, (written_pos hk).1, (written_pos hk).2, mkEntry_holds hf hP he⟩
      · rcases store_key hq with h | ⟨h, _⟩
        · exact h2 q h
        · rw [h]; exact keyInv_mkEntry he
    · refine .list _ _ _ _ (fun q hq hne => ?_) fun q hq => ?_
      · rcases store_key hq with h | ⟨h, hk'⟩
        · exact h1 q h hne
        · rw [h]
          exact agrees_congr hk' ⟨raws, hl, written_named raws, mkEntry_holds hf hP he⟩
      · rcases store_key hq with h | ⟨h, _⟩
        · exact h2 q h
        · rw [h]; exact keyInv_mkEntry he
    · obtain ⟨l, p, r, e1, _, _, e4⟩ := erase_ok he
      subst e1; subst e4
      have hsub : ∀ q ∈ l ++ r, q ∈ l ++ p :: r := by
        intro q hq
        simp only [List.mem_append, List.mem_cons] at hq ⊢
        rcases hq with hq | hq <;> simp [hq]
      exact .list _ _ _ _ (fun q hq => h1 q (hsub q hq)) fun q hq => h2 q (hsub q hq)
    · exact absurd he (hop _ _)

theorem keyInv_nodeOp {a : List Str} {w own : Option Choice} {S : Schema} {n : Inst} {op : Op} (hf : Choices st a w S) (hP : KeysPlain S)
    (hn : KeyInv S n) : KeyInv S (nodeOp S own n op).inst := by
  by_cases hu : op = .unset
  · subst hu; cases S <;> exact keyInv_fresh _
  by_cases ha : ∃ v, op = .assign v
  · obtain ⟨v, rfl⟩ := ha
    have e : nodeOp S own n (.assign v) = copyNode S own n v := by cases S <;> rfl
    rw [e]
    exact keyInv_copyNode _ _ _ _ hn
  have ha : ∀ v, op ≠ .assign v := fun v hv => ha ⟨v, hv⟩
  cases hn with
  | leaf => exact .leaf ..
  | leafList => exact .leafList ..
  | cont pres kids ch pr ns h =>
    cases op with
    | present x => cases x <;> exact .cont _ _ _ _ _ h
    | unset => exact absurd rfl hu
    | assign v => exact absurd rfl (ha _)
    | _ => exact .cont _ _ _ _ _ h
  | list info kids ch es h1 h2 =>
    have hn : KeyInv (.list info kids) (.list ch es) := .list _ _ _ _ h1 h2
    have hn' : KeyInv (.list info kids) (.list true es) := .list _ _ _ _ h1 h2
    have hst : ∀ ch' k, info.keys = [] → KeyInv (.list info kids) (.list ch' (store es k (.cont false false (freshKids kids)))) := by
      intro ch' k he
      refine .list _ _ _ _ (fun q _ hne => absurd he hne) fun q hq => ?_
      rcases store_key hq with h | ⟨h, _⟩
      · exact h2 q h
      · rw [h]; exact keyInv_freshKids ..
    cases op with
    | unset => exact absurd rfl hu
    | assign v => exact absurd rfl (ha _)
    | add k =>
      simp only [nodeOp]
      split
      · exact hn
      · exact keyInv_listOut hf (plainHere hP) hn (op := .add k) (by simp) _
    | addNamed raws =>
      simp only [nodeOp]
      split
      · exact hn
      · rename_i hc
        have hl : raws.length = info.keys.length := by simp only [not_or, ne_eq, Decidable.not_not] at hc; exact hc.2
        have := keyInv_listOut (ch' := ch) hf (plainHere hP) hn (op := .addNamed raws none) (by simp) (addNamedSigs info kids es raws)
        simpa only [ylStep, hl, if_true] using this
    | addAnon u =>
      simp only [nodeOp]
      split
      · exact hst _ _ ‹_›
      · exact hn
    | append v =>
      simp only [nodeOp]
      split
      · exact hn'
      · exact keyInv_listOut hf (plainHere hP) hn (op := .append v) (by simp) _
    | setitem k v =>
      simp only [nodeOp]
      split
      · split
        · exact hst _ _ ‹_›
        · exact hn'
      · exact keyInv_listOut hf (plainHere hP) hn (op := .setitem k (some v)) (by simp) _
    | delete k => exact keyInv_listOut hf (plainHere hP) hn (op := .delete k) (by simp) _
    | set v l => exact hn
    | ll o => exact hn
    | present x => cases x <;> exact hn

theorem agrees_keep {info kids k} {e e' : Inst} (h1 : TreeInv Top (.cont false kids) e) (h2 : TreeInv Top (.cont false kids) e')
    (hk : ∀ j ∈ info.keys, e'.kids[j]? = e.kids[j]?) (h : KeyAgrees info kids k e) : KeyAgrees info kids k e' := by
  obtain ⟨raws, a1, a2, a3⟩ := h
  refine ⟨raws, a1, a2, fun i j r hj hr => ?_⟩
  obtain ⟨m, L, v, b1, b2, b3⟩ := a3 i j r hj hr
  refine ⟨m, L, v, b1, ?_, b3⟩
  rw [nodeAt_one h2, hk j (List.mem_of_getElem? hj), ← nodeAt_one h1]
  exact b2

/-- Changing an entry in place. -/
theorem keyInv_entry {info : ListInfo} {kids : List (Meta × Schema)} {ch : Bool} {es : Members Inst} {k : PyVal} {q : PyVal × Inst} {o : Out}
    (hq : es.find? (fun q => pyEq q.1 k) = some q) (hn : KeyInv (.list info kids) (.list ch es)) (hT : TreeInv Top (.cont false kids) q.2)
    (hT' : TreeInv Top (.cont false kids) o.inst) (ho : KeyInv (.cont false kids) o.inst) (hk : ∀ j ∈ info.keys, o.inst.kids[j]? = q.2.kids[j]?) :
    KeyInv (.list info kids) (.list ch (store es k o.inst)) := by
  cases hn with
  | list _ _ _ _ h1 h2 =>
  have hm := List.mem_of_find?_eq_some hq
  have hqk : pyEq q.1 k = true := by simpa using List.find?_some hq
  refine .list _ _ _ _ (fun x hx hne => ?_) fun x hx => ?_
  · rcases store_key hx with h | ⟨h, hk'⟩
    · exact h1 x h hne
    · rw [h]
      refine agrees_congr hk' (agrees_congr hqk (agrees_keep hT hT' hk (h1 q hm hne)))
  · rcases store_key hx with h | ⟨h, _⟩
    · exact h2 x h
    · rw [h]; exact ho

/-- An operation spares the key leaves below an object. -/
def Spares (S : Schema) (p : Path) (op : Op) : Prop :=
  ∀ q k j info lk, p = q ++ [.key k, .field j] → schemaAt S q = some (.list info lk) → j ∈ info.keys → op ≠ .unset ∧ ∀ v, op ≠ .set v true

theorem spares_kid {pres} {kids : List (Meta × Schema)} {i : Nat} {k : Meta × Schema} {p op} (h : Spares (.cont pres kids) (.field i :: p) op)
    (hk : kids[i]? = some k) : Spares k.2 p op := by
  intro q k' j info lk hp hq hj
  exact h (.field i :: q) k' j info lk (by rw [hp]; rfl) (by simp only [schemaAt, hk]; exact hq) hj

theorem spares_entry {info kids k p op} (h : Spares (.list info kids) (.key k :: p) op) : Spares (.cont false kids) p op := by
  intro q k' j info' lk hp hq hj
  exact h (.key k :: q) k' j info' lk (by rw [hp]; rfl) (by simp only [schemaAt]; exact hq) hj

/-- An operation below an entry keeps its key leaves. -/
theorem run_keeps {a : List Str} {w : Option Choice} {info : ListInfo} {kids : List (Meta × Schema)} (hf : Choices st a w (.list info kids))
    (hP : PlainHere info kids) {k : PyVal} {e : Inst} (he : TreeInv Top (.cont false kids) e) {p : Path} {op : Op} (hp : p ≠ [])
    (hg : keyGuard info p op = false) (hs : Spares (.list info kids) (.key k :: p) op) :
    ∀ j ∈ info.keys, (run (.cont false kids) none e p op).inst.kids[j]? = e.kids[j]? := by
  intro j hj
  cases p with
  | nil => exact absurd rfl hp
  | cons s p =>
    have hr := run_shape (.cont false kids) none e s p op
    generalize hrun : run (.cont false kids) none e (s :: p) op = o at hr ⊢
    cases hr with
    | stuck => rfl
    | field _ _ ch pr ns i k' c hk hc =>
      obtain ⟨_, _, _, hh, _, hl, _⟩ := he.cont_inv
      simp only [Inst.cont.injEq] at hh
      obtain ⟨rfl, rfl, rfl⟩ := hh
      have hgood : GoodSigs st (choiceNames kids ++ a) k'.1.choice (run k'.2 k'.1.choice c p op).sigs :=
        run_good (flatKids_mem hf (List.mem_of_getElem? hk)).2.2 (.inl rfl)
      obtain ⟨c1, c2⟩ := contPut_keeps (po := none) hf hP (ch := ch) (pr := pr) hl hk hgood
      by_cases hji : j = i
      · subst hji
        rw [c1]
        show _ = ns[j]?
        rw [hc]
        obtain ⟨m, L, hm, _⟩ := hP.2 j hj
        rw [hm] at hk
        simp only [Option.some.injEq] at hk
        subst hk
        cases p with
        | cons s' p =>
          have hr2 := run_shape (.leaf L) m.choice c s' p op
          generalize run (.leaf L) m.choice c (s' :: p) op = o2 at hr2
          cases hr2
          rfl
        | nil =>
          obtain ⟨hu, hset⟩ := hs [] k j info kids rfl rfl hj
          rw [run_nil]
          have hjc : info.keys.contains j = true := by simpa using hj
          cases op with
          | unset => exact absurd rfl hu
          | set v l =>
            cases l with
            | true => exact absurd rfl (hset v)
            | false => simp only [keyGuard, hjc] at hg; exact absurd hg (by simp)
          | assign v => simp only [keyGuard, hjc] at hg; exact absurd hg (by simp)
          | present x => cases c <;> cases x <;> rfl
          | _ => cases c <;> rfl
      · exact c2 j hj hji

theorem keyInv_run {p : Path} : ∀ {a : List Str} {w po : Option Choice} {S : Schema} {n : Inst} {op : Op}, Choices st a w S → KeysPlain S →
    (po = w ∨ (po = none ∧ p ≠ [])) → Spares S p op → TreeInv Top S n → KeyInv S n → KeyInv S (run S po n p op).inst := by
  induction p with
  | nil => intro a w po S n op hf hP _ _ _ hn; rw [run_nil]; exact keyInv_nodeOp hf hP hn
  | cons s p ih =>
    intro a w po S n op hf hP hpo hs hT hn
    have hr := run_shape S po n s p op
    generalize run S po n (s :: p) op = o at hr
    cases hr with
    | stuck => exact hn
    | field pres kids ch pr ns i k c hk hc =>
      have hn' := hn
      cases hn' with
      | cont _ _ _ _ _ i3 =>
      obtain ⟨_, _, _, he, _, _, t3⟩ := hT.cont_inv
      simp only [Inst.cont.injEq] at he
      obtain ⟨rfl, rfl, rfl⟩ := he
      exact keyInv_contPut hk hn (ih (flatKids_mem hf (List.mem_of_getElem? hk)).2.2 (keysPlain_kid hP hk) (.inl rfl) (spares_kid hs hk)
        (t3 i k c hk hc) (i3 i k c hk hc))
    | entry info kids ch es k q hk hq hp hg =>
      have hm := List.mem_of_find?_eq_some hq
      have hn' := hn
      cases hn' with
      | list _ _ _ _ h1 h2 =>
      cases hT with
      | list _ _ _ _ t =>
      have hf' : Choices st a w (.cont false kids) := hf
      have hT' : TreeInv Top (.cont false kids) (run (.cont false kids) none q.2 p op).inst :=
        run_inv (above := a) (own := w) stable_top (fun _ => hf') (.inr ⟨rfl, hp⟩) trivial (t q hm)
      exact keyInv_entry hq hn (t q hm) hT' (ih (w := w) hf' (keysPlain_entry hP) (.inr ⟨rfl, hp⟩) (spares_entry hs) (t q hm) (h2 q hm))
        (run_keeps hf (plainHere hP) (t q hm) hp hg hs)

/-! ## Loading entries keeps their key leaves -/

theorem withKid_keeps {a : List Str} {w po : Option Choice} {info : ListInfo} {kids : List (Meta × Schema)} (hf : Choices st a w (.list info kids))
    (hP : PlainHere info kids) {e : Inst} (he : TreeInv Top (.cont false kids) e) {name : Str} {u : Out} {f : Nat → Meta × Schema → Inst → Out}
    (hu : u.inst = e) (hkey : ∀ i k L c, kids[i]? = some k → i ∈ info.keys → k.2 = .leaf L → (f i k c).inst = c)
    (hg : ∀ (i : Nat) k c, kids[i]? = some k → TreeInv Top k.2 c → GoodSigs st (choiceNames kids ++ a) k.1.choice (f i k c).sigs) :
    ∀ j ∈ info.keys, (withKid true (.cont false kids) po e name u f).inst.kids[j]? = e.kids[j]? := by
  intro j hj
  obtain ⟨ch, pr, ns, rfl, _, hl, h3⟩ := he.cont_inv
  unfold withKid
  simp only
  split
  · rw [hu]
  · rename_i i _
    split
    · rename_i k ch' pr' ns' hk heq
      simp only [Inst.cont.injEq] at heq
      obtain ⟨rfl, rfl, rfl⟩ := heq
      split
      · rename_i c hc
        simp only [holdPut, if_true]
        obtain ⟨c1, c2⟩ := contPut_keeps (po := po) hf hP (ch := ch) (pr := pr) hl hk (hg i k c hk (h3 i k c hk hc))
        by_cases hji : j = i
        · subst hji
          obtain ⟨m, L, hm, _⟩ := hP.2 j hj
          rw [c1]
          have : k.2 = .leaf L := by rw [hm] at hk; simp at hk; rw [← hk]
          rw [hkey j k L c hk hj this]
          exact hc.symm
        · exact c2 j hj hji
      · rfl
    · rfl

theorem keeps_andThen {e : Inst} {o : Out} {f : Inst → Out} {keys : List Nat} (h1 : ∀ j ∈ keys, o.inst.kids[j]? = e.kids[j]?)
    (h2 : ∀ j ∈ keys, (f o.inst).inst.kids[j]? = o.inst.kids[j]?) : ∀ j ∈ keys, (o.andThen f).inst.kids[j]? = e.kids[j]? := by
  intro j hj
  unfold Out.andThen
  split
  · exact h1 j hj
  · exact (h2 j hj).trans (h1 j hj)

theorem shapeStep : StepRel st false (fun _ => True) (InvStep st true false Top) := invStep stable_top fun _ _ _ _ _ _ => trivial

theorem ietfMembers_leaf {g L w c} : ∀ {ms : List (Str × J)}, (ietfMembers g true (.leaf L) [] w c ms).inst = c := by
  intro ms
  induction ms generalizing c with
  | nil => simp [ietfMembers, Out.same]
  | cons m ms ih =>
    simp only [ietfMembers]
    have hfst : (if '@' ∈ m.1 then Out.same c else withKid true (.leaf L) w c (localKey m.1) (ietfUnknown g.skip c m.2)
        fun i k c => ietfChild g k.2 k.1.choice (([] : List Nat).contains i) c m.2).inst = c := by
      split
      · rfl
      · simp only [withKid]
        unfold ietfUnknown
        split
        · rfl
        · rfl
        · split <;> rfl
    unfold Out.andThen
    split
    · exact hfst
    · simp only [hfst]; exact ih

theorem ietfChild_key {g L w c j} : (ietfChild g (.leaf L) w true c j).inst = c := by
  cases j with
  | obj ms =>
    simp only [ietfChild, markPresent, Out.same, Out.andThen]
    exact ietfMembers_leaf
  | arr xs =>
    simp only [ietfChild]
    split <;> rfl
  | _ => rfl

theorem ietfKeeps (g : LoadOpt) : IetfKeeps st g := by
  intro x a w info kids e hf hP he
  cases x with
  | obj ms =>
    simp only [ietfElem]
    have hp : ∀ op, Plain op → True := fun _ _ => trivial
    have hA : ∀ S, AnonOk (fun _ => True) S := fun S => .inl fun _ => trivial
    have hf' : Choices st a w (.cont false kids) := hf
    induction ms generalizing e with
    | nil => intro j _; simp [ietfMembers, Out.same]
    | cons m ms ih =>
      simp only [ietfMembers]
      refine keeps_andThen ?_ (ih _ ?_)
      · split
        · intro j _; rfl
        · refine withKid_keeps hf (plainHere hP) he ?_ ?_ ?_
          · unfold ietfUnknown
            split
            · rfl
            · rfl
            · split <;> rfl
          · intro i k L c hk hi hL
            have : info.keys.contains i = true := by simpa using hi
            rw [hL, this]
            exact ietfChild_key
          · intro i k c hk hc
            exact ((ietfChild_step shapeStep hp g (by simp) m.2).1 _ _ _ _ c (hA _) (fun _ => (flatKids_mem hf (List.mem_of_getElem? hk)).2.2) hc).2.1 rfl
      · split
        · exact he
        · have := withKid_step (shapeStep (st := st)) (a := a) (w := w) (po := none) (S := .cont false kids) (n := e) (name := localKey m.1)
            (u := ietfUnknown g.skip e m.2) (f := fun i k c => ietfChild g k.2 k.1.choice (info.keys.contains i) c m.2) (.inr rfl)
            (ietfUnknown_step shapeStep _ _ _ _ _ _) (fun pres kids' i k c _ hk => (ietfChild_step shapeStep hp g (by simp) m.2).1 _ _ _ _ c (hA _))
          exact (this (fun _ => hf') he).1
  | _ => intro j _; rfl

theorem xmlChild_key {infer L w c} : ∀ {x : Xml}, (xmlChild infer (.leaf L) w true c x).inst = c
  | .elem .. => by simp [xmlChild, xmlSet, Out.same]

theorem xmlKeeps (infer : Str → PyVal) : XmlKeeps st infer := by
  intro xs a w info kids e hf hP he
  have hp : ∀ op, Plain op → True := fun _ _ => trivial
  have hf' : Choices st a w (.cont false kids) := hf
  induction xs generalizing e with
  | nil => intro j _; simp [xmlMembers, Out.same]
  | cons x xs ih =>
    simp only [xmlMembers]
    refine keeps_andThen ?_ (ih _ ?_)
    · refine withKid_keeps hf (plainHere hP) he rfl ?_ ?_
      · intro i k L c hk hi hL
        have : info.keys.contains i = true := by simpa using hi
        rw [hL, this]
        exact xmlChild_key
      · intro i k c hk hc
        exact (xmlChild_step shapeStep hp infer (by simp) x (fun _ => (flatKids_mem hf (List.mem_of_getElem? hk)).2.2) hc).2.1 rfl
    · have := withKid_step (shapeStep (st := st)) (a := a) (w := w) (po := none) (S := .cont false kids) (n := e) (name := x.name)
        (u := fail e .attributeError) (f := fun i k c => xmlChild infer k.2 k.1.choice (info.keys.contains i) c x) (.inr rfl)
        (shapeStep.fail _ _ _ _ _) (fun pres kids' i k c _ hk => xmlChild_step shapeStep hp infer (by simp) x)
      exact (this (fun _ => hf') he).1

/-! ## Sessions -/

/-- What a step must do to keep keys and key leaves together. -/
def KeyStep (st : Bool) (a : List Str) (w : Option Choice) (S : Schema) (n : Inst) (o : Out) : Prop :=
  InvStep st true false Top a w S n o ∧ (Choices st a w S → KeysPlain S → TreeInv Top S n → KeyInv S n → KeyInv S o.inst)

theorem keyStep : StepRel st true (fun _ => True) (KeyStep st) where
  same a w S n := ⟨shapeStep.same _ _ _ _, fun _ _ _ h => h⟩
  fail a w S n e := ⟨shapeStep.fail _ _ _ _ _, fun _ _ _ h => h⟩
  mark a w S n e := ⟨shapeStep.mark _ _ _ _ _, fun _ _ _ h => h⟩
  seq a w S n o p h1 h2 := ⟨shapeStep.seq _ _ _ _ _ _ h1.1 h2.1, fun hf hP hT h =>
    h2.2 hf hP (h1.1 (fun _ => hf) hT).1 (h1.2 hf hP hT h)⟩
  op a w S n op h := ⟨shapeStep.op _ _ _ _ _ h, fun hf hP _ h => keyInv_nodeOp hf hP h⟩
  kid a w po pres kids ch pr ns i k c o hpo hk hc h := by
    refine ⟨shapeStep.kid _ _ _ _ _ _ _ _ _ _ _ _ hpo hk hc h.1, fun hf hP hT hn => ?_⟩
    obtain ⟨_, _, _, he, _, _, t3⟩ := hT.cont_inv
    simp only [Inst.cont.injEq] at he
    obtain ⟨rfl, rfl, rfl⟩ := he
    have hn' := hn
    cases hn' with
    | cont _ _ _ _ _ i3 =>
    exact keyInv_contPut hk hn (h.2 (flatKids_mem hf (List.mem_of_getElem? hk)).2.2 (keysPlain_kid hP hk) (t3 i k c hk hc) (i3 i k c hk hc))
  entry a w info kids ch es k q o hq h hk := by
    refine ⟨shapeStep.entry _ _ _ _ _ _ _ _ _ hq h.1 (by simp), fun hf hP hT hn => ?_⟩
    have hm := List.mem_of_find?_eq_some hq
    cases hT with
    | list _ _ _ _ t =>
    have hn' := hn
    cases hn' with
    | list _ _ _ _ h1 h2 =>
    have hf' : Choices st a w (.cont false kids) := hf
    exact keyInv_entry hq hn (t q hm) (h.1 (fun _ => hf') (t q hm)).1 (h.2 hf' (keysPlain_entry hP) (t q hm) (h2 q hm)) (hk rfl hf hP (t q hm))
  drop a w info kids ch es es' e hs := by
    refine ⟨shapeStep.drop _ _ _ _ _ _ _ _ hs, fun hf hP hT hn => ?_⟩
    cases hn with
    | list _ _ _ _ h1 h2 =>
    exact .list _ _ _ _ (fun q hq => h1 q (hs.subset hq)) fun q hq => h2 q (hs.subset hq)
  reset a w pres kids ch pr ns := ⟨shapeStep.reset _ _ _ _ _ _ _, fun _ _ _ _ => keyInv_freshKids ..⟩

theorem keyInv_at : ∀ {p : Path} {S T : Schema} {n m : Inst}, KeyInv S n → schemaAt S p = some T → nodeAt n p = some m → KeyInv T m := by
  intro p
  induction p with
  | nil => intro S T n m h hS hn; simp at hS hn; subst hS; subst hn; exact h
  | cons s p ih =>
    intro S T n m h hS hn
    cases h with
    | leaf => cases s <;> simp [schemaAt] at hS
    | leafList => cases s <;> simp [schemaAt] at hS
    | cont pres kids ch pr ns h3 =>
      cases s with
      | key k => simp [schemaAt] at hS
      | field i =>
        simp only [schemaAt, nodeAt] at hS hn
        cases hk : kids[i]? with
        | none => simp [hk] at hS
        | some k =>
          cases hc : ns[i]? with
          | none => simp [hc] at hn
          | some c => simp only [hk, hc] at hS hn; exact ih (h3 i k c hk hc) hS hn
    | list info kids ch es h1 h2 =>
      cases s with
      | field i => simp [schemaAt] at hS
      | key k =>
        simp only [schemaAt, nodeAt] at hS hn
        cases hq : es.find? fun q => pyEq q.1 k with
        | none => simp [hq] at hn
        | some q => simp only [hq] at hn; exact ih (h2 q (List.mem_of_find?_eq_some hq)) hS hn

theorem session_keys {kids : List (Meta × Schema)} (hf : ChoicesRoot st kids) (hP : ∀ k ∈ kids, KeysPlain k.2) (acts : List Act)
    (hops : ∀ p op, Act.api p op ∈ acts → SparesKeys kids p op) (hnat : ∀ g doc, Act.native g doc ∉ acts) {ns}
    (h : RootP (fun k c => TreeInv Top k.2 c ∧ KeyInv k.2 c) kids ns) :
    RootP (fun k c => TreeInv Top k.2 c ∧ KeyInv k.2 c) kids (session kids ns acts) := by
  have hp : ∀ op, Plain op → True := fun _ _ => trivial
  have hA : ∀ S, AnonOk (fun _ => True) S := fun S => .inl fun _ => trivial
  induction acts generalizing ns with
  | nil => exact h
  | cons x acts ih =>
    refine ih (fun p op hx => hops p op (List.mem_cons_of_mem _ hx)) (fun g doc hx => hnat g doc (List.mem_cons_of_mem _ hx)) ?_
    cases x with
    | api p op =>
      have hs := hops p op (List.mem_cons_self ..)
      simp only [act]
      unfold runRoot
      split
      · rename_i i p
        split
        · rename_i k c hk hc
          refine ⟨by simpa using h.1, ?_⟩
          intro j k' c' hk' hc'
          by_cases e : i = j
          · subst e
            rw [List.getElem?_set_self (List.getElem?_eq_some_iff.1 hc).1] at hc'
            simp at hc'; subst hc'
            rw [hk] at hk'; simp at hk'; subst hk'
            have hkm := List.mem_of_getElem? hk
            have hsp : Spares k.2 p op := spares_kid (pres := false) hs hk
            obtain ⟨h1, h2⟩ := h.2 i k c hk hc
            exact ⟨run_inv (above := []) (own := k.1.choice) stable_top (fun _ => hf k hkm) (.inl rfl) trivial h1,
              keyInv_run (hf k hkm) (hP k hkm) (.inl rfl) hsp h1 h2⟩
          · rw [List.getElem?_set_ne e] at hc'
            exact h.2 j k' c' hk' hc'
        · exact h
      · exact h
    | native g doc => exact absurd (List.mem_cons_self ..) (hnat g doc)
    | ietf g doc =>
      cases doc with
      | obj ms =>
        obtain ⟨ns', e, h'⟩ := ietf_root (P := fun k c => TreeInv Top k.2 c ∧ KeyInv k.2 c) (g := g) (po := none) (keys := []) (fun j i k b c hk hc => by
          have hkm := List.mem_of_getElem? hk
          obtain ⟨s1, s2⟩ := (ietfChild_step keyStep hp g (fun _ => ietfKeeps g) j).1 [] k.1.choice k.2 b c (hA _)
          exact ⟨(s1 (fun _ => hf k hkm) hc.1).1, s2 (hf k hkm) (hP k hkm) hc.1 hc.2⟩) ms h
        simp only [act, ietfLoad, e, Inst.kids]; exact h'
      | _ => exact h
    | xml infer doc =>
      obtain ⟨ns', e, h'⟩ := xml_root (P := fun k c => TreeInv Top k.2 c ∧ KeyInv k.2 c) (infer := infer) (po := none) (keys := []) (fun x i k b c hk hc => by
        have hkm := List.mem_of_getElem? hk
        obtain ⟨s1, s2⟩ := xmlChild_step keyStep hp infer (fun _ => xmlKeeps infer) x (a := []) (w := k.1.choice) (S := k.2) (b := b) (c := c)
        exact ⟨(s1 (fun _ => hf k hkm) hc.1).1, s2 (hf k hkm) (hP k hkm) hc.1 hc.2⟩) doc.kids h
      simp only [act, xmlLoad, e, Inst.kids]; exact h'

end Pyb
