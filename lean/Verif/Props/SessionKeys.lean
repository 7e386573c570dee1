import Verif.Lemmas.KeyInv
import Verif.Props.Session

/-! # C75: keys and key leaves in trees -/

namespace Pyb
open Py Spec

/-- C75: after any session of API calls and IETF JSON and XML documents, the key leaves of
every entry of every list of the tree hold the values of the key the entry is stored under.
Missing: native JSON documents (`C74_native_key_refuted`), `_unset_` of a key leaf
(`C75_unset_refuted`), and choices with the name of a choice above them. -/
theorem C75_keys_agree_partial (kids : List (Meta × Schema)) (hf : ApartRoot kids) (hP : ∀ k ∈ kids, KeysPlain k.2) (acts : List Act)
    (hops : ∀ p op, Act.api p op ∈ acts → SparesKeys kids p op) (hnat : ∀ g doc, Act.native g doc ∉ acts)
    (p : Path) (info : ListInfo) (lk : List (Meta × Schema)) (ch : Bool) (es : List (PyVal × Inst)) (hk : info.keys ≠ [])
    (hS : clsAt kids p = some (.list info lk)) (hn : objAt (session kids (freshKids kids) acts) p = some (.list ch es)) :
    ∀ q ∈ es, KeyAgrees info lk q.1 q.2 := by
  have h := session_keys hf hP acts hops hnat (ns := freshKids kids) ⟨freshKids_length _, by
    intro i k c hk hc
    rw [freshKids_get, hk] at hc
    simp at hc
    subst hc
    exact ⟨fresh_inv (st := true) stable_top _, keyInv_fresh _⟩⟩
  have := keyInv_at (.cont false kids false false _ fun i k c hk hc => (h.2 i k c hk hc).2) hS hn
  cases this with
  | list _ _ _ _ h1 _ => exact fun q hq => h1 q hq hk

/-- C75: so `lst[k]`, if there is such an entry, has the values of `k` in its key leaves,
whatever the type of `k`. -/
theorem C75_lookup_partial (kids : List (Meta × Schema)) (hf : ApartRoot kids) (hP : ∀ k ∈ kids, KeysPlain k.2) (acts : List Act)
    (hops : ∀ p op, Act.api p op ∈ acts → SparesKeys kids p op) (hnat : ∀ g doc, Act.native g doc ∉ acts)
    (p : Path) (info : ListInfo) (lk : List (Meta × Schema)) (hk : info.keys ≠ []) (hS : clsAt kids p = some (.list info lk))
    (k : PyVal) (e : Inst) (hn : objAt (session kids (freshKids kids) acts) (p ++ [.key k]) = some e) : KeyAgrees info lk k e := by
  have hsplit : ∀ (p : Path) (n : Inst), nodeAt n (p ++ [.key k]) = some e →
      ∃ ch es q, nodeAt n p = some (.list ch es) ∧ es.find? (fun q => pyEq q.1 k) = some q ∧ q.2 = e := by
    intro p
    induction p with
    | nil =>
      intro n h
      cases n with
      | list ch es =>
        simp only [List.nil_append, nodeAt] at h
        cases hq : es.find? fun q => pyEq q.1 k with
        | none => simp [hq] at h
        | some q => simp only [hq] at h; exact ⟨ch, es, q, rfl, hq, by simpa [nodeAt] using h⟩
      | _ => simp [nodeAt] at h
    | cons s p ih =>
      intro n h
      cases n with
      | cont ch pr ns =>
        cases s with
        | key k' => simp [nodeAt] at h
        | field i =>
          simp only [List.cons_append, nodeAt] at h ⊢
          cases hc : ns[i]? with
          | none => simp [hc] at h
          | some c => simp only [hc] at h ⊢; exact ih c h
      | list ch es =>
        cases s with
        | field i => simp [nodeAt] at h
        | key k' =>
          simp only [List.cons_append, nodeAt] at h ⊢
          cases hc : es.find? fun q => pyEq q.1 k' with
          | none => simp [hc] at h
          | some c => simp only [hc] at h ⊢; exact ih c.2 h
      | leaf v ch => cases s <;> simp [nodeAt] at h
      | leafList v ch => cases s <;> simp [nodeAt] at h
  obtain ⟨ch, es, q, h1, h2, rfl⟩ := hsplit p _ hn
  have := C75_keys_agree_partial kids hf hP acts hops hnat p info lk ch es hk hS h1 q (List.mem_of_find?_eq_some h2)
  exact agrees_congr (by simpa using List.find?_some h2) this

/-! ## A session that meets the hypotheses

A list with two keys, below an entry of a list with one number as key. -/

def pairs : List (Meta × Schema) :=
  [({ name := py!"x" }, .leaf (tPercent.cls noRx)), ({ name := py!"y" }, .leaf (tStr.cls noRx)), ({ name := py!"z" }, .leaf (tStr.cls noRx))]

def rows : List (Meta × Schema) :=
  [({ name := py!"n" }, .leaf (tPercent.cls noRx)), ({ name := py!"p" }, .list { keys := [1, 0] } pairs)]

def rowsM : List (Meta × Schema) := [({ name := py!"c" }, .cont false [({ name := py!"r" }, .list { keys := [0] } rows)])]

theorem rowsM_flat : FlatRoot rowsM := by
  intro k hk
  simp only [rowsM, List.mem_singleton] at hk
  subst hk
  simp [Choices, ChoicesKids, choiceNames, rows, pairs]

theorem keysPlain_leaf (L : LeafCls) : KeysPlain (.leaf L) := by
  intro p info kids h
  cases p with
  | nil => simp [schemaAt] at h
  | cons s p => cases s <;> simp [schemaAt] at h

theorem keysPlain_cont (pres : Bool) {kids : List (Meta × Schema)} (h : ∀ k ∈ kids, KeysPlain k.2) : KeysPlain (.cont pres kids) := by
  intro p info ks hp
  cases p with
  | nil => simp [schemaAt] at hp
  | cons s p =>
    cases s with
    | key k => simp [schemaAt] at hp
    | field i =>
      simp only [schemaAt] at hp
      cases hk : kids[i]? with
      | none => simp [hk] at hp
      | some k => simp only [hk] at hp; exact h k (List.mem_of_getElem? hk) p info ks hp

theorem keysPlain_list {info : ListInfo} {kids : List (Meta × Schema)} (h1 : PlainHere info kids) (h : ∀ k ∈ kids, KeysPlain k.2) :
    KeysPlain (.list info kids) := by
  intro p info' ks hp
  cases p with
  | nil => simp [schemaAt] at hp; obtain ⟨rfl, rfl⟩ := hp; exact h1
  | cons s p =>
    cases s with
    | field i => simp [schemaAt] at hp
    | key k => simp only [schemaAt] at hp; exact keysPlain_cont false h p info' ks hp

theorem rowsM_plain : ∀ k ∈ rowsM, KeysPlain k.2 := by
  intro k hk
  simp only [rowsM, List.mem_singleton] at hk
  subst hk
  refine keysPlain_cont _ fun k hk => ?_
  simp only [List.mem_singleton] at hk
  subst hk
  refine keysPlain_list ⟨by simp, ?_⟩ fun k hk => ?_
  · intro j hj
    simp at hj
    subst hj
    exact ⟨_, _, rfl, .inl rfl⟩
  · simp only [rows, List.mem_cons, List.not_mem_nil, or_false] at hk
    rcases hk with rfl | rfl
    · exact keysPlain_leaf _
    · refine keysPlain_list ⟨by simp, ?_⟩ fun k hk => ?_
      · intro j hj
        simp at hj
        rcases hj with rfl | rfl <;> exact ⟨_, _, rfl, .inl rfl⟩
      · simp only [pairs, List.mem_cons, List.not_mem_nil, or_false] at hk
        rcases hk with rfl | rfl | rfl <;> exact keysPlain_leaf _

/-- Rows given as number and as text; an entry with two keys loaded in XML, where the order
of the elements does not matter; an attempt to change a key leaf. -/
def rowsSession : List Act :=
  [.ietf demoLoad (.obj [(py!"c", .obj [(py!"r", .arr [.obj [(py!"n", .num 7)]])])]),
   .api [.field 0, .field 0] (.add (.str py!"8")),
   .xml demoInfer (.elem [] [] [] none [.elem [] py!"c" [] none [.elem [] py!"r" [] none [.elem [] py!"n" [] (some py!"9") [],
     .elem [] py!"p" [] none [.elem [] py!"z" [] (some py!"w") [], .elem [] py!"x" [] (some py!"3") [], .elem [] py!"y" [] (some py!"v") []]]]]),
   .api [.field 0, .field 0, .key (.str py!"9"), .field 1, .key (.str py!"v 3"), .field 0] (.set (.int 4) false)]

def rowsAfter : List Inst :=
  [.cont true false [.list false
    [(.int 7, .cont true false [.leaf (.int 7) true, .list false []]),
     (.str py!"8", .cont true false [.leaf (.int 8) true, .list false []]),
     (.str py!"9", .cont true false [.leaf (.int 9) true, .list false
       [(.str py!"v 3", .cont true false [.leaf (.int 3) true, .leaf (.str py!"v") true, .leaf (.str py!"w") true])]])]]]

example : session rowsM (freshKids rowsM) rowsSession = rowsAfter := by rfl

theorem rowsSession_spares : ∀ p op, Act.api p op ∈ rowsSession → SparesKeys rowsM p op := by
  intro p op h
  simp only [rowsSession, List.mem_cons, reduceCtorEq, Act.api.injEq, false_or, List.not_mem_nil, or_false] at h
  intro q k j info lk hp hq hj
  rcases h with ⟨rfl, rfl⟩ | ⟨rfl, rfl⟩
  · exact ⟨by simp, by simp⟩
  · exact ⟨by simp, by simp⟩

example : ∀ q ∈ [(PyVal.str py!"v 3", Inst.cont true false [.leaf (.int 3) true, .leaf (.str py!"v") true, .leaf (.str py!"w") true])],
    KeyAgrees { keys := [1, 0] } pairs q.1 q.2 :=
  C75_keys_agree_partial rowsM rowsM_flat.apart rowsM_plain rowsSession rowsSession_spares (by simp [rowsSession])
    [.field 0, .field 0, .key (.str py!"9"), .field 1] _ _ _ _ (by simp) rfl rfl

example : KeyAgrees { keys := [0] } rows (.int 7) (.cont true false [.leaf (.int 7) true, .list false []]) :=
  C75_lookup_partial rowsM rowsM_flat.apart rowsM_plain rowsSession rowsSession_spares (by simp [rowsSession])
    [.field 0, .field 0] _ _ (by simp) rfl _ _ rfl

/-! ## What breaks it -/

/-- C75 fails for `_unset_` of a key leaf, which is not guarded: the entry stays under its
key, and its key leaf is no longer set. -/
theorem C75_unset_refuted : ∃ kids p info lk ch k e v, FlatRoot kids ∧ (∀ k ∈ kids, KeysPlain k.2) ∧
    runRoot kids (runRoot kids (freshKids kids) p (.add k)).1 (p ++ [.key k, .field 0]) .unset =
      (session kids (freshKids kids) [.api p (.add k), .api (p ++ [.key k, .field 0]) .unset], none) ∧
    clsAt kids p = some (.list info lk) ∧ info.keys = [0] ∧
    objAt (session kids (freshKids kids) [.api p (.add k), .api (p ++ [.key k, .field 0]) .unset]) p = some (.list ch [(k, e)]) ∧
    nodeAt e [.field 0] = some (.leaf v false) ∧ ¬ KeyAgrees info lk k e := by
  refine ⟨rowsM, [.field 0, .field 0], _, _, _, .int 7, _, _, rowsM_flat, rowsM_plain, rfl, rfl, rfl, rfl, rfl, ?_⟩
  rintro ⟨raws, h1, _, h3⟩
  cases raws with
  | nil => simp at h1
  | cons r raws =>
    obtain ⟨m, L, v, _, h5, _⟩ := h3 0 0 r rfl rfl
    have h6 : some (Inst.leaf (tPercent.cls noRx).zero false) = some (.leaf v true) := h5
    simp at h6

/-- C75 fails for the setter of a key leaf called with `load=True`, as the library calls it
itself: the entry stays under its key, and its key leaf holds another value. -/
theorem C75_load_refuted : ∃ kids p info lk ch k e v, FlatRoot kids ∧ (∀ k ∈ kids, KeysPlain k.2) ∧
    runRoot kids (runRoot kids (freshKids kids) p (.add k)).1 (p ++ [.key k, .field 0]) (.set v true) =
      (session kids (freshKids kids) [.api p (.add k), .api (p ++ [.key k, .field 0]) (.set v true)], none) ∧
    clsAt kids p = some (.list info lk) ∧ info.keys = [0] ∧
    objAt (session kids (freshKids kids) [.api p (.add k), .api (p ++ [.key k, .field 0]) (.set v true)]) p = some (.list ch [(k, e)]) ∧
    nodeAt e [.field 0] = some (.leaf v true) ∧ ∀ m L, lk[0]? = some (m, .leaf L) → L.set k ≠ .ok v := by
  refine ⟨rowsM, [.field 0, .field 0], _, _, _, .int 7, _, .int 8, rowsM_flat, rowsM_plain, rfl, rfl, rfl, rfl, rfl, ?_⟩
  intro m L h4 h6
  have e4 : some (({ name := py!"n" } : Meta), Schema.leaf (tPercent.cls noRx)) = some (m, .leaf L) := h4
  cases e4
  have e6 : (tPercent.cls noRx).set (.int 7) = .ok (.int 7) := rfl
  rw [e6] at h6
  cases h6

end Pyb
