import Verif.Lemmas.KeyInv
import Verif.Lemmas.OverwriteIetf
import Verif.Lemmas.JsonUnknown
import Verif.Lemmas.IetfList
import Verif.Spec.Loaded

namespace Pyb
open Py Spec

variable {st : Bool}

/-! ## Steps of the loaders call `_set` as operations do -/

theorem goodStep : StepRel st false (fun _ => True) (fun a w S _ o => Choices st a w S → GoodSigs st a w o.sigs) where
  same := fun _ _ _ _ _ => good_nil ..
  fail := fun _ _ _ _ _ _ => good_nil ..
  mark := fun _ _ _ _ _ _ => good_own ..
  seq := fun _ _ _ _ _ _ h1 h2 hf => good_append (h1 hf) (h2 hf)
  op := fun _ _ _ n op _ hf => nodeOp_good hf n op
  kid := by
    intro a w po pres kids ch pr ns i k c o hpo hk _ h hf
    have hm := List.mem_of_getElem? hk
    have := good_pass hf hm hpo (h (flatKids_mem hf hm).2.2)
    exact this
  entry := fun _ _ _ _ _ _ _ _ _ _ h _ hf => h hf
  drop := fun _ _ _ _ _ _ _ _ _ _ => good_nil ..
  reset := fun _ _ _ _ _ _ _ _ => good_nil ..

theorem ietfChild_good {g : LoadOpt} {j : J} {a : List Str} {w : Option Choice} {S : Schema} {b : Bool} {c : Inst} (hf : Choices st a w S) :
    GoodSigs st a w (ietfChild g S w b c j).sigs :=
  (ietfChild_step goodStep (fun _ _ => trivial) g (fun h => by simp at h) j).1 a w S b c (.inl fun _ => trivial) hf

/-! ## A change of a child -/

/-- The children of a flat container, or of the object of a module, after a step on child
`i`. -/
theorem holdPut_flat {wrapped pres : Bool} {own po : Option Choice} {above : List Str} {kids : List (Meta × Schema)} {ch pr : Bool}
    {ns : List Inst} {i : Nat} {k : Meta × Schema} {o : Out} {c : Inst} (hk : kids[i]? = some k) (hc : ns[i]? = some c)
    (hf : wrapped = true → ChoicesKids st above own (choiceNames kids ++ above) kids)
    (hg : wrapped = true → GoodSigs st (choiceNames kids ++ above) k.1.choice o.sigs) :
    ∃ ch' pr' ns', (holdPut wrapped pres po kids ch pr ns i o).inst = .cont ch' pr' ns' ∧ ns'[i]? = some o.inst ∧
      ∀ (j : Nat) (k' : Meta × Schema), kids[j]? = some k' → j ≠ i → ¬ Rivals k.1 k'.1 → ns'[j]? = ns[j]? := by
  have hi := (List.getElem?_eq_some_iff.1 hc).1
  cases wrapped with
  | true =>
    obtain ⟨ns', h1, h2, _, _, _, h6⟩ := contPut_flat (pres := pres) (po := po) (ch := ch) (pr := pr) (hf rfl) hk hi (hg rfl)
    exact ⟨_, _, ns', h1, h2, fun j k' hk' hj hr => h6 j k' hk' hj fun h => absurd h hr⟩
  | false =>
    refine ⟨ch, pr, ns.set i o.inst, rfl, List.getElem?_set_self hi, fun j k' _ hj _ => ?_⟩
    rw [List.getElem?_set_ne (Ne.symm hj)]

/-- A step on a child leaves what it does not concern. -/
theorem withKid_frame {wrapped pres : Bool} {own po : Option Choice} {above : List Str} {kids : List (Meta × Schema)} {n : Inst}
    {name : Str} {u : Out} {f : Nat → Meta × Schema → Inst → Out} {j : Nat} {k' : Meta × Schema} {p : Path} {m : Inst}
    (hf : wrapped = true → ChoicesKids st above own (choiceNames kids ++ above) kids)
    (hg : wrapped = true → ∀ i k c, kids[i]? = some k → GoodSigs st (choiceNames kids ++ above) k.1.choice (f i k c).sigs)
    (hu : u.inst = n) (hk' : kids[j]? = some k')
    (hr : ∀ i k, kidIdx kids name = some i → kids[i]? = some k → ¬ Rivals k.1 k'.1)
    (hin : ∀ c, kidIdx kids name = some j → nodeAt c p = some m → nodeAt (f j k' c).inst p = some m)
    (hm : nodeAt n (.field j :: p) = some m) :
    nodeAt (withKid wrapped (.cont pres kids) po n name u f).inst (.field j :: p) = some m := by
  simp only [withKid]
  split
  · rw [hu]; exact hm
  · rename_i i hi
    split
    · rename_i k ch pr ns hk
      split
      · rename_i c hc
        obtain ⟨ch', pr', ns', h1, h2, h3⟩ := holdPut_flat (pres := pres) (po := po) (ch := ch) (pr := pr) (o := f i k c) hk hc hf
          fun hw => hg hw i k c hk
        rw [nodeAt_cont] at hm
        rw [h1, nodeAt_cont]
        by_cases e : j = i
        · subst e
          rw [hc] at hm
          rw [hk] at hk'
          obtain rfl := Option.some.inj hk'
          rw [h2]
          exact hin c hi hm
        · rw [h3 j k' hk' e (hr i k hi hk)]
          exact hm
      · exact hm
    · exact hm

/-- A step on a child that raises nothing leaves its result there. -/
theorem withKid_post {wrapped pres : Bool} {own po : Option Choice} {above : List Str} {kids : List (Meta × Schema)} {n : Inst}
    {name : Str} {u : Out} {f : Nat → Meta × Schema → Inst → Out} {i : Nat} {k : Meta × Schema}
    (hf : wrapped = true → ChoicesKids st above own (choiceNames kids ++ above) kids)
    (hg : wrapped = true → ∀ i k c, kids[i]? = some k → GoodSigs st (choiceNames kids ++ above) k.1.choice (f i k c).sigs)
    (hi : kidIdx kids name = some i) (hk : kids[i]? = some k)
    (h : (withKid wrapped (.cont pres kids) po n name u f).err = none) :
    ∃ c, nodeAt n [.field i] = some c ∧ (f i k c).err = none ∧
      ∀ p, nodeAt (withKid wrapped (.cont pres kids) po n name u f).inst (.field i :: p) = nodeAt (f i k c).inst p := by
  simp only [withKid, hi, hk] at h ⊢
  cases n with
  | cont ch pr ns =>
    simp only at h ⊢
    cases hc : ns[i]? with
    | none => simp [hc, fail] at h
    | some c =>
      simp only [hc] at h ⊢
      rw [holdPut_err] at h
      obtain ⟨ch', pr', ns', h1, h2, _⟩ := holdPut_flat (pres := pres) (po := po) (ch := ch) (pr := pr) (o := f i k c) hk hc hf
        fun hw => hg hw i k c hk
      refine ⟨c, by rw [nodeAt_cont, hc]; simp, h, fun p => ?_⟩
      rw [h1, nodeAt_cont, h2]
      rfl
  | _ => simp [fail] at h

/-! ## A change of an entry -/

theorem withEntry_frame {n : Inst} {k k' : PyVal} {f : Inst → Out} {p : Path} {m : Inst}
    (hin : pyEq k k' = true → ∀ c, nodeAt c p = some m → nodeAt (f c).inst p = some m)
    (hm : nodeAt n (.key k' :: p) = some m) : nodeAt (withEntry n k f).inst (.key k' :: p) = some m := by
  unfold withEntry
  split
  · rename_i ch es
    split
    · rename_i q hq
      simp only [nodeAt_entry] at hm ⊢
      by_cases e : pyEq k k' = true
      · have hl : lookup es k' = lookup es k := by
          unfold lookup
          have : (fun q : PyVal × Inst => pyEq q.1 k') = fun q => pyEq q.1 k := by
            funext q
            rw [pyEq_symm q.1 k', pyEq_symm q.1 k, pyEq_trans e]
          rw [this]
        have hs : lookup (store es k (f q.2).inst) k' = lookup (store es k (f q.2).inst) k := by
          unfold lookup
          have : (fun q : PyVal × Inst => pyEq q.1 k') = fun q => pyEq q.1 k := by
            funext q
            rw [pyEq_symm q.1 k', pyEq_symm q.1 k, pyEq_trans e]
          rw [this]
        rw [hs, lookup_store_same]
        rw [hl] at hm
        have := find_lookup es k
        rw [hq] at this
        rw [← this] at hm
        exact hin e q.2 hm
      · rw [lookup_store_other (by simpa using e)]
        exact hm
    · exact hm
  · exact hm

theorem withEntry_post {n : Inst} {k : PyVal} {f : Inst → Out} (h : (withEntry n k f).err = none) :
    ∃ c, (f c).err = none ∧ ∀ p, nodeAt (withEntry n k f).inst (.key k :: p) = nodeAt (f c).inst p := by
  unfold withEntry at h ⊢
  split at h
  · rename_i ch es
    split at h
    · rename_i q hq
      simp only [hq]
      refine ⟨q.2, h, fun p => ?_⟩
      rw [nodeAt_entry, lookup_store_same]
      rfl
    · simp [fail] at h
  · simp [fail] at h

theorem nodeAt_new {ch ch' : Bool} {es : Members Inst} {k k' : PyVal} {e : Inst} {p : Path} {m : Inst}
    (hm : nodeAt (.list ch es) (.key k' :: p) = some m) : nodeAt (.list ch' (es ++ [(k, e)])) (.key k' :: p) = some m := by
  rw [nodeAt_list] at hm ⊢
  rw [List.find?_append]
  cases h : es.find? (fun q => pyEq q.1 k') with
  | none => simp [h] at hm
  | some q => simpa [h] using hm

/-! ## The entry an element is for -/

theorem rstrip_ended {s : Str} (h : ∀ t, s ≠ t ++ [' ']) : rstripBy (· = ' ') (s ++ [' ']) = s := by
  rcases List.eq_nil_or_concat s with rfl | ⟨t, c, rfl⟩
  · decide
  · have hc : c ≠ ' ' := by
      rintro rfl
      exact h t (by simp)
    have := rstrip_space t c hc
    simpa using this

theorem elemKeys_docKey {info : ListInfo} {kids : List (Meta × Schema)} {ms : List (Str × J)}
    (hk : ∀ i ∈ info.keys, ∃ m L, kids[i]? = some (m, .leaf L)) {js : List J} (h : elemKeys (keyNames info kids) ms = .ok js) :
    (info.keys.mapM fun i => kids[i]?.bind fun k => ms.lookup k.1.name) = some js := by
  unfold elemKeys keyNames at h
  generalize info.keys = keys at h hk
  induction keys generalizing js with
  | nil => simp [pure, Except.pure] at h; subst h; rfl
  | cons i keys ih =>
    obtain ⟨m, L, hi⟩ := hk i (by simp)
    simp only [List.map_cons, List.mapM_cons, bind_ok] at h
    obtain ⟨x, h1, xs, h2, h3⟩ := h
    rw [List.mapM_cons, hi]
    simp only [hi, jget] at h1
    simp only [Option.bind_some]
    cases hl : ms.lookup m.name with
    | none => simp [hl] at h1
    | some y =>
      simp only [hl, Except.ok.injEq] at h1
      subst h1
      rw [ih h2 (fun i hi => hk i (by simp [hi]))]
      simpa [pure, Except.pure] using h3

theorem optMapM_len {α β : Type} {f : α → Option β} : ∀ {l : List α} {r : List β}, l.mapM f = some r → r.length = l.length := by
  intro l
  induction l with
  | nil => intro r h; simp at h; subst h; rfl
  | cons a l ih =>
    intro r h
    rw [List.mapM_cons] at h
    cases h1 : f a with
    | none => simp [h1] at h
    | some b =>
      cases h2 : l.mapM f with
      | none => simp [h1, h2] at h
      | some t =>
        simp [h1, h2] at h
        subst h
        simp [ih h2]

theorem ietfEntry_frame {g : LoadOpt} {info : ListInfo} {kids : List (Meta × Schema)} {ch : Bool} {es : Members Inst} {x : J}
    {k' : PyVal} {p : Path} {m : Inst} (hne : info.keys ≠ []) (hm : nodeAt (.list ch es) (.key k' :: p) = some m) :
    nodeAt (ietfEntry g info kids ch es x).1.inst (.key k' :: p) = some m := by
  unfold ietfEntry
  cases hk : info.keys with
  | nil => exact absurd hk hne
  | cons i rest =>
    simp only
    cases x with
    | obj ms =>
      simp only
      cases hj : elemKeys (keyNames info kids) ms with
      | error e => exact hm
      | ok js =>
        simp only
        by_cases hr : rest = []
        · rw [if_pos hr]
          split
          · exact hm
          · split
            · exact hm
            · simp only [nodeOp, hk, reduceCtorEq, if_false]
              cases ha : ylAdd (entryCls info kids) (i :: rest).length es ((js.map (jPy g.repr)).headD .none) with
              | error e => exact hm
              | ok es' =>
                obtain ⟨h1, hs⟩ := ylAdd_ok ha
                obtain ⟨_, _, raws, e, _, _, rfl⟩ := ylSetPos_ok hs
                simp only [listOut]
                rw [store_new h1]
                exact nodeAt_new hm
        · rw [if_neg hr]
          split
          · exact hm
          · simp only [nodeOp, hk]
            split
            · exact hm
            · cases ha : ylAddNamed (entryCls info kids) es ((js.map (jPy g.repr)).map some) none with
              | error e => exact hm
              | ok es' =>
                obtain ⟨rs, e, _, _, _, rfl⟩ := ylAddNamed_ok ha
                exact nodeAt_new hm
    | _ => exact hm

theorem ietfEntry_key {g : LoadOpt} {info : ListInfo} {kids : List (Meta × Schema)} {ch : Bool} {es : Members Inst} {x : J}
    (hne : info.keys ≠ []) (hkl : ∀ i ∈ info.keys, ∃ m L, kids[i]? = some (m, .leaf L))
    (hl : ∀ s, 2 ≤ info.keys.length → docKey g.repr info kids x ≠ some (.str (s ++ [' '])))
    (h : (ietfEntry g info kids ch es x).1.err = none) : docKey g.repr info kids x = some (ietfEntry g info kids ch es x).2 := by
  unfold ietfEntry at h ⊢
  cases hk : info.keys with
  | nil => exact absurd hk hne
  | cons i rest =>
    simp only [hk] at h ⊢
    cases x with
    | obj ms =>
      simp only at h ⊢
      cases hj : elemKeys (keyNames info kids) ms with
      | error e => simp only [hj, fail] at h; simp at h
      | ok js =>
        simp only [hj] at h ⊢
        have hd := elemKeys_docKey hkl hj
        have hlen := optMapM_len hd
        rw [hk] at hlen
        have hdk : docKey g.repr info kids (.obj ms) = entryKey (js.map (jPy g.repr)) := by
          simp only [docKey]
          rw [hd]; rfl
        by_cases hr : rest = []
        · subst hr
          match js, hlen with
          | [y], _ =>
            rw [hdk]
            simp only [if_true, List.map_cons, List.map_nil, List.headD_cons, entryKey] at h ⊢
            split at h
            · simp [fail] at h
            · rename_i h1
              rw [if_neg h1]
              split <;> rfl
        · have hlen2 : 2 ≤ (js.map (jPy g.repr)).length := by
            rw [List.length_map, hlen]
            cases rest with
            | nil => exact absurd rfl hr
            | cons => simp
          have hek : entryKey (js.map (jPy g.repr)) = some (.str (Spec.keyText (js.map (jPy g.repr)))) := by
            match js.map (jPy g.repr), hlen2 with
            | _ :: _ :: _, _ => rfl
          have hlen3 : 2 ≤ info.keys.length := by rw [hk, ← hlen]; simpa using hlen2
          rw [hdk, hek]
          have hne' : js.map (jPy g.repr) ≠ [] := by
            intro e; rw [e] at hlen2; simp at hlen2
          have hstrip : rstripBy (· = ' ') (((js.map (jPy g.repr)).map fun r => r.toStr ++ [' ']).flatten) = Spec.keyText (js.map (jPy g.repr)) := by
            have e : ((js.map (jPy g.repr)).map fun r => r.toStr ++ [' ']) = ((js.map (jPy g.repr)).map PyVal.toStr).map fun s => s ++ [' '] := by simp
            rw [e, flatten_join _ (by simpa using hne')]
            refine rstrip_ended fun t ht => hl t hlen3 ?_
            rw [hdk, hek]
            simp only [Spec.keyText, ht]
          rw [if_neg hr, hstrip]
          split <;> rfl
    | _ => simp [fail] at h

/-! ## What a document does not concern stays -/

theorem isFor_idx {kids : List (Meta × Schema)} (hn : GoodNames kids) {key : Str} {i : Nat} (h : IsFor kids key i) :
    kidIdx kids (localKey key) = some i := by
  obtain ⟨_, k, hk, e⟩ := h
  rw [localKey_eq]
  exact kidIdx_name hn.2 hk e.symm

theorem isFor_of_idx {kids : List (Meta × Schema)} {key : Str} {i : Nat} (hat : '@' ∉ key) (h : kidIdx kids (localKey key) = some i) :
    IsFor kids key i := by
  refine ⟨hat, ?_⟩
  rw [localKey_eq] at h
  simp only [kidIdx, List.findIdx?_eq_some_iff_getElem] at h
  obtain ⟨h1, h2, _⟩ := h
  exact ⟨kids[i], List.getElem?_eq_getElem h1, by simpa using h2⟩

theorem andThen_frame {o : Out} {f : Inst → Out} {p : Path} {m : Inst} (h1 : nodeAt o.inst p = some m)
    (h2 : nodeAt o.inst p = some m → nodeAt (f o.inst).inst p = some m) : nodeAt (o.andThen f).inst p = some m := by
  unfold Out.andThen
  split
  · exact h1
  · exact h2 h1

section
variable {g : LoadOpt} {kids : List (Meta × Schema)} {above : List Str} {own po : Option Choice} {wrapped pres : Bool} {keys : List Nat}

theorem iGood (hf : wrapped = true → ChoicesKids st above own (choiceNames kids ++ above) kids) {x : Str × J} :
    wrapped = true → ∀ i k c, kids[i]? = some k → GoodSigs st (choiceNames kids ++ above) k.1.choice
      (ietfChild g k.2 k.1.choice (keys.contains i) c x.2).sigs :=
  fun hw _ _ _ hk => ietfChild_good (flatKids_mem (hf hw) (List.mem_of_getElem? hk)).2.2

theorem ietfMembers_frame (hn : GoodNames kids) (hf : wrapped = true → ChoicesKids st above own (choiceNames kids ++ above) kids)
    {j : Nat} {k' : Meta × Schema} {p : Path} {m : Inst} (hk' : kids[j]? = some k') : ∀ {ms : List (Str × J)} {n : Inst},
    (∀ x ∈ ms, IsFor kids x.1 j → ∀ b c, ¬ Concerns g.repr k'.2 x.2 p → ¬ Loose g.repr k'.2 x.2 → nodeAt c p = some m →
      nodeAt (ietfChild g k'.2 k'.1.choice b c x.2).inst p = some m) →
    ¬ Loose g.repr (.cont pres kids) (.obj ms) → ¬ Concerns g.repr (.cont pres kids) (.obj ms) (.field j :: p) →
    nodeAt n (.field j :: p) = some m →
    nodeAt (ietfMembers g wrapped (.cont pres kids) keys po n ms).inst (.field j :: p) = some m := by
  intro ms
  induction ms with
  | nil => intro n _ _ _ hm; rw [members_nil']; exact hm
  | cons x ms ih =>
    intro n hin hl hc hm
    rw [members_cons]
    refine andThen_frame ?_ fun hm' => ih (fun y hy => hin y (by simp [hy])) (fun h => hl ?_) (fun h => hc ?_) hm'
    · split
      · exact hm
      · rename_i hat
        refine withKid_frame hf (iGood hf) ietfUnknown_inst hk' ?_ ?_ hm
        · intro i k hi hk hr
          exact hc (.rival (by simp) (isFor_of_idx hat hi) hk hk' hr)
        · intro c hi hcm
          have h := isFor_of_idx hat hi
          exact hin x (by simp) h _ c (fun h' => hc (.field (by simp) h hk' h')) (fun h' => hl (.inside (by simp) h hk' h')) hcm
    · cases h with
      | inside h1 h2 h3 h4 => exact .inside (by simp [h1]) h2 h3 h4
    · cases h with
      | field h1 h2 h3 h4 => exact .field (by simp [h1]) h2 h3 h4
      | rival h1 h2 h3 h4 h5 => exact .rival (by simp [h1]) h2 h3 h4 h5

theorem ietfMembers_other {S : Schema} (hS : ∀ pres kids, S ≠ .cont pres kids) : ∀ {ms : List (Str × J)} {n : Inst},
    (ietfMembers g wrapped S keys po n ms).inst = n := by
  intro ms
  induction ms with
  | nil => intro n; rw [members_nil']; rfl
  | cons x ms ih =>
    intro n
    rw [members_cons]
    have h : (if '@' ∈ x.1 then Out.same n else withKid wrapped S po n (localKey x.1) (ietfUnknown g.skip n x.2) fun i k c =>
        ietfChild g k.2 k.1.choice (keys.contains i) c x.2).inst = n := by
      split
      · rfl
      · unfold withKid
        split
        · exact absurd rfl (hS _ _)
        · exact ietfUnknown_inst
    unfold Out.andThen
    split
    · exact h
    · simp only [h]; exact ih

theorem markPresent_nodeAt {S : Schema} {n : Inst} {s : Step} {p : Path} :
    nodeAt (markPresent S po n).inst (s :: p) = nodeAt n (s :: p) := by
  unfold markPresent
  split
  · cases s <;> simp [nodeAt_cont, nodeAt_cont_key]
  · rfl

theorem elemStep_frame {info : ListInfo} {x : J} {k' : PyVal} {p : Path} {m n : Inst} (hne : info.keys ≠ [])
    (hkl : ∀ i ∈ info.keys, ∃ m L, kids[i]? = some (m, .leaf L))
    (hl : ∀ s, 2 ≤ info.keys.length → docKey g.repr info kids x ≠ some (.str (s ++ [' '])))
    (hin : ∀ k, docKey g.repr info kids x = some k → pyEq k k' = true → ∀ c, nodeAt c p = some m →
      nodeAt (ietfElem g kids info.keys c x).inst p = some m)
    (hm : nodeAt n (.key k' :: p) = some m) : nodeAt (elemStep g info kids x n).inst (.key k' :: p) = some m := by
  unfold elemStep
  split
  · rename_i ch es
    have h1 := ietfEntry_frame (g := g) (kids := kids) (x := x) hne hm
    cases he : (ietfEntry g info kids ch es x).1.err with
    | some e => simp only [Out.andThen, he]; exact h1
    | none =>
      refine andThen_frame h1 fun h1 => withEntry_frame (fun e c hc => ?_) h1
      exact hin _ (ietfEntry_key hne hkl hl he) e c hc
  · exact hm

theorem ietfElems_frame {info : ListInfo} (hov : g.over = false) (hne : info.keys ≠ [])
    (hkl : ∀ i ∈ info.keys, ∃ m L, kids[i]? = some (m, .leaf L)) {k' : PyVal} {p : Path} {m : Inst} : ∀ {xs : List J} {n : Inst},
    (∀ x ∈ xs, ∀ c, ¬ Concerns g.repr (.cont false kids) x p → ¬ Loose g.repr (.cont false kids) x → nodeAt c p = some m →
      nodeAt (ietfElem g kids info.keys c x).inst p = some m) →
    ¬ Loose g.repr (.list info kids) (.arr xs) → ¬ Concerns g.repr (.list info kids) (.arr xs) (.key k' :: p) →
    nodeAt n (.key k' :: p) = some m →
    nodeAt (ietfElems g info kids n xs).inst (.key k' :: p) = some m := by
  intro xs
  induction xs with
  | nil => intro n _ _ _ hm; rw [iElems_nil]; exact hm
  | cons x xs ih =>
    intro n hin hl hc hm
    rw [iElems_cons]
    refine andThen_frame ?_ fun hm' => ih (fun y hy => hin y (by simp [hy])) (fun h => hl ?_) (fun h => hc ?_) hm'
    · simp only [hov, Bool.false_eq_true, if_false, same_then]
      refine elemStep_frame hne hkl (fun s h2 h => hl (.here (by simp) h2 h)) (fun k hk e c hcm => ?_) hm
      exact hin x (by simp) c (fun h => hc (.entry (by simp) hk e h)) (fun h => hl (.elem (by simp) h)) hcm
    · cases h with
      | here h1 h2 h3 => exact .here (by simp [h1]) h2 h3
      | elem h1 h2 => exact .elem (by simp [h1]) h2
    · cases h with
      | entry h1 h2 h3 h4 => exact .entry (by simp [h1]) h2 h3 h4
      | whole h0 h1 h2 => exact absurd rfl (h1 _)

end

theorem ietfScalar_frame {g : LoadOpt} {j : J} {S T : Schema} {w : Option Choice} {b : Bool} {c m : Inst} {p : Path}
    (h1 : ∀ xs, j ≠ .arr xs) (h2 : ∀ ms, j ≠ .obj ms) (hj : ietfChild g S w b c j = ietfStd g S w b c j)
    (hT : schemaAt S p = some T) (hc : ¬ Concerns g.repr S j p) (hm : nodeAt c p = some m) :
    nodeAt (ietfChild g S w b c j).inst p = some m := by
  rw [hj]
  cases p with
  | nil => exact absurd .here hc
  | cons s p =>
    cases S with
    | leaf L => cases s <;> simp [schemaAt] at hT
    | leafList L => cases s <;> simp [schemaAt] at hT
    | list info kids =>
      by_cases hn : j = .null
      · subst hn
        cases b <;> exact hm
      · exact absurd (.whole hn h1 h2) hc
    | cont pres kids =>
      cases b with
      | true => exact hm
      | false =>
        have hv : ietfVal [] j = .ok j := rfl
        simp only [ietfStd, Bool.false_eq_true, if_false, hv]
        cases j <;> exact hm

theorem ietf_frame (g : LoadOpt) (hov : g.over = false) (j : J) :
    (∀ a w S b c p m T, Choices st a w S → Orderly S → Keyed S → schemaAt S p = some T → ¬ Loose g.repr S j → ¬ Concerns g.repr S j p →
      nodeAt c p = some m → nodeAt (ietfChild g S w b c j).inst p = some m) ∧
    (∀ a w kids keys c p m T, ChoicesKids st a w (choiceNames kids ++ a) kids → Orderly (.cont false kids) → Keyed (.cont false kids) →
      schemaAt (.cont false kids) p = some T → ¬ Loose g.repr (.cont false kids) j → ¬ Concerns g.repr (.cont false kids) j p →
      nodeAt c p = some m → nodeAt (ietfElem g kids keys c j).inst p = some m) := by
  induction j using J.ind with
  | harr xs ih =>
    refine ⟨fun a w S b c p m T hf hO hK hT hl hc hm => ?_, fun a w kids keys c p m T _ _ _ _ _ _ hm => hm⟩
    simp only [ietfChild]
    cases p with
    | nil => exact absurd .here hc
    | cons s p =>
    cases S with
    | leaf L => cases s <;> simp [schemaAt] at hT
    | leafList L => cases s <;> simp [schemaAt] at hT
    | cont pres kids =>
      simp only
      split
      · exact hm
      · cases b with
        | true => exact hm
        | false =>
        simp only [ietfStd, Bool.false_eq_true, if_false]
        cases hv : ietfVal [] (.arr xs) with
        | error e => exact hm
        | ok j' =>
          simp only [ietfVal] at hv
          simp at hv
          subst hv
          exact hm
    | list info kids =>
      cases s with
      | field i => simp [schemaAt] at hT
      | key k =>
        refine ietfElems_frame hov ((keyed_list ..).1 hK).1 hO.2.1 (fun x hx c h1 h2 h3 => ?_) hl hc hm
        exact (ih x hx).2 a w kids info.keys c p m T hf ⟨hO.1, hO.2.2⟩ (keyed_entry hK) hT h2 h1 h3
  | hobj ms ih =>
    refine ⟨fun a w S b c p m T hf hO hK hT hl hc hm => ?_, fun a w kids keys c p m T hf hO hK hT hl hc hm => ?_⟩
    · simp only [ietfChild]
      cases p with
      | nil => exact absurd .here hc
      | cons s p =>
      refine andThen_frame (by rw [markPresent_nodeAt]; exact hm) fun hm => ?_
      cases S with
      | leaf L => rw [ietfMembers_other (by simp)]; exact hm
      | leafList L => rw [ietfMembers_other (by simp)]; exact hm
      | list info kids => rw [ietfMembers_other (by simp)]; exact hm
      | cont pres kids =>
        cases s with
        | key k => simp [schemaAt] at hT
        | field i =>
          rw [schemaAt_cont] at hT
          cases hk : kids[i]? with
          | none => simp [hk] at hT
          | some k =>
            rw [hk] at hT
            refine ietfMembers_frame (own := w) (above := a) hO.1 (fun _ => hf) hk (fun x hx _ b c h1 h2 h3 => ?_) hl hc hm
            have hmem := List.mem_of_getElem? hk
            exact (ih x hx).1 _ _ k.2 b c p m T (flatKids_mem hf hmem).2.2 (orderly_kid hO.2 hmem) (keyed_kid hK hk) hT h2 h1 h3
    · simp only [ietfElem]
      cases p with
      | nil => exact absurd .here hc
      | cons s p =>
        cases s with
        | key k => simp [schemaAt] at hT
        | field i =>
          rw [schemaAt_cont] at hT
          cases hk : kids[i]? with
          | none => simp [hk] at hT
          | some k =>
            rw [hk] at hT
            refine ietfMembers_frame (own := w) (above := a) hO.1 (fun _ => hf) hk (fun x hx _ b c h1 h2 h3 => ?_) hl hc hm
            have hmem := List.mem_of_getElem? hk
            exact (ih x hx).1 _ _ k.2 b c p m T (flatKids_mem hf hmem).2.2 (orderly_kid hO.2 hmem) (keyed_kid hK hk) hT h2 h1 h3
  | hnull =>
    refine ⟨fun a w S b c p m T hf hO hK hT hl hc hm => ?_, fun a w kids keys c p m T _ _ _ _ _ _ hm => hm⟩
    exact ietfScalar_frame (by simp) (by simp) rfl hT hc hm
  | hbool v =>
    refine ⟨fun a w S b c p m T hf hO hK hT hl hc hm => ?_, fun a w kids keys c p m T _ _ _ _ _ _ hm => hm⟩
    exact ietfScalar_frame (by simp) (by simp) rfl hT hc hm
  | hnum v =>
    refine ⟨fun a w S b c p m T hf hO hK hT hl hc hm => ?_, fun a w kids keys c p m T _ _ _ _ _ _ hm => hm⟩
    exact ietfScalar_frame (by simp) (by simp) rfl hT hc hm
  | hfloat v =>
    refine ⟨fun a w S b c p m T hf hO hK hT hl hc hm => ?_, fun a w kids keys c p m T _ _ _ _ _ _ hm => hm⟩
    exact ietfScalar_frame (by simp) (by simp) rfl hT hc hm
  | hstr v =>
    refine ⟨fun a w S b c p m T hf hO hK hT hl hc hm => ?_, fun a w kids keys c p m T _ _ _ _ _ _ hm => hm⟩
    exact ietfScalar_frame (by simp) (by simp) rfl hT hc hm

/-! ## What a document says is there -/

theorem ietfVal_sent {repr : J → Str} {yt : Str} {x j : J} (h : ietfVal yt x = .ok j) (hx : ¬ Ignored x) : Sent repr yt x (jPy repr j) ∧ j ≠ .null := by
  unfold ietfVal at h
  split at h
  · rename_i hy
    split at h
    · simp only [Except.ok.injEq] at h; subst h; exact ⟨.empty hy, by simp⟩
    · simp at h
  · rename_i hy
    split at h
    · rename_i hi
      cases x with
      | str s =>
        simp only [Except.ok.injEq] at h
        subst h
        refine ⟨?_, by simp⟩
        by_cases hs : ':' ∈ s
        · simp only [hs, if_true]
          obtain ⟨m, t, rfl, hm⟩ : ∃ m t, s = m ++ ':' :: t ∧ ':' ∉ m := by
            clear hx
            induction s with
            | nil => simp at hs
            | cons c s ih =>
              by_cases e : c = ':'
              · subst e; exact ⟨[], s, rfl, by simp⟩
              · obtain ⟨m, t, rfl, hm⟩ := ih (by simpa [Ne.symm e] using hs)
                exact ⟨c :: m, t, rfl, by simp [hm, Ne.symm e]⟩
          have : ((m ++ ':' :: t).dropWhile (· ≠ ':')).tail = t := by
            rw [List.dropWhile_append_of_pos (by intro a ha; simp; rintro rfl; exact hm ha)]
            simp
          rw [this]
          exact .qualified hi hm
        · simp only [hs, if_false]
          exact .name hi hs
      | arr xs =>
        simp only at h
        split at h
        · simp at h
        · simp only [Except.ok.injEq] at h; subst h; exact ⟨.array hi, by simp⟩
      | obj ms => exact absurd trivial hx
      | _ => simp at h
    · rename_i hi
      simp only [Except.ok.injEq] at h
      subst h
      refine ⟨.plain hy hi, ?_⟩
      rintro rfl
      exact hx trivial

theorem leafSet_done {L : LeafCls} {w : Option Choice} {c : Inst} {v : PyVal} (h : (leafSet L w c v).err = none) :
    ∃ u, L.set v = .ok u ∧ (leafSet L w c v).inst = .leaf u true := by
  unfold leafSet at h ⊢
  cases hs : L.set v with
  | refused e => simp [hs] at h
  | marked e => simp [hs] at h
  | ok u => exact ⟨u, rfl, rfl⟩

theorem ietfStd_post {g : LoadOpt} {L : LeafCls} {w : Option Choice} {c : Inst} {x : J} (hx : ¬ Ignored x)
    (h : (ietfStd g (.leaf L) w false c x).err = none) : HoldsDoc g.repr (.leaf L) x (ietfStd g (.leaf L) w false c x).inst := by
  simp only [ietfStd, Bool.false_eq_true, if_false] at h ⊢
  cases hv : ietfVal L.yangType x with
  | error e => simp [hv, fail] at h
  | ok j =>
    obtain ⟨h1, h2⟩ := ietfVal_sent (repr := g.repr) hv hx
    simp only [hv] at h ⊢
    simp only [jsonSet] at h ⊢
    obtain ⟨u, h3, h4⟩ := leafSet_done h
    exact ⟨_, u, h1, h3, h4⟩

theorem ietfStd_postLL {g : LoadOpt} {L : LLCls} {w : Option Choice} {c : Inst} {xs : List J}
    (h : (ietfStd g (.leafList L) w false c (.arr xs)).err = none) :
    HoldsDoc g.repr (.leafList L) (.arr xs) (ietfStd g (.leafList L) w false c (.arr xs)).inst := by
  intro hy
  have hv : ∀ j, ietfVal L.yangType (.arr xs) = .ok j → j = .arr xs := by
    intro j hj
    unfold ietfVal at hj
    rw [if_neg hy] at hj
    split at hj
    · simp only at hj
      split at hj
      · simp at hj
      · simpa using hj.symm
    · simpa using hj.symm
  simp only [ietfStd, Bool.false_eq_true, if_false] at h ⊢
  cases hj : ietfVal L.yangType (.arr xs) with
  | error e => simp [hj, fail] at h
  | ok j =>
    obtain rfl := hv j hj
    simp only [hj] at h ⊢
    cases c with
    | leafList ys ch =>
      simp only [jsonSet, llApply, llStep, jArg] at h ⊢
      cases ht : tlInit L.conv L.uniq (.seq (xs.map (jPy g.repr))) with
      | error e => simp [ht] at h
      | ok ws => exact ⟨ws, rfl, rfl⟩
    | _ => simp [jsonSet, fail] at h

/-- The object at the path holds the value. -/
def Landed (repr : J → Str) (S : Schema) (p : Path) (x : J) (n : Inst) : Prop :=
  ∃ T m, schemaAt S p = some T ∧ nodeAt n p = some m ∧ HoldsDoc repr T x m

theorem mem_parts {α : Type} {l : List α} {x : α} (h : x ∈ l) : ∃ a b, l = a ++ x :: b := by
  obtain ⟨a, b, h⟩ := List.append_of_mem h
  exact ⟨a, b, h⟩

section
variable {g : LoadOpt} {kids : List (Meta × Schema)} {above : List Str} {own po : Option Choice} {wrapped pres : Bool} {keys : List Nat}

theorem ietfMembers_post (hn : GoodNames kids) (hf : wrapped = true → ChoicesKids st above own (choiceNames kids ++ above) kids)
    {i : Nat} {k : Meta × Schema} {p : Path} {v : J} {ms : List (Str × J)} {x : Str × J} {n : Inst} (hk : kids[i]? = some k)
    (hfr : ∀ y ∈ ms, IsFor kids y.1 i → ∀ b c m, ¬ Concerns g.repr k.2 y.2 p → ¬ Loose g.repr k.2 y.2 → nodeAt c p = some m →
      nodeAt (ietfChild g k.2 k.1.choice b c y.2).inst p = some m)
    (hl : ¬ Loose g.repr (.cont pres kids) (.obj ms)) (hc : ¬ Contradicts g.repr (.cont pres kids) (.obj ms))
    (hx : x ∈ ms) (hfor : IsFor kids x.1 i) (hi : i ∉ keys)
    (hin : ∀ c, (ietfChild g k.2 k.1.choice false c x.2).err = none → Landed g.repr k.2 p v (ietfChild g k.2 k.1.choice false c x.2).inst)
    (h : (ietfMembers g wrapped (.cont pres kids) keys po n ms).err = none) :
    Landed g.repr (.cont pres kids) (.field i :: p) v (ietfMembers g wrapped (.cont pres kids) keys po n ms).inst := by
  obtain ⟨pre, post, rfl⟩ := mem_parts hx
  rw [iMembers_append] at h ⊢
  obtain ⟨_, h2, h3⟩ := then_ok h
  rw [h3]
  generalize (ietfMembers g wrapped (.cont pres kids) keys po n pre).inst = n1 at h2 h3 ⊢
  rw [members_cons] at h2 ⊢
  obtain ⟨h4, h5, h6⟩ := then_ok h2
  rw [h6]
  simp only [hfor.1, if_false] at h4 h5 ⊢
  obtain ⟨c, _, h7, h8⟩ := withKid_post hf (iGood (x := x) hf) (isFor_idx hn hfor) hk h4
  have hb : keys.contains i = false := by simpa using hi
  rw [hb] at h7
  simp only [hb] at h8
  obtain ⟨T, m, h9, h10, h11⟩ := hin c h7
  refine ⟨T, m, by rw [schemaAt_cont, hk]; exact h9, ?_, h11⟩
  refine ietfMembers_frame hn hf hk (fun y hy hfy b c h1 h2 h3 => hfr y (by simp [hy]) hfy b c m h1 h2 h3) (fun h => hl ?_) (fun h => hc ?_) ?_
  · cases h with
    | inside h1 h2 h3 h4 => exact .inside (by simp [h1]) h2 h3 h4
  · cases h with
    | @field _ _ _ y _ _ _ h1 h2 h3 h4 =>
      obtain ⟨b, hb', hb⟩ := List.getElem_of_mem h1
      refine .twice (a := pre.length) (b := pre.length + (b + 1)) (x := x) (y := y) (by omega) (by simp) ?_ hfor h2
      rw [List.getElem?_append_right (by omega)]
      simp [List.getElem?_eq_getElem hb', hb]
    | rival h1 h2 h3 h4 h5 =>
      rw [hk] at h4
      obtain rfl := Option.some.inj h4
      exact .rivals (by simp [h1]) hx h2 hfor h3 hk h5
  · rw [h8]
    exact h10

theorem ietfElems_post {info : ListInfo} (hov : g.over = false) (hne : info.keys ≠ [])
    (hkl : ∀ i ∈ info.keys, ∃ m L, kids[i]? = some (m, .leaf L)) {k : PyVal} {p : Path} {v x : J} {xs : List J} {n : Inst}
    (hfr : ∀ y ∈ xs, ∀ c m, ¬ Concerns g.repr (.cont false kids) y p → ¬ Loose g.repr (.cont false kids) y → nodeAt c p = some m →
      nodeAt (ietfElem g kids info.keys c y).inst p = some m)
    (hl : ¬ Loose g.repr (.list info kids) (.arr xs)) (hc : ¬ Contradicts g.repr (.list info kids) (.arr xs))
    (hx : x ∈ xs) (hk : docKey g.repr info kids x = some k)
    (hin : ∀ c, (ietfElem g kids info.keys c x).err = none → Landed g.repr (.cont false kids) p v (ietfElem g kids info.keys c x).inst)
    (h : (ietfElems g info kids n xs).err = none) :
    Landed g.repr (.list info kids) (.key k :: p) v (ietfElems g info kids n xs).inst := by
  obtain ⟨pre, post, rfl⟩ := mem_parts hx
  rw [iElems_append] at h ⊢
  obtain ⟨_, h2, h3⟩ := then_ok h
  rw [h3]
  generalize (ietfElems g info kids n pre).inst = n1 at h2 h3 ⊢
  rw [iElems_cons] at h2 ⊢
  obtain ⟨h4, h5, h6⟩ := then_ok h2
  rw [h6]
  simp only [hov, Bool.false_eq_true, if_false, same_then] at h4 h5 ⊢
  cases n1 with
  | list ch es =>
    simp only [elemStep] at h4
    obtain ⟨h7, h8, h9⟩ := then_ok h4
    have hek := ietfEntry_key hne hkl (fun s h2 h => hl (.here hx h2 h)) h7
    rw [hk] at hek
    obtain ⟨c, h10, h11⟩ := withEntry_post h8
    obtain ⟨T, m, h12, h13, h14⟩ := hin c h10
    refine ⟨T, m, h12, ?_, h14⟩
    refine ietfElems_frame hov hne hkl (fun y hy c h1 h2 h3 => hfr y (by simp [hy]) c m h1 h2 h3) (fun h => hl ?_) (fun h => hc ?_) ?_
    · cases h with
      | here h1 h2 h3 => exact .here (by simp [h1]) h2 h3
      | elem h1 h2 => exact .elem (by simp [h1]) h2
    · cases h with
      | @entry _ _ _ y _ _ _ h1 h2 h3 h4 =>
        obtain ⟨b, hb', hb⟩ := List.getElem_of_mem h1
        refine .sameKey (a := pre.length) (b := pre.length + (b + 1)) (x := x) (y := y) (by omega) (by simp) ?_ hk h2 (by rw [pyEq_symm]; exact h3)
        rw [List.getElem?_append_right (by omega)]
        simp [List.getElem?_eq_getElem hb', hb]
      | whole h0 h1 h2 => exact absurd rfl (h1 _)
    · simp only [elemStep]
      rw [h9, Option.some.inj hek, h11]
      exact h13
  | _ => simp [elemStep, fail] at h4

end

theorem says_schema {repr : J → Str} {S : Schema} {j x : J} {p : Path} (h : Says repr S j p x) : ∃ T, schemaAt S p = some T := by
  induction h with
  | leaf => exact ⟨_, schemaAt_nil _⟩
  | leafList => exact ⟨_, schemaAt_nil _⟩
  | field _ _ hk _ ih =>
    obtain ⟨T, hT⟩ := ih
    exact ⟨T, by rw [schemaAt_cont, hk]; exact hT⟩
  | entry _ _ _ _ ih =>
    obtain ⟨T, hT⟩ := ih
    exact ⟨T, hT⟩

theorem ietf_post (g : LoadOpt) (hov : g.over = false) (j : J) :
    (∀ a w S c p x, Choices st a w S → Orderly S → Keyed S → ¬ Loose g.repr S j → ¬ Contradicts g.repr S j → Says g.repr S j p x →
      ¬ Ignored x → (ietfChild g S w false c j).err = none → Landed g.repr S p x (ietfChild g S w false c j).inst) ∧
    (∀ a w kids keys c i p x, ChoicesKids st a w (choiceNames kids ++ a) kids → Orderly (.cont false kids) → Keyed (.cont false kids) →
      ¬ Loose g.repr (.cont false kids) j → ¬ Contradicts g.repr (.cont false kids) j → Says g.repr (.cont false kids) j (.field i :: p) x →
      ¬ Ignored x → i ∉ keys → (ietfElem g kids keys c j).err = none →
      Landed g.repr (.cont false kids) (.field i :: p) x (ietfElem g kids keys c j).inst) := by
  induction j using J.ind with
  | harr xs ih =>
    refine ⟨fun a w S c p x hf hO hK hl hc hs hx h => ?_, fun a w kids keys c i p x _ _ _ _ _ _ _ _ h => by simp [ietfElem, fail] at h⟩
    simp only [ietfChild] at h ⊢
    cases hs with
    | @leaf L =>
      simp only at h ⊢
      have hne : xs.isEmpty = false := by
        cases xs with
        | nil => exact absurd trivial hx
        | cons => rfl
      simp only [hne, Bool.false_eq_true, if_false] at h ⊢
      exact ⟨_, _, schemaAt_nil _, by simp, ietfStd_post hx h⟩
    | @leafList L =>
      simp only at h ⊢
      have hne : xs.isEmpty = false := by
        cases xs with
        | nil => exact absurd trivial hx
        | cons => rfl
      simp only [hne, Bool.false_eq_true, if_false] at h ⊢
      exact ⟨_, _, schemaAt_nil _, by simp, ietfStd_postLL h⟩
    | @entry info kids _ y k i p _ h1 h2 h3 h4 =>
      simp only at h ⊢
      refine ietfElems_post hov ((keyed_list ..).1 hK).1 hO.2.1 (fun y hy c m h1 h2 h3 => ?_) hl hc h1 h2 (fun c h5 => ?_) h
      · obtain ⟨T, hT⟩ := says_schema h4
        exact (ietf_frame g hov y).2 a w kids info.keys c _ m T hf ⟨hO.1, hO.2.2⟩ (keyed_entry hK) hT h2 h1 h3
      · exact (ih y h1).2 a w kids info.keys c i p x hf ⟨hO.1, hO.2.2⟩ (keyed_entry hK) (fun h => hl (.elem h1 h)) (fun h => hc (.elem h1 h)) h4 hx h3 h5
  | hobj ms ih =>
    have key : ∀ a w pres kids keys po c i p x, ChoicesKids st a w (choiceNames kids ++ a) kids → Orderly (.cont pres kids) → Keyed (.cont pres kids) →
        ¬ Loose g.repr (.cont pres kids) (.obj ms) → ¬ Contradicts g.repr (.cont pres kids) (.obj ms) →
        Says g.repr (.cont pres kids) (.obj ms) (.field i :: p) x →
        ¬ Ignored x → i ∉ keys → (ietfMembers g true (.cont pres kids) keys po c ms).err = none →
        Landed g.repr (.cont pres kids) (.field i :: p) x (ietfMembers g true (.cont pres kids) keys po c ms).inst := by
      intro a w pres kids keys po c i p x hf hO hK hl hc hs hx hi h
      cases hs with
      | @field _ _ _ y _ k _ _ h1 h2 h3 h4 =>
        have hmem := List.mem_of_getElem? h3
        have hkf := (flatKids_mem hf hmem).2.2
        refine ietfMembers_post (own := w) (above := a) hO.1 (fun _ => hf) h3 (fun y hy _ b c m g1 g2 g3 => ?_) hl hc h1 h2 hi (fun c h5 => ?_) h
        · obtain ⟨T, hT⟩ := says_schema h4
          exact (ietf_frame g hov y.2).1 _ _ k.2 b c p m T hkf (orderly_kid hO.2 hmem) (keyed_kid hK h3) hT g2 g1 g3
        · exact (ih y h1).1 _ _ k.2 c p x hkf (orderly_kid hO.2 hmem) (keyed_kid hK h3) (fun h => hl (.inside h1 h2 h3 h))
            (fun h => hc (.inside h1 h2 h3 h)) h4 hx h5
    refine ⟨fun a w S c p x hf hO hK hl hc hs hx h => ?_, fun a w kids keys c i p x hf hO hK hl hc hs hx hi h => ?_⟩
    · simp only [ietfChild] at h ⊢
      obtain ⟨_, h2, h3⟩ := then_ok h
      rw [h3]
      cases S with
      | leaf L => cases hs; exact absurd trivial hx
      | leafList L => cases hs
      | list info kids => cases hs
      | cont pres kids =>
        cases p with
        | nil => cases hs
        | cons s p =>
          cases s with
          | key k => cases hs
          | field i => exact key a w pres kids [] w _ i p x hf hO hK hl hc hs hx (by simp) h2
    · simp only [ietfElem] at h ⊢
      exact key a w false kids keys none c i p x hf hO hK hl hc hs hx hi h
  | hnull =>
    refine ⟨fun a w S c p x hf hO hK hl hc hs hx h => ?_, fun a w kids keys c i p x _ _ _ _ _ _ _ _ h => by simp [ietfElem, fail] at h⟩
    cases hs with
    | leaf => exact absurd trivial hx
  | hbool v =>
    refine ⟨fun a w S c p x hf hO hK hl hc hs hx h => ?_, fun a w kids keys c i p x _ _ _ _ _ _ _ _ h => by simp [ietfElem, fail] at h⟩
    cases hs with
    | leaf => exact ⟨_, _, schemaAt_nil _, by simp [ietfChild], ietfStd_post hx h⟩
  | hnum v =>
    refine ⟨fun a w S c p x hf hO hK hl hc hs hx h => ?_, fun a w kids keys c i p x _ _ _ _ _ _ _ _ h => by simp [ietfElem, fail] at h⟩
    cases hs with
    | leaf => exact ⟨_, _, schemaAt_nil _, by simp [ietfChild], ietfStd_post hx h⟩
  | hfloat v =>
    refine ⟨fun a w S c p x hf hO hK hl hc hs hx h => ?_, fun a w kids keys c i p x _ _ _ _ _ _ _ _ h => by simp [ietfElem, fail] at h⟩
    cases hs with
    | leaf => exact ⟨_, _, schemaAt_nil _, by simp [ietfChild], ietfStd_post hx h⟩
  | hstr v =>
    refine ⟨fun a w S c p x hf hO hK hl hc hs hx h => ?_, fun a w kids keys c i p x _ _ _ _ _ _ _ _ h => by simp [ietfElem, fail] at h⟩
    cases hs with
    | leaf => exact ⟨_, _, schemaAt_nil _, by simp [ietfChild], ietfStd_post hx h⟩

end Pyb
