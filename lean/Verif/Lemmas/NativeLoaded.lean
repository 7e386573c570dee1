import Verif.Lemmas.Loaded
import Verif.Lemmas.NativeUnknown
import Verif.Spec.NativeLoaded

namespace Pyb
open Py Spec

variable {st : Bool}

theorem nativeChild_good {g : LoadOpt} {over : Bool} {j : J} {a : List Str} {w : Option Choice} {S : Schema} {c : Inst} (hf : Choices st a w S) :
    GoodSigs st a w (nativeChild g over S w c j).sigs :=
  (nativeChild_step goodStep (fun _ _ => trivial) g j).1 over a w S c (.inl fun _ => trivial) hf

/-! ## The entries of a user-ordered list are loaded once -/

theorem putOrder_perm {α : Type} {o : Int} {x : α} {kd : List (Int × α)} (h : o ∉ kd.map Prod.fst) :
    (putOrder o x kd).Perm ((o, x) :: kd) := by
  induction kd with
  | nil => exact .refl _
  | cons p kd ih =>
    simp only [List.map_cons, List.mem_cons, not_or] at h
    rw [putOrder, if_neg h.1]
    split
    · exact .refl _
    · exact ((ih h.2).cons p).trans (.swap ..)

theorem splitOrder_perm {α : Type} : ∀ (xs : List (Option Int × α)) (kd : List (Int × α)) (ok : List α),
    (xs.filterMap Prod.fst ++ kd.map Prod.fst).Nodup →
    ((splitOrder xs kd ok).1.map Prod.snd ++ (splitOrder xs kd ok).2).Perm (xs.map Prod.snd ++ (kd.map Prod.snd ++ ok)) := by
  intro xs
  induction xs with
  | nil => intro kd ok _; exact .refl _
  | cons x xs ih =>
    obtain ⟨o, x⟩ := x
    intro kd ok h
    cases o with
    | none =>
      rw [splitOrder]
      refine (ih kd (ok ++ [x]) (by simpa using h)).trans ?_
      rw [List.map_cons, List.cons_append, ← List.append_assoc, ← List.append_assoc]
      exact (List.perm_append_comm (l₂ := [x])).trans (by simp)
    | some o =>
      rw [splitOrder]
      have hn : o ∉ kd.map Prod.fst := by
        simp only [List.filterMap_cons, List.cons_append, List.nodup_cons, List.mem_append, not_or] at h
        exact h.1.2
      have hp := putOrder_perm (x := x) hn
      refine (ih (putOrder o x kd) ok ?_).trans ?_
      · refine (List.Perm.nodup_iff ?_).1 h
        simp only [List.filterMap_cons, List.cons_append]
        have := (hp.map Prod.fst).symm
        simp only [List.map_cons] at this
        exact (List.perm_middle.symm).trans (this.append_left _)
      · have h2 := hp.map Prod.snd
        simp only [List.map_cons] at h2 ⊢
        refine ((h2.append_right ok).append_left _).trans ?_
        simp only [List.cons_append]
        exact List.perm_middle

theorem kept_perm {o : Bool} {ms : List (Str × J)} (h : o = true → (ms.filterMap fun x => position x.2).Nodup) : (keptEntries o ms).Perm ms := by
  unfold keptEntries keyOrder
  cases o with
  | false =>
    have e : (Prod.snd ∘ fun m : Str × J => (orderOf m.2, m)) = id := rfl
    simp [e]
  | true =>
    simp only [if_true]
    have := splitOrder_perm (ms.map fun m => (orderOf m.2, m)) [] [] (by
      rw [List.map_nil, List.append_nil, List.filterMap_map]
      exact h rfl)
    simp only [List.map_map, List.map_nil, List.nil_append, List.append_nil] at this
    have e : (Prod.snd ∘ fun m : Str × J => (orderOf m.2, m)) = id := rfl
    rw [e, List.map_id] at this
    exact ((List.reverse_perm _).append_left _).trans this

/-! ## What a document does not concern stays -/

theorem nIsFor_idx {o : Bool} {kids : List (Meta × Schema)} (hn : GoodNames kids) {key : Str} {i : Nat} (h : NIsFor o kids key i) :
    kidIdx kids key = some i := by
  obtain ⟨_, k, hk, e⟩ := h
  exact kidIdx_name hn.2 hk e.symm

theorem nIsFor_of_idx {o : Bool} {kids : List (Meta × Schema)} {key : Str} {i : Nat} (ho : ¬ (o && key == yangOrder) = true)
    (h : kidIdx kids key = some i) : NIsFor o kids key i := by
  refine ⟨fun h => ho (by simp only [Bool.and_eq_true, beq_iff_eq]; exact h), ?_⟩
  simp only [kidIdx, List.findIdx?_eq_some_iff_getElem] at h
  obtain ⟨h1, h2, _⟩ := h
  exact ⟨kids[i], List.getElem?_eq_getElem h1, by simpa using h2⟩

theorem nativeUnknown_inst {skip : Bool} {n : Inst} : (nativeUnknown skip n).inst = n := by
  unfold nativeUnknown; split <;> rfl

theorem nativeEntry_frame {uuid : List PyVal → Str} {info : ListInfo} {kids : List (Meta × Schema)} {k : Str} {n : Inst}
    {k' : PyVal} {p : Path} {m : Inst} (hne : info.keys ≠ []) (hm : nodeAt n (.key k' :: p) = some m) :
    nodeAt (nativeEntry uuid info kids k n).inst (.key k' :: p) = some m := by
  unfold nativeEntry
  split
  · rename_i ch es
    split
    · exact hm
    · simp only [nodeOp, hne, if_false]
      cases ha : ylAdd (entryCls info kids) info.keys.length es (.str k) with
      | error e => exact hm
      | ok es' =>
        obtain ⟨h1, hs⟩ := ylAdd_ok ha
        obtain ⟨_, _, raws, e, _, _, rfl⟩ := ylSetPos_ok hs
        simp only [listOut]
        rw [store_new h1]
        exact nodeAt_new hm
  · exact hm

theorem nativeLoop_frame {uuid : List PyVal → Str} {info : ListInfo} {kids : List (Meta × Schema)} (hne : info.keys ≠ [])
    {k' : PyVal} {p : Path} {m : Inst} : ∀ {xs : List (Str × (Inst → Out))} {n : Inst},
    (∀ x ∈ xs, k' = .str x.1 → ∀ c, nodeAt c p = some m → nodeAt (x.2 c).inst p = some m) →
    nodeAt n (.key k' :: p) = some m → nodeAt (nativeLoop uuid info kids xs n).inst (.key k' :: p) = some m := by
  intro xs
  induction xs with
  | nil => intro n _ hm; exact hm
  | cons x xs ih =>
    obtain ⟨k, f⟩ := x
    intro n hin hm
    rw [nativeLoop]
    refine andThen_frame (andThen_frame (nativeEntry_frame hne hm) fun hm => withEntry_frame (fun e c hc => ?_) hm) fun hm =>
      ih (fun y hy => hin y (by simp [hy])) hm
    exact hin (k, f) (by simp) (pyEq_str e) c hc

section
variable {g : LoadOpt} {kids : List (Meta × Schema)} {above : List Str} {own po : Option Choice} {wrapped pres o : Bool}

theorem nGood (hf : wrapped = true → ChoicesKids st above own (choiceNames kids ++ above) kids) {x : Str × J} :
    wrapped = true → ∀ (i : Nat) k c, kids[i]? = some k → GoodSigs st (choiceNames kids ++ above) k.1.choice
      (nativeChild g false k.2 k.1.choice c x.2).sigs :=
  fun hw _ _ _ hk => nativeChild_good (flatKids_mem (hf hw) (List.mem_of_getElem? hk)).2.2

theorem nativeMembers_frame (hf : wrapped = true → ChoicesKids st above own (choiceNames kids ++ above) kids)
    {j : Nat} {k' : Meta × Schema} {p : Path} {m : Inst} (hk' : kids[j]? = some k') : ∀ {ms : List (Str × J)} {n : Inst},
    (∀ x ∈ ms, NIsFor o kids x.1 j → ∀ c, ¬ NConcerns false k'.2 x.2 p → nodeAt c p = some m →
      nodeAt (nativeChild g false k'.2 k'.1.choice c x.2).inst p = some m) →
    ¬ NConcerns o (.cont pres kids) (.obj ms) (.field j :: p) →
    nodeAt n (.field j :: p) = some m →
    nodeAt (nativeMembers g false wrapped o (.cont pres kids) po n ms).inst (.field j :: p) = some m := by
  intro ms
  induction ms with
  | nil => intro n _ _ hm; rw [nMembers_nil]; exact hm
  | cons x ms ih =>
    intro n hin hc hm
    rw [nMembers_cons]
    refine andThen_frame ?_ fun hm' => ih (fun y hy => hin y (by simp [hy])) (fun h => hc ?_) hm'
    · split
      · exact hm
      · rename_i ho
        refine withKid_frame hf (nGood hf) nativeUnknown_inst hk' ?_ ?_ hm
        · intro i k hi hk hr
          exact hc (.rival (by simp) (nIsFor_of_idx ho hi) hk hk' hr)
        · intro c hi hcm
          have h := nIsFor_of_idx ho hi
          exact hin x (by simp) h c (fun h' => hc (.field (by simp) h hk' h')) hcm
    · cases h with
      | field h1 h2 h3 h4 => exact .field (by simp [h1]) h2 h3 h4
      | rival h1 h2 h3 h4 h5 => exact .rival (by simp [h1]) h2 h3 h4 h5

end

theorem unsetAll_false {kids : List (Meta × Schema)} {n : Inst} : unsetAll false kids n = n := by
  unfold unsetAll; rfl

theorem nativeClear_false {keys : List Str} {n : Inst} : nativeClear false keys n = Out.same n := by
  unfold nativeClear; rfl

theorem nativeScalar_frame {g : LoadOpt} {j : J} {S T : Schema} {w : Option Choice} {c m : Inst} {p : Path}
    (hj : ∀ pres kids, nativeChild g false (.cont pres kids) w c j =
      (markPresent (.cont pres kids) w c).andThen fun c => jsonSet g.repr (.cont pres kids) w (unsetAll false kids c) j)
    (hl : ∀ info kids, nativeChild g false (.list info kids) w c j = fail c .attributeError)
    (hT : schemaAt S p = some T) (hc : ¬ NConcerns false S j p) (hm : nodeAt c p = some m) :
    nodeAt (nativeChild g false S w c j).inst p = some m := by
  cases p with
  | nil => exact absurd .here hc
  | cons s p =>
    cases S with
    | leaf L => cases s <;> simp [schemaAt] at hT
    | leafList L => cases s <;> simp [schemaAt] at hT
    | list info kids => rw [hl]; exact hm
    | cont pres kids =>
      rw [hj]
      refine andThen_frame (by rw [markPresent_nodeAt]; exact hm) fun hm => ?_
      rw [unsetAll_false]
      generalize (markPresent (.cont pres kids) w c).inst = c' at hm
      cases c' <;> exact hm

theorem native_frame (g : LoadOpt) (j : J) :
    (∀ a w S c p m T, Choices st a w S → Keyed S → schemaAt S p = some T → ¬ NConcerns false S j p →
      nodeAt c p = some m → nodeAt (nativeChild g false S w c j).inst p = some m) ∧
    (∀ a w o kids c p m T, ChoicesKids st a w (choiceNames kids ++ a) kids → Keyed (.cont false kids) →
      schemaAt (.cont false kids) p = some T → ¬ NConcerns o (.cont false kids) j p →
      nodeAt c p = some m → nodeAt (nativeElem g o kids c j).inst p = some m) := by
  induction j using J.ind with
  | hobj ms ih =>
    have key : ∀ a w o pres kids po c i p m T, ChoicesKids st a w (choiceNames kids ++ a) kids → Keyed (.cont pres kids) →
        schemaAt (.cont pres kids) (.field i :: p) = some T → ¬ NConcerns o (.cont pres kids) (.obj ms) (.field i :: p) →
        nodeAt c (.field i :: p) = some m → nodeAt (nativeMembers g false true o (.cont pres kids) po c ms).inst (.field i :: p) = some m := by
      intro a w o pres kids po c i p m T hf hK hT hc hm
      rw [schemaAt_cont] at hT
      cases hk : kids[i]? with
      | none => simp [hk] at hT
      | some k =>
        rw [hk] at hT
        refine nativeMembers_frame (own := w) (above := a) (fun _ => hf) hk (fun x hx _ c h1 h3 => ?_) hc hm
        have hmem := List.mem_of_getElem? hk
        exact (ih x hx).1 _ _ k.2 c p m T (flatKids_mem hf hmem).2.2 (keyed_kid hK hk) hT h1 h3
    refine ⟨fun a w S c p m T hf hK hT hc hm => ?_, fun a w o kids c p m T hf hK hT hc hm => ?_⟩
    · cases p with
      | nil => exact absurd .here hc
      | cons s p =>
      cases S with
      | leaf L => cases s <;> simp [schemaAt] at hT
      | leafList L => cases s <;> simp [schemaAt] at hT
      | cont pres kids =>
        simp only [nativeChild]
        refine andThen_frame (by rw [markPresent_nodeAt]; exact hm) fun hm => ?_
        rw [unsetAll_false]
        cases s with
        | key k => simp [schemaAt] at hT
        | field i => exact key a w false pres kids w _ i p m T hf hK hT hc hm
      | list info kids =>
        cases s with
        | field i => simp [schemaAt] at hT
        | key k =>
          simp only [nativeChild, kept_fns, nativeClear_false]
          refine andThen_frame (nativeLoop_frame ((keyed_list ..).1 hK).1 ?_ hm) fun hm => ?_
          · intro y hy e c hcm
            obtain ⟨x, hx, rfl⟩ := List.mem_map.1 hy
            simp only at e ⊢
            subst e
            exact (ih x (kept_sub hx)).2 a w info.ordered kids c p m T hf (keyed_entry hK) hT (fun h => hc (.entry (kept_sub hx) h)) hcm
          · rw [same_then]
            cases ms with
            | nil => exact absurd .whole hc
            | cons => exact hm
    · simp only [nativeElem]
      cases p with
      | nil => exact absurd .here hc
      | cons s p =>
        cases s with
        | key k => simp [schemaAt] at hT
        | field i => exact key a w o false kids none c i p m T hf hK hT hc hm
  | _ =>
    refine ⟨fun a w S c p m T hf hK hT hc hm => ?_, fun a w o kids c p m T _ _ _ _ hm => by simp only [nativeElem]; exact hm⟩
    exact nativeScalar_frame (fun _ _ => by simp only [nativeChild]) (fun _ _ => by simp only [nativeChild]) hT hc hm

/-! ## What a document says is there -/

theorem union_old {v : PyVal} : ∀ {ws xs : List PyVal}, v ∈ xs → v ∈ union xs ws := by
  intro ws
  induction ws with
  | nil => intro xs h; exact h
  | cons w ws ih =>
    intro xs h
    simp only [union, List.foldl_cons] at ih ⊢
    split
    · exact ih h
    · exact ih (by simp [h])

theorem union_has {v : PyVal} : ∀ {ws xs : List PyVal}, v ∈ ws → ∃ w ∈ union xs ws, pyEq w v = true := by
  intro ws
  induction ws with
  | nil => intro xs h; simp at h
  | cons w ws ih =>
    intro xs h
    rcases List.mem_cons.1 h with rfl | h
    · by_cases hx : (xs.any fun x => pyEq x v) = true
      · obtain ⟨x, hx1, hx2⟩ := List.any_eq_true.1 hx
        refine ⟨x, ?_, hx2⟩
        simp only [union, List.foldl_cons, hx, if_true]
        exact union_old hx1
      · refine ⟨v, ?_, pyEq_refl v⟩
        simp only [union, List.foldl_cons, hx]
        exact union_old (by simp)
    · simp only [union, List.foldl_cons] at ih ⊢
      exact ih h

theorem nativeMerge_post {L : LLCls} {own : Option Choice} {repr : J → Str} {c : Inst} {xs : List J}
    (h : (nativeMerge L own repr c (.arr xs)).err = none) : NHolds repr (.leafList L) (.arr xs) (nativeMerge L own repr c (.arr xs)).inst := by
  have hdrop : ∃ zs ch ch' sg, (mergeAdd L own (xs.map (jPy repr)) c).inst = .leafList zs ch ∧
      nativeMerge L own repr c (.arr xs) = ⟨.leafList (zs.filter fun e => pyIn e (xs.map (jPy repr))) ch', sg, none⟩ := by
    unfold nativeMerge at h ⊢
    obtain ⟨h1, h2, h3⟩ := then_ok h
    generalize hn : (mergeAdd L own (xs.map (jPy repr)) c).inst = n at h2 h3 ⊢
    cases n with
    | leafList zs ch =>
      obtain ⟨ch', sg, e⟩ := mergeDrop_filter (L := L) (own := own) (items := xs.map (jPy repr)) zs [] ch (by simp)
      simp only [List.nil_append] at e
      refine ⟨zs, ch, ch', (mergeAdd L own (xs.map (jPy repr)) c).sigs ++ sg, rfl, ?_⟩
      simp only [Out.andThen, h1, hn, e]
    | _ => simp [fail] at h2
  obtain ⟨zs, ch, ch', sg, e1, e2⟩ := hdrop
  rw [e2]
  refine ⟨_, ch', rfl, ?_, ?_⟩
  · intro w hw
    have := (List.mem_filter.1 hw).2
    simp only [pyIn, List.any_map, List.any_eq_true] at this
    obtain ⟨x, hx, h4⟩ := this
    exact ⟨x, hx, by rw [pyEq_symm]; exact h4⟩
  · intro hconv x hx
    suffices ∃ w ∈ zs, pyEq w (jPy repr x) = true by
      obtain ⟨w, hw, h5⟩ := this
      refine ⟨w, List.mem_filter.2 ⟨hw, ?_⟩, h5⟩
      simp only [pyIn, List.any_map, List.any_eq_true]
      exact ⟨x, hx, by rw [Function.comp_apply, pyEq_symm]; exact h5⟩
    have key : ∀ (ps : List PyVal) (n : Inst) zs ch, (∀ q ∈ ps, ∃ w, L.conv q = some w ∧ pyEq w q = true) →
        (mergeAdd L own ps n).inst = .leafList zs ch → (mergeAdd L own ps n).err = none → ∀ q ∈ ps, ∃ w ∈ zs, pyEq w q = true := by
      intro ps n zs ch hc h1 h2 q hq
      have hne : ∃ ys ch0, n = .leafList ys ch0 := by
        cases n with
        | leafList ys ch0 => exact ⟨_, _, rfl⟩
        | _ =>
          cases ps with
          | nil => simp at hq
          | cons => simp [mergeAdd, fail] at h2
      obtain ⟨ys, ch0, rfl⟩ := hne
      have hws : ∃ ws : List PyVal, ps.map L.conv = ws.map some ∧ ∀ (i : Nat) q w, ps[i]? = some q → ws[i]? = some w → pyEq w q = true := by
        clear h1 h2 hq
        induction ps with
        | nil => exact ⟨[], rfl, by simp⟩
        | cons a ps ih =>
          obtain ⟨w, hw1, hw2⟩ := hc a (by simp)
          obtain ⟨ws, h3, h4⟩ := ih fun q hq => hc q (by simp [hq])
          refine ⟨w :: ws, by simp [hw1, h3], ?_⟩
          intro i q v hq hv
          cases i with
          | zero => simp at hq hv; subst hq; subst hv; exact hw2
          | succ i => exact h4 i q v (by simpa using hq) (by simpa using hv)
      obtain ⟨ws, h3, h4⟩ := hws
      obtain ⟨ch1, sg1, e3⟩ := mergeAdd_union (L := L) (own := own) ps ws ys ch0 h3 h4
      rw [e3] at h1
      simp only [Inst.leafList.injEq] at h1
      obtain ⟨rfl, _⟩ := h1
      obtain ⟨i, hi, rfl⟩ := List.getElem_of_mem hq
      have hlen : ps.length = ws.length := by simpa using congrArg List.length h3
      have h5 := h4 i ps[i] ws[i] (List.getElem?_eq_getElem _) (List.getElem?_eq_getElem _)
      obtain ⟨w, hw, h6⟩ := union_has (xs := ys) (List.getElem_mem (l := ws) (n := i) (by omega))
      exact ⟨w, hw, by rw [pyEq_trans h6]; exact h5⟩
    unfold nativeMerge at h
    exact key _ c zs ch (by
      intro q hq
      obtain ⟨x, hx, rfl⟩ := List.mem_map.1 hq
      exact hconv x hx) e1 (then_ok h).1 _ (List.mem_map_of_mem hx)

/-- The object at the path holds the value. -/
def NLanded (repr : J → Str) (S : Schema) (p : Path) (x : J) (n : Inst) : Prop :=
  ∃ T m, schemaAt S p = some T ∧ nodeAt n p = some m ∧ NHolds repr T x m

theorem nativeLoop_append {uuid : List PyVal → Str} {info : ListInfo} {kids : List (Meta × Schema)} {ys : List (Str × (Inst → Out))} :
    ∀ {xs : List (Str × (Inst → Out))} {n : Inst}, nativeLoop uuid info kids (xs ++ ys) n =
      (nativeLoop uuid info kids xs n).andThen (nativeLoop uuid info kids ys) := by
  intro xs
  induction xs with
  | nil => intro n; rw [nativeLoop, same_then]; rfl
  | cons x xs ih =>
    obtain ⟨k, f⟩ := x
    intro n
    rw [List.cons_append, nativeLoop, nativeLoop]
    generalize (nativeEntry uuid info kids k n).andThen (fun n => withEntry n (.str k) f) = o1
    rw [andThen_assoc]
    congr 1
    funext n
    exact ih

section
variable {g : LoadOpt} {kids : List (Meta × Schema)} {above : List Str} {own po : Option Choice} {wrapped pres o : Bool}

theorem nativeMembers_post (hn : GoodNames kids) (hf : wrapped = true → ChoicesKids st above own (choiceNames kids ++ above) kids)
    {i : Nat} {k : Meta × Schema} {p : Path} {v : J} {ms : List (Str × J)} {x : Str × J} {n : Inst} (hk : kids[i]? = some k)
    (hfr : ∀ y ∈ ms, NIsFor o kids y.1 i → ∀ c m, ¬ NConcerns false k.2 y.2 p → nodeAt c p = some m →
      nodeAt (nativeChild g false k.2 k.1.choice c y.2).inst p = some m)
    (hc : ¬ NContradicts o (.cont pres kids) (.obj ms)) (hx : x ∈ ms) (hfor : NIsFor o kids x.1 i)
    (hin : ∀ c, (nativeChild g false k.2 k.1.choice c x.2).err = none → NLanded g.repr k.2 p v (nativeChild g false k.2 k.1.choice c x.2).inst)
    (h : (nativeMembers g false wrapped o (.cont pres kids) po n ms).err = none) :
    NLanded g.repr (.cont pres kids) (.field i :: p) v (nativeMembers g false wrapped o (.cont pres kids) po n ms).inst := by
  obtain ⟨pre, post, rfl⟩ := mem_parts hx
  rw [nMembers_append] at h ⊢
  obtain ⟨_, h2, h3⟩ := then_ok h
  rw [h3]
  generalize (nativeMembers g false wrapped o (.cont pres kids) po n pre).inst = n1 at h2 h3 ⊢
  rw [nMembers_cons] at h2 ⊢
  obtain ⟨h4, h5, h6⟩ := then_ok h2
  rw [h6]
  have ho : ¬ (o && x.1 == yangOrder) = true := by
    intro h
    simp only [Bool.and_eq_true, beq_iff_eq] at h
    exact hfor.1 h
  rw [if_neg ho] at h4 h5 ⊢
  obtain ⟨c, _, h7, h8⟩ := withKid_post hf (nGood (x := x) hf) (nIsFor_idx hn hfor) hk h4
  obtain ⟨T, m, h9, h10, h11⟩ := hin c h7
  refine ⟨T, m, by rw [schemaAt_cont, hk]; exact h9, ?_, h11⟩
  refine nativeMembers_frame hf hk (fun y hy hfy c h1 h3 => hfr y (by simp [hy]) hfy c m h1 h3) (fun h => hc ?_) ?_
  · cases h with
    | @field _ _ _ _ y _ _ _ h1 h2 h3 h4 =>
      obtain ⟨b, hb', hb⟩ := List.getElem_of_mem h1
      refine .twice (a := pre.length) (b := pre.length + (b + 1)) (x := x) (y := y) (by omega) (by simp) ?_ hfor h2
      rw [List.getElem?_append_right (by omega)]
      simp [List.getElem?_eq_getElem hb', hb]
    | rival h1 h2 h3 h4 h5 =>
      rw [hk] at h4
      obtain rfl := Option.some.inj h4
      exact .rivals (by simp [h1]) hx h2 hfor h3 hk h5
  · rw [h8]
    exact h10

theorem nativeLoop_post {info : ListInfo} (hne : info.keys ≠ []) {p : Path} {es : List (Str × J)} {x : Str × J} {n : Inst}
    {f : J → Inst → Out} (hd : (es.map Prod.fst).Nodup) (hx : x ∈ es) (h : (nativeLoop g.uuid info kids (es.map fun m => (m.1, f m.2)) n).err = none) :
    ∃ c, (f x.2 c).err = none ∧ ∀ m, nodeAt (f x.2 c).inst p = some m →
      nodeAt (nativeLoop g.uuid info kids (es.map fun m => (m.1, f m.2)) n).inst (.key (.str x.1) :: p) = some m := by
  obtain ⟨pre, post, rfl⟩ := mem_parts hx
  rw [List.map_append, List.map_cons, nativeLoop_append] at h ⊢
  obtain ⟨_, h2, h3⟩ := then_ok h
  rw [h3]
  generalize (nativeLoop g.uuid info kids (pre.map fun m => (m.1, f m.2)) n).inst = n1 at h2 h3 ⊢
  rw [nativeLoop] at h2 ⊢
  obtain ⟨h4, h5, h6⟩ := then_ok h2
  rw [h6]
  obtain ⟨h7, h8, h9⟩ := then_ok h4
  obtain ⟨c, h10, h11⟩ := withEntry_post h8
  refine ⟨c, h10, fun m hm => nativeLoop_frame hne ?_ ?_⟩
  · intro y hy e
    obtain ⟨z, hz, rfl⟩ := List.mem_map.1 hy
    simp only [PyVal.str.injEq] at e
    simp only [List.map_append, List.map_cons, List.nodup_append, List.nodup_cons] at hd
    exact absurd (List.mem_map.2 ⟨z, hz, e.symm⟩) hd.2.1.1
  · rw [h9, h11]
    exact hm

end

theorem nSays_schema {o : Bool} {S : Schema} {j x : J} {p : Path} (h : NSays o S j p x) : ∃ T, schemaAt S p = some T := by
  induction h with
  | leaf => exact ⟨_, schemaAt_nil _⟩
  | leafList => exact ⟨_, schemaAt_nil _⟩
  | field _ _ hk _ ih =>
    obtain ⟨T, hT⟩ := ih
    exact ⟨T, by rw [schemaAt_cont, hk]; exact hT⟩
  | entry _ _ ih =>
    obtain ⟨T, hT⟩ := ih
    exact ⟨T, hT⟩

theorem jsonSet_leaf_post {repr : J → Str} {L : LeafCls} {w : Option Choice} {c : Inst} {j : J} (h : (jsonSet repr (.leaf L) w c j).err = none) :
    NLanded repr (.leaf L) [] j (jsonSet repr (.leaf L) w c j).inst := by
  simp only [jsonSet] at h ⊢
  obtain ⟨u, h3, h4⟩ := leafSet_done h
  exact ⟨_, _, schemaAt_nil _, nodeAt_nil _, u, h3, h4⟩

theorem native_post (g : LoadOpt) (j : J) :
    (∀ a w S c p x, Choices st a w S → Orderly S → Keyed S → ¬ NContradicts false S j → NSays false S j p x →
      (nativeChild g false S w c j).err = none → NLanded g.repr S p x (nativeChild g false S w c j).inst) ∧
    (∀ a w o kids c p x, ChoicesKids st a w (choiceNames kids ++ a) kids → Orderly (.cont false kids) → Keyed (.cont false kids) →
      ¬ NContradicts o (.cont false kids) j → NSays o (.cont false kids) j p x →
      (nativeElem g o kids c j).err = none → NLanded g.repr (.cont false kids) p x (nativeElem g o kids c j).inst) := by
  induction j using J.ind with
  | hobj ms ih =>
    have key : ∀ a w o pres kids po c p x, ChoicesKids st a w (choiceNames kids ++ a) kids → Orderly (.cont pres kids) → Keyed (.cont pres kids) →
        ¬ NContradicts o (.cont pres kids) (.obj ms) → NSays o (.cont pres kids) (.obj ms) p x →
        (nativeMembers g false true o (.cont pres kids) po c ms).err = none →
        NLanded g.repr (.cont pres kids) p x (nativeMembers g false true o (.cont pres kids) po c ms).inst := by
      intro a w o pres kids po c p x hf hO hK hc hs h
      cases hs with
      | @field _ _ _ _ y i k p _ h1 h2 h3 h4 =>
        have hmem := List.mem_of_getElem? h3
        obtain ⟨T, hT⟩ := nSays_schema h4
        refine nativeMembers_post (own := w) (above := a) hO.1 (fun _ => hf) h3 (fun z hz _ c m g1 g3 => ?_) hc h1 h2 (fun c h5 => ?_) h
        · exact (native_frame g z.2).1 _ _ k.2 c p m T (flatKids_mem hf hmem).2.2 (keyed_kid hK h3) hT g1 g3
        · exact (ih y h1).1 _ _ k.2 c p x (flatKids_mem hf hmem).2.2 (orderly_kid hO.2 hmem) (keyed_kid hK h3)
            (fun h => hc (.inside h1 h2 h3 h)) h4 h5
    refine ⟨fun a w S c p x hf hO hK hc hs h => ?_, fun a w o kids c p x hf hO hK hc hs h => ?_⟩
    · cases hs with
      | leaf => simp only [nativeChild] at h ⊢; exact jsonSet_leaf_post h
      | @field o pres kids _ y i k p _ h1 h2 h3 h4 =>
        simp only [nativeChild, unsetAll_false] at h ⊢
        obtain ⟨_, h6, h7⟩ := then_ok h
        rw [h7]
        exact key a w false pres kids w _ _ x hf hO hK hc (.field h1 h2 h3 h4) h6
      | @entry _ info kids _ y p _ h1 h2 =>
        simp only [nativeChild, kept_fns, nativeClear_false, same_then] at h ⊢
        obtain ⟨h6, h7, h8⟩ := then_ok h
        rw [h8]
        have hplace : info.ordered = true → (ms.filterMap fun x => position x.2).Nodup := by
          intro ho
          by_cases hn : (ms.filterMap fun x : Str × J => position x.2).Nodup
          · exact hn
          · exact absurd (.samePlace ho hn) hc
        have hd : (ms.map Prod.fst).Nodup := by
          by_cases hn : (ms.map Prod.fst).Nodup
          · exact hn
          · exact absurd (.sameKey hn) hc
        have hp := kept_perm hplace
        obtain ⟨d, h9, h10⟩ := nativeLoop_post (f := fun j c => nativeElem g info.ordered kids c j) (p := p) ((keyed_list ..).1 hK).1
          ((hp.map Prod.fst).nodup_iff.2 hd) (hp.mem_iff.2 h1) h6
        obtain ⟨T, m, h11, h12, h13⟩ := (ih y h1).2 a w info.ordered kids d p x hf ⟨hO.1, hO.2.2⟩ (keyed_entry hK) (fun h => hc (.entry h1 h)) h2 h9
        refine ⟨T, m, h11, ?_, h13⟩
        have hne : ms.isEmpty = false := by
          cases ms with
          | nil => simp at h1
          | cons => rfl
        rw [hne]
        exact h10 m h12
    · simp only [nativeElem] at h ⊢
      exact key a w o false kids none c p x hf hO hK hc hs h
  | harr xs ih =>
    refine ⟨fun a w S c p x hf hO hK hc hs h => ?_, fun a w o kids c p x _ _ _ _ hs _ => by cases hs⟩
    cases hs with
    | leaf => simp only [nativeChild] at h ⊢; exact jsonSet_leaf_post h
    | leafList =>
      simp only [nativeChild, Bool.false_eq_true, if_false] at h ⊢
      exact ⟨_, _, schemaAt_nil _, nodeAt_nil _, nativeMerge_post h⟩
  | _ =>
    refine ⟨fun a w S c p x hf hO hK hc hs h => ?_, fun a w o kids c p x _ _ _ _ hs _ => by cases hs⟩
    cases hs with
    | leaf => simp only [nativeChild] at h ⊢; exact jsonSet_leaf_post h

end Pyb
