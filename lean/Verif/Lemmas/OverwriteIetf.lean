import Verif.Lemmas.Overwrite
import Verif.Spec.Overwrite

namespace Pyb
open Py Spec

/-! ## IETF JSON -/

theorem members_nil' {g : LoadOpt} {wrapped : Bool} {S : Schema} {keys : List Nat} {own : Option Choice} {n : Inst} :
    ietfMembers g wrapped S keys own n [] = Out.same n := by
  unfold ietfMembers; rfl

theorem iMembers_append {g : LoadOpt} {wrapped : Bool} {S : Schema} {keys : List Nat} {own : Option Choice} {ms ms' : List (Str × J)} :
    ∀ {n : Inst}, ietfMembers g wrapped S keys own n (ms ++ ms') =
    (ietfMembers g wrapped S keys own n ms).andThen fun n => ietfMembers g wrapped S keys own n ms' := by
  induction ms with
  | nil => intro n; rw [List.nil_append, members_nil', same_then]
  | cons m ms ih =>
    intro n
    rw [List.cons_append, members_cons, members_cons, andThen_assoc]
    simp only [ih]

theorem ietfUnknown_inst {skip : Bool} {n : Inst} {j : J} : (ietfUnknown skip n j).inst = n := by
  unfold ietfUnknown
  split
  · rfl
  · rfl
  · split <;> rfl

theorem iTop_other {g : LoadOpt} {kids : List (Meta × Schema)} {i : Nat} {ch pr : Bool} :
    ∀ (ms : List (Str × J)) (ns : List Inst), (∀ x ∈ ms, kidIdx kids (localKey x.1) ≠ some i) →
    ∃ ns', (ietfMembers g false (.cont false kids) [] none (.cont ch pr ns) ms).inst = .cont ch pr ns' ∧ ns'[i]? = ns[i]? := by
  intro ms
  induction ms with
  | nil => intro ns _; rw [members_nil']; exact ⟨ns, rfl, rfl⟩
  | cons m ms ih =>
    intro ns h
    rw [members_cons]
    by_cases hat : '@' ∈ m.1
    · simp only [hat, if_true, same_then]
      exact ih ns fun x hx => h x (by simp [hx])
    · simp only [hat, if_false]
      obtain ⟨ns1, e1, e2⟩ := topStep_other (f := fun i k c => ietfChild g k.2 k.1.choice (([] : List Nat).contains i) c m.2)
        (u := ietfUnknown g.skip (.cont ch pr ns) m.2) (kids := kids) (key := localKey m.1) (ch := ch) (pr := pr) (ns := ns)
        ietfUnknown_inst (h m (by simp))
      unfold topStep at e1
      generalize hw : withKid false (.cont false kids) none (.cont ch pr ns) (localKey m.1) (ietfUnknown g.skip (.cont ch pr ns) m.2) _ = w at e1
      unfold Out.andThen
      cases he : w.err with
      | some e => exact ⟨ns1, e1, e2⟩
      | none =>
        rw [e1]
        obtain ⟨ns2, f1, f2⟩ := ih ns1 fun x hx => h x (by simp [hx])
        exact ⟨ns2, f1, by rw [f2, e2]⟩

theorem iTop_child {g : LoadOpt} {kids : List (Meta × Schema)} {i : Nat} {ch pr : Bool} {k : Meta × Schema}
    {pre post : List (Str × J)} {key : Str} {j : J} {ns : List Inst} {c : Inst}
    (hk : kids[i]? = some k) (hc : ns[i]? = some c) (hkey : kidIdx kids (localKey key) = some i) (hat : '@' ∉ key)
    (hpre : ∀ x ∈ pre, kidIdx kids (localKey x.1) ≠ some i) (hpost : ∀ x ∈ post, kidIdx kids (localKey x.1) ≠ some i)
    (h : (ietfMembers g false (.cont false kids) [] none (.cont ch pr ns) (pre ++ (key, j) :: post)).err = none) :
    (ietfChild g k.2 k.1.choice false c j).err = none ∧
    ∃ ns', (ietfMembers g false (.cont false kids) [] none (.cont ch pr ns) (pre ++ (key, j) :: post)).inst = .cont ch pr ns' ∧
      ns'[i]? = some (ietfChild g k.2 k.1.choice false c j).inst := by
  rw [iMembers_append] at h ⊢
  obtain ⟨h1, h2, h3⟩ := then_ok h
  rw [h3]
  obtain ⟨ns1, e1, e2⟩ := iTop_other (g := g) (ch := ch) (pr := pr) pre ns hpre
  rw [e1] at h2 ⊢
  rw [members_cons] at h2 ⊢
  simp only [hat, if_false] at h2 ⊢
  obtain ⟨h4, h5, h6⟩ := then_ok h2
  rw [h6]
  simp only [withKid, hkey, hk, e2, hc, holdPut, Bool.false_eq_true, if_false] at h4 h5 ⊢
  have hct : ([] : List Nat).contains i = false := rfl
  rw [hct] at h4 h5 ⊢
  refine ⟨h4, ?_⟩
  obtain ⟨ns2, f1, f2⟩ := iTop_other (g := g) (ch := ch) (pr := pr) post
    (ns1.set i (ietfChild g k.2 k.1.choice false c j).inst) hpost
  refine ⟨ns2, f1, ?_⟩
  rw [f2, List.getElem?_set_self]
  rw [hc] at e2
  exact (List.getElem?_eq_some_iff.1 e2).1

theorem iElems_nil {g : LoadOpt} {info : ListInfo} {kids : List (Meta × Schema)} {n : Inst} :
    ietfElems g info kids n [] = Out.same n := by
  unfold ietfElems; rfl

/-- What one element does to a list. -/
def elemStep (g : LoadOpt) (info : ListInfo) (kids : List (Meta × Schema)) (x : J) (n : Inst) : Out :=
  match n with
  | .list ch es =>
    let e := ietfEntry g info kids ch es x
    e.1.andThen fun n => withEntry n e.2 fun c => ietfElem g kids info.keys c x
  | n => fail n .attributeError

theorem iElems_cons {g : LoadOpt} {info : ListInfo} {kids : List (Meta × Schema)} {n : Inst} {x : J} {xs : List J} :
    ietfElems g info kids n (x :: xs) =
    (((if g.over then ietfClear n else Out.same n).andThen (elemStep g info kids x)).andThen fun n => ietfElems g info kids n xs) := by
  conv => lhs; unfold ietfElems
  rfl

theorem iElems_append {g : LoadOpt} {info : ListInfo} {kids : List (Meta × Schema)} {xs ys : List J} :
    ∀ {n : Inst}, ietfElems g info kids n (xs ++ ys) = (ietfElems g info kids n xs).andThen fun n => ietfElems g info kids n ys := by
  induction xs with
  | nil => intro n; rw [List.nil_append, iElems_nil, same_then]
  | cons x xs ih =>
    intro n
    rw [List.cons_append, iElems_cons, iElems_cons, andThen_assoc, andThen_assoc, andThen_assoc]
    simp only [ih, andThen_assoc]

theorem ietfEntry_list {g : LoadOpt} {info : ListInfo} {kids : List (Meta × Schema)} {ch : Bool} {es : Members Inst} {x : J}
    (h : (ietfEntry g info kids ch es x).1.err = none) : ∃ es', (ietfEntry g info kids ch es x).1.inst = .list ch es' ∧
      (es = [] → es'.length = 1) := by
  unfold ietfEntry at h ⊢
  cases hk : info.keys with
  | nil =>
    simp only [nodeOp, hk, if_true] at h ⊢
    refine ⟨_, rfl, ?_⟩
    rintro rfl
    rfl
  | cons i rest =>
    simp only [hk] at h ⊢
    cases x with
    | obj ms =>
      simp only at h ⊢
      cases hj : elemKeys (keyNames info kids) ms with
      | error e => simp only [hj, fail] at h; simp at h
      | ok js =>
        simp only [hj] at h ⊢
        by_cases hr : rest = []
        · simp only [hr, if_true] at h ⊢
          split at h
          · simp [fail] at h
          · rename_i h1
            simp only [h1, if_false]
            by_cases h2 : mem es ((js.map (jPy g.repr)).headD .none) = true
            · simp only [h2, if_true] at h ⊢
              exact ⟨es, rfl, by rintro rfl; simp [mem] at h2⟩
            · simp only [h2, if_false, nodeOp, hk] at h ⊢
              simp only [reduceCtorEq, if_false] at h ⊢
              cases ha : ylAdd (entryCls info kids) (i :: rest).length es ((js.map (jPy g.repr)).headD .none) with
              | error e => rw [hr] at ha; simp only [hr, ha, listOut] at h; simp at h
              | ok es' =>
                rw [hr] at ha
                simp only [hr, ha, listOut]
                obtain ⟨_, hs⟩ := ylAdd_ok ha
                obtain ⟨_, _, raws, e, _, _, rfl⟩ := ylSetPos_ok hs
                exact ⟨_, rfl, by rintro rfl; rfl⟩
        · simp only [hr, if_false] at h ⊢
          split at h
          · rename_i h2
            rw [if_pos h2]
            exact ⟨es, rfl, by rintro rfl; simp [mem] at h2⟩
          · rename_i h2
            rw [if_neg h2]
            simp only [nodeOp, hk] at h ⊢
            split at h
            · simp [fail] at h
            · rename_i h3
              rw [if_neg h3]
              cases ha : ylAddNamed (entryCls info kids) es ((js.map (jPy g.repr)).map some) none with
              | error e => simp only [ha, listOut] at h; simp at h
              | ok es' =>
                simp only [ha, listOut]
                obtain ⟨rs, e, _, _, _, rfl⟩ := ylAddNamed_ok ha
                exact ⟨_, rfl, by rintro rfl; rfl⟩
    | _ => simp [fail] at h

theorem elemStep_list {g : LoadOpt} {info : ListInfo} {kids : List (Meta × Schema)} {ch : Bool} {es : Members Inst} {x : J}
    (h : (elemStep g info kids x (.list ch es)).err = none) : ∃ es', (elemStep g info kids x (.list ch es)).inst = .list ch es' ∧
      (es = [] → es'.length = 1) := by
  unfold elemStep at h ⊢
  simp only at h ⊢
  obtain ⟨h1, h2, h3⟩ := then_ok h
  obtain ⟨es1, e1, e2⟩ := ietfEntry_list h1
  rw [h3]
  rw [e1] at h2 ⊢
  obtain ⟨_, es2, f1, f2⟩ := withEntry_ok h2
  refine ⟨es2, f1, fun he => ?_⟩
  have := congrArg List.length f2
  simp only [List.length_map] at this
  rw [this, e2 he]

theorem clear_ok {ch : Bool} {es : Members Inst} (h : (ietfClear (.list ch es)).err = none) :
    ietfClear (.list ch es) = Out.same (.list ch []) ∧ es.length ≤ 1 := by
  cases es with
  | nil => exact ⟨rfl, by simp⟩
  | cons q es =>
    cases es with
    | nil => exact ⟨rfl, by simp⟩
    | cons q' es => simp [ietfClear, fail] at h

theorem iElems_list {g : LoadOpt} (hov : g.over = true) {info : ListInfo} {kids : List (Meta × Schema)} {ch : Bool} :
    ∀ (xs : List J) (es : Members Inst), (ietfElems g info kids (.list ch es) xs).err = none →
    ∃ es', (ietfElems g info kids (.list ch es) xs).inst = .list ch es' ∧ (xs ≠ [] → es.length ≤ 1 ∧ es'.length = 1) := by
  intro xs
  induction xs with
  | nil => intro es _; rw [iElems_nil]; exact ⟨es, rfl, by simp⟩
  | cons x xs ih =>
    intro es h
    rw [iElems_cons] at h ⊢
    simp only [hov, if_true] at h ⊢
    obtain ⟨h1, h2, h3⟩ := then_ok h
    obtain ⟨h4, h5, h6⟩ := then_ok h1
    obtain ⟨c1, c2⟩ := clear_ok h4
    rw [h3]
    rw [h6] at h2 ⊢
    rw [c1] at h5 h2 ⊢
    simp only [Out.same] at h5 h2 ⊢
    obtain ⟨es1, e1, e2⟩ := elemStep_list h5
    rw [e1] at h2 ⊢
    obtain ⟨es2, f1, f2⟩ := ih es1 h2
    refine ⟨es2, f1, fun _ => ⟨c2, ?_⟩⟩
    by_cases hx : xs = []
    · subst hx
      rw [iElems_nil] at f1
      simp only [Out.same, Inst.list.injEq, true_and] at f1
      rw [← f1]
      exact e2 rfl
    · exact (f2 hx).2

/-- Only the last element counts. -/
theorem iElems_last {g : LoadOpt} (hov : g.over = true) {info : ListInfo} {kids : List (Meta × Schema)} {ch : Bool} {es : Members Inst}
    {xs : List J} {x : J} (h : (ietfElems g info kids (.list ch es) (xs ++ [x])).err = none) :
    (ietfElems g info kids (.list ch es) (xs ++ [x])).inst = (ietfElems g info kids (.list ch []) [x]).inst ∧
    (ietfElems g info kids (.list ch []) [x]).err = none := by
  rw [iElems_append] at h ⊢
  obtain ⟨h1, h2, h3⟩ := then_ok h
  obtain ⟨es1, e1, _⟩ := iElems_list hov xs es h1
  rw [h3]
  rw [e1] at h2 ⊢
  have : ietfElems g info kids (.list ch es1) [x] = ietfElems g info kids (.list ch []) [x] := by
    rw [iElems_cons, iElems_cons]
    rw [iElems_cons] at h2
    simp only [hov, if_true] at h2 ⊢
    obtain ⟨a, _, _⟩ := then_ok (then_ok h2).1
    rw [(clear_ok a).1]
    rfl
  rw [this] at h2 ⊢
  exact ⟨rfl, h2⟩

/-! ## Leaf-lists in native JSON -/

theorem mergeAdd_union {L : LLCls} {own : Option Choice} : ∀ (ps ws xs : List PyVal) (ch : Bool),
    ps.map L.conv = ws.map some → (∀ (i : Nat) p w, ps[i]? = some p → ws[i]? = some w → pyEq w p = true) →
    ∃ ch' sg, mergeAdd L own ps (.leafList xs ch) = ⟨.leafList (union xs ws) ch', sg, none⟩ := by
  intro ps
  induction ps with
  | nil =>
    intro ws xs ch h _
    have : ws = [] := by simpa using h.symm
    subst this
    exact ⟨ch, [], rfl⟩
  | cons p ps ih =>
    intro ws xs ch h he
    cases ws with
    | nil => simp at h
    | cons w ws =>
      simp only [List.map_cons, List.cons.injEq] at h
      have hpw : pyEq w p = true := he 0 p w rfl rfl
      have hin : (xs.any fun x => pyEq x w) = pyIn p xs := by
        unfold pyIn
        congr 1
        funext x
        rw [pyEq_symm x w, pyEq_symm x p, pyEq_trans hpw]
      have he' := fun i p' w' a b => he (i + 1) p' w' a b
      simp only [union, List.foldl_cons, hin]
      unfold mergeAdd
      cases hp : pyIn p xs with
      | true =>
        simp only [if_true, same_then]
        exact ih ws xs ch h.2 he'
      | false =>
        obtain ⟨ch', sg, e⟩ := ih ws (xs ++ [w]) true h.2 he'
        refine ⟨ch', own :: sg, ?_⟩
        simp only [Bool.false_eq_true, if_false, llApply, llStep, llMarks, if_true, tlAppend, hp, Bool.not_false, Bool.or_true, tlCheck,
          Bool.and_false, h.1, Out.andThen, e, union]
        rfl

theorem mergeDrop_filter {L : LLCls} {own : Option Choice} {items : List PyVal} : ∀ (es pre : List PyVal) (ch : Bool),
    (∀ e ∈ pre, pyIn e items = true) →
    ∃ ch' sg, mergeDrop L own items es (.leafList (pre ++ es) ch) = ⟨.leafList (pre ++ es.filter fun e => pyIn e items) ch', sg, none⟩ := by
  intro es
  induction es with
  | nil => intro pre ch _; exact ⟨ch, [], rfl⟩
  | cons e es ih =>
    intro pre ch h
    unfold mergeDrop
    cases he : pyIn e items with
    | true =>
      simp only [if_true, same_then, List.filter_cons, he]
      obtain ⟨ch', sg, e1⟩ := ih (pre ++ [e]) ch (by
        intro x hx
        rcases List.mem_append.1 hx with hx | hx
        · exact h x hx
        · simp at hx; subst hx; exact he)
      refine ⟨ch', sg, ?_⟩
      simpa using e1
    | false =>
      simp only [Bool.false_eq_true, if_false, List.filter_cons, he]
      have hidx : (pre ++ e :: es).findIdx? (fun x => pyEq x e) = some pre.length := by
        rw [List.findIdx?_eq_some_iff_getElem]
        refine ⟨by simp, by simp [pyEq_refl], ?_⟩
        intro j hj hp
        rw [List.getElem_append_left hj] at hp
        have := h _ (List.getElem_mem hj)
        unfold pyIn at this he
        have hc : (fun x => pyEq x pre[j]) = fun x => pyEq x e := by
          funext x
          rw [pyEq_symm x, pyEq_symm x, pyEq_trans hp]
        rw [hc, he] at this
        exact absurd this (by simp)
      obtain ⟨ch', sg, e1⟩ := ih pre true h
      refine ⟨ch', own :: sg, ?_⟩
      simp only [llApply, llStep, hidx, llMarks, if_true, Out.andThen, List.eraseIdx_append_of_length_le (Nat.le_refl _), Nat.sub_self,
        List.eraseIdx_cons_zero, e1]
      simp

theorem nMerge {L : LLCls} {own : Option Choice} {repr : J → Str} {xs ws : List PyVal} {ch : Bool} {js : List J}
    (hc : js.map (fun j => L.conv (jPy repr j)) = ws.map some)
    (he : ∀ (i : Nat) j w, js[i]? = some j → ws[i]? = some w → pyEq w (jPy repr j) = true) :
    ∃ ch' sg, nativeMerge L own repr (.leafList xs ch) (.arr js) =
      ⟨.leafList ((union xs ws).filter fun v => ws.any fun w => pyEq w v) ch', sg, none⟩ := by
  obtain ⟨ch1, sg1, e1⟩ := mergeAdd_union (L := L) (own := own) (js.map (jPy repr)) ws xs ch (by rw [List.map_map]; exact hc) (by
    intro i p w a b
    rw [List.getElem?_map] at a
    cases hj : js[i]? with
    | none => rw [hj] at a; simp at a
    | some j => rw [hj] at a; simp at a; subst a; exact he i j w hj b)
  obtain ⟨ch2, sg2, e2⟩ := mergeDrop_filter (L := L) (own := own) (items := js.map (jPy repr)) (union xs ws) [] ch1 (by simp)
  refine ⟨ch2, sg1 ++ sg2, ?_⟩
  have hf : (fun v => pyIn v (js.map (jPy repr))) = fun v => ws.any fun w => pyEq w v := by
    funext v
    have hlen : js.length = ws.length := by simpa using congrArg List.length hc
    rw [Bool.eq_iff_iff]
    simp only [pyIn, List.any_eq_true]
    constructor
    · rintro ⟨p, hp, hpv⟩
      obtain ⟨i, hi, rfl⟩ := List.getElem_of_mem hp
      simp only [List.length_map] at hi
      have := he i js[i] ws[i] (List.getElem?_eq_getElem _) (List.getElem?_eq_getElem _)
      refine ⟨ws[i], List.getElem_mem _, ?_⟩
      rw [pyEq_trans this]
      simpa using hpv
    · rintro ⟨w, hw, hwv⟩
      obtain ⟨i, hi, rfl⟩ := List.getElem_of_mem hw
      have := he i js[i] ws[i] (List.getElem?_eq_getElem _) (List.getElem?_eq_getElem _)
      refine ⟨jPy repr js[i], List.mem_map_of_mem (List.getElem_mem _), ?_⟩
      rw [← pyEq_trans this]
      exact hwv
  unfold nativeMerge
  simp only [e1]
  simp only [Out.andThen]
  simp only [List.nil_append] at e2
  rw [e2, hf]

end Pyb
