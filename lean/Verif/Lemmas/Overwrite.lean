import Verif.Lemmas.NativeOrder
import Verif.Lemmas.JsonUnknown

namespace Pyb
open Py Spec

/-! # Loading with `overwrite` -/

theorem then_ok {o : Out} {f : Inst → Out} (h : (o.andThen f).err = none) :
    o.err = none ∧ (f o.inst).err = none ∧ (o.andThen f).inst = (f o.inst).inst := by
  cases ho : o.err with
  | some e => simp [Out.andThen, ho] at h
  | none =>
    simp only [Out.andThen, ho] at h
    exact ⟨rfl, h, by simp [Out.andThen, ho]⟩

theorem kidIdx_name {kids : List (Meta × Schema)} (hn : (kids.map fun k => safeName k.1.name).Nodup) {i : Nat} {k : Meta × Schema}
    (hk : kids[i]? = some k) {key : Str} (h : safeName key = safeName k.1.name) : kidIdx kids key = some i := by
  have := kidIdx_self hn hk
  simpa only [kidIdx, h] using this

theorem kidIdx_other {kids : List (Meta × Schema)} {i : Nat} {k : Meta × Schema}
    (hk : kids[i]? = some k) {key : Str} (h : safeName key ≠ safeName k.1.name) : kidIdx kids key ≠ some i := by
  intro h'
  simp only [kidIdx, List.findIdx?_eq_some_iff_getElem] at h'
  obtain ⟨h1, h2, _⟩ := h'
  rw [List.getElem?_eq_getElem h1] at hk
  simp at hk
  rw [hk] at h2
  simp at h2
  exact h h2.symm

/-! ## Members of the object that is loaded into -/

/-- What one member of the document does to the object. -/
def topStep (kids : List (Meta × Schema)) (key : Str) (unknown : Out) (f : Nat → Meta × Schema → Inst → Out) (n : Inst) : Out :=
  withKid false (.cont false kids) none n key unknown f

theorem topStep_other {kids : List (Meta × Schema)} {key : Str} {u : Out} {f : Nat → Meta × Schema → Inst → Out} {ch pr : Bool}
    {ns : List Inst} (hu : u.inst = .cont ch pr ns) {i : Nat} (hi : kidIdx kids key ≠ some i) :
    ∃ ns', (topStep kids key u f (.cont ch pr ns)).inst = .cont ch pr ns' ∧ ns'[i]? = ns[i]? := by
  unfold topStep withKid
  cases hj : kidIdx kids key with
  | none => exact ⟨ns, by simp only [hj]; exact hu, rfl⟩
  | some j =>
    have hne : j ≠ i := by rintro rfl; exact hi hj
    simp only [hj]
    cases hk : kids[j]? with
    | none => exact ⟨ns, rfl, rfl⟩
    | some k =>
      simp only
      cases hc : ns[j]? with
      | none => exact ⟨ns, rfl, rfl⟩
      | some c =>
        simp only [holdPut, Bool.false_eq_true, if_false]
        exact ⟨_, rfl, by rw [List.getElem?_set_ne hne]⟩

theorem nTop_other {g : LoadOpt} {over : Bool} {kids : List (Meta × Schema)} {i : Nat} {ch pr : Bool} :
    ∀ (ms : List (Str × J)) (ns : List Inst), (∀ x ∈ ms, kidIdx kids x.1 ≠ some i) →
    ∃ ns', (nativeMembers g over false false (.cont false kids) none (.cont ch pr ns) ms).inst = .cont ch pr ns' ∧ ns'[i]? = ns[i]? := by
  intro ms
  induction ms with
  | nil => intro ns _; rw [nMembers_nil]; exact ⟨ns, rfl, rfl⟩
  | cons m ms ih =>
    intro ns h
    rw [nMembers_cons]
    simp only [Bool.false_and, Bool.false_eq_true, if_false]
    obtain ⟨ns1, e1, e2⟩ := topStep_other (f := fun _ k c => nativeChild g over k.2 k.1.choice c m.2)
      (u := nativeUnknown g.skip (.cont ch pr ns)) (kids := kids) (key := m.1) (ch := ch) (pr := pr) (ns := ns)
      (by unfold nativeUnknown; split <;> rfl) (h m (by simp))
    unfold topStep at e1
    generalize hw : withKid false (.cont false kids) none (.cont ch pr ns) m.1 (nativeUnknown g.skip (.cont ch pr ns)) _ = w at e1
    unfold Out.andThen
    cases he : w.err with
    | some e => exact ⟨ns1, e1, e2⟩
    | none =>
      rw [e1]
      obtain ⟨ns2, f1, f2⟩ := ih ns1 fun x hx => h x (by simp [hx])
      exact ⟨ns2, f1, by rw [f2, e2]⟩

/-- Only one member of the document is about child `i`. -/
theorem nTop_child {g : LoadOpt} {over : Bool} {kids : List (Meta × Schema)} {i : Nat} {ch pr : Bool} {k : Meta × Schema}
    {pre post : List (Str × J)} {key : Str} {j : J} {ns : List Inst} {c : Inst}
    (hk : kids[i]? = some k) (hc : ns[i]? = some c) (hkey : kidIdx kids key = some i)
    (hpre : ∀ x ∈ pre, kidIdx kids x.1 ≠ some i) (hpost : ∀ x ∈ post, kidIdx kids x.1 ≠ some i)
    (h : (nativeMembers g over false false (.cont false kids) none (.cont ch pr ns) (pre ++ (key, j) :: post)).err = none) :
    (nativeChild g over k.2 k.1.choice c j).err = none ∧
    ∃ ns', (nativeMembers g over false false (.cont false kids) none (.cont ch pr ns) (pre ++ (key, j) :: post)).inst = .cont ch pr ns' ∧
      ns'[i]? = some (nativeChild g over k.2 k.1.choice c j).inst := by
  rw [nMembers_append] at h ⊢
  obtain ⟨h1, h2, h3⟩ := then_ok h
  rw [h3]
  obtain ⟨ns1, e1, e2⟩ := nTop_other (g := g) (over := over) (ch := ch) (pr := pr) pre ns hpre
  rw [e1] at h2 ⊢
  rw [nMembers_cons] at h2 ⊢
  simp only [Bool.false_and, Bool.false_eq_true, if_false] at h2 ⊢
  obtain ⟨h4, h5, h6⟩ := then_ok h2
  rw [h6]
  simp only [withKid, hkey, hk, e2, hc, holdPut, Bool.false_eq_true, if_false] at h4 h5 ⊢
  refine ⟨h4, ?_⟩
  obtain ⟨ns2, f1, f2⟩ := nTop_other (g := g) (over := over) (ch := ch) (pr := pr) post
    (ns1.set i (nativeChild g over k.2 k.1.choice c j).inst) hpost
  refine ⟨ns2, f1, ?_⟩
  rw [f2, List.getElem?_set_self]
  rw [hc] at e2
  exact (List.getElem?_eq_some_iff.1 e2).1

/-! ## Lists in native JSON -/

theorem store_prefix {es : Members Inst} {k : PyVal} {e : Inst} : es.map Prod.fst <+: (store es k e).map Prod.fst := by
  cases h : mem es k with
  | true => rw [store_keys h]; exact List.prefix_refl _
  | false => rw [store_new h]; simp

theorem nEntry_prefix {uuid : List PyVal → Str} {info : ListInfo} {kids : List (Meta × Schema)} {k : Str} {ch : Bool} {es : Members Inst} :
    ∃ es', (nativeEntry uuid info kids k (.list ch es)).inst = .list ch es' ∧ es.map Prod.fst <+: es'.map Prod.fst := by
  unfold nativeEntry
  simp only
  split
  · exact ⟨es, rfl, List.prefix_refl _⟩
  · split
    · rename_i h
      simp only [nodeOp, h, if_true]
      exact ⟨_, rfl, store_prefix⟩
    · rename_i h
      simp only [nodeOp, h, if_false]
      cases ha : ylAdd (entryCls info kids) info.keys.length es (.str k) with
      | error e => exact ⟨es, rfl, List.prefix_refl _⟩
      | ok es' =>
        obtain ⟨_, hs⟩ := ylAdd_ok ha
        obtain ⟨_, _, raws, e, _, _, rfl⟩ := ylSetPos_ok hs
        exact ⟨_, rfl, store_prefix⟩

theorem withEntry_ok {ch : Bool} {es : Members Inst} {k : PyVal} {f : Inst → Out} (h : (withEntry (.list ch es) k f).err = none) :
    mem es k = true ∧ ∃ es', (withEntry (.list ch es) k f).inst = .list ch es' ∧ es'.map Prod.fst = es.map Prod.fst := by
  unfold withEntry at h ⊢
  simp only at h ⊢
  cases hf : es.find? fun q => pyEq q.1 k with
  | none => simp [hf, fail] at h
  | some q =>
    have hm : mem es k = true := mem_true.2 ⟨q, List.mem_of_find?_eq_some hf, by have := List.find?_some hf; simpa using this⟩
    exact ⟨hm, _, rfl, store_keys hm⟩

theorem mem_prefix {es es' : Members Inst} {k : PyVal} (h : es.map Prod.fst <+: es'.map Prod.fst) (hm : mem es k = true) :
    mem es' k = true := by
  obtain ⟨p, hp, hq⟩ := mem_true.1 hm
  have := h.subset (List.mem_map_of_mem (f := Prod.fst) hp)
  obtain ⟨p', h1, h2⟩ := List.mem_map.1 this
  exact mem_true.2 ⟨p', h1, by rw [h2]; exact hq⟩

theorem nLoop_ok {uuid : List PyVal → Str} {info : ListInfo} {kids : List (Meta × Schema)} {ch : Bool} :
    ∀ (fs : List (Str × (Inst → Out))) (es : Members Inst), (nativeLoop uuid info kids fs (.list ch es)).err = none →
    ∃ es', (nativeLoop uuid info kids fs (.list ch es)).inst = .list ch es' ∧ es.map Prod.fst <+: es'.map Prod.fst ∧
      ∀ f ∈ fs, mem es' (.str f.1) = true := by
  intro fs
  induction fs with
  | nil => intro es _; exact ⟨es, rfl, List.prefix_refl _, by simp⟩
  | cons f fs ih =>
    obtain ⟨k, f⟩ := f
    intro es h
    simp only [nativeLoop] at h ⊢
    obtain ⟨h1, h2, h3⟩ := then_ok h
    obtain ⟨h4, h5, h6⟩ := then_ok h1
    obtain ⟨es1, e1, e2⟩ := nEntry_prefix (uuid := uuid) (info := info) (kids := kids) (k := k) (ch := ch) (es := es)
    rw [h3]
    rw [h6] at h2 ⊢
    rw [e1] at h2 h5 ⊢
    obtain ⟨h7, es2, e3, e4⟩ := withEntry_ok h5
    rw [e3] at h2 ⊢
    obtain ⟨es3, e5, e6, e7⟩ := ih es2 h2
    refine ⟨es3, e5, (e2.trans (by rw [e4]; exact List.prefix_refl _)).trans e6, ?_⟩
    intro f' hf'
    rcases List.mem_cons.1 hf' with rfl | hf'
    · refine mem_prefix e6 ?_
      refine mem_prefix (es := es1) (by rw [e4]; exact List.prefix_refl _) h7
    · exact e7 f' hf'

theorem purge_ok {keys : List Str} : ∀ {es : Members Inst}, (nativePurge keys es).2 = none →
    (nativePurge keys es).1 = es.filter (fun q => keys.any fun s => pyEq (.str s) q.1) ∧
    ∀ q ∈ es.dropLast, (keys.any fun s => pyEq (.str s) q.1) = true := by
  intro es
  induction es with
  | nil => intro _; exact ⟨rfl, by simp⟩
  | cons q es ih =>
    obtain ⟨k, e⟩ := q
    intro h
    unfold nativePurge at h ⊢
    by_cases hk : (keys.any fun s => pyEq (.str s) k) = true
    · simp only [hk, if_true] at h ⊢
      obtain ⟨e1, e2⟩ := ih h
      refine ⟨by rw [e1]; simp only [List.filter_cons, hk, if_true], ?_⟩
      intro q hq
      cases es with
      | nil => simp at hq
      | cons q' es =>
        rw [List.dropLast_cons_of_ne_nil (by simp)] at hq
        rcases List.mem_cons.1 hq with rfl | hq
        · exact hk
        · exact e2 q hq
    · simp only [hk, if_false] at h ⊢
      cases es with
      | nil => simp [hk]
      | cons q' es => simp at h

/-! ### All keys are loaded -/

theorem putOrder_mem {α : Type} {o : Int} {x : α} {kd : List (Int × α)} (h : o ∉ kd.map Prod.fst) {y : α} :
    y ∈ (putOrder o x kd).map Prod.snd ↔ y = x ∨ y ∈ kd.map Prod.snd := by
  induction kd with
  | nil => simp [putOrder]
  | cons p kd ih =>
    simp only [List.map_cons, List.mem_cons, not_or] at h
    simp only [putOrder, h.1, if_false]
    split
    · simp
    · rw [List.map_cons, List.mem_cons, ih h.2, List.map_cons, List.mem_cons]
      constructor
      · rintro (a | a | a) <;> simp [a]
      · rintro (a | a | a) <;> simp [a]

theorem putOrder_keys {α : Type} {o : Int} {x : α} {kd : List (Int × α)} {p : Int} (h : p ∈ (putOrder o x kd).map Prod.fst) :
    p = o ∨ p ∈ kd.map Prod.fst := by
  induction kd with
  | nil => simpa [putOrder] using h
  | cons q kd ih =>
    simp only [putOrder] at h
    split at h
    · simp at h ⊢; rcases h with h | h <;> simp [h]
    · split at h
      · simp at h ⊢; exact h
      · rw [List.map_cons, List.mem_cons] at h
        rcases h with h | h
        · simp [h]
        · rcases ih h with h | h
          · exact .inl h
          · exact .inr (by rw [List.map_cons, List.mem_cons]; exact .inr h)

theorem splitOrder_mem {α : Type} : ∀ (xs : List (Option Int × α)) (kd : List (Int × α)) (ok : List α),
    (xs.filterMap Prod.fst).Nodup → (∀ o ∈ xs.filterMap Prod.fst, o ∉ kd.map Prod.fst) → ∀ y,
    (y ∈ xs.map Prod.snd ∨ y ∈ kd.map Prod.snd ∨ y ∈ ok) →
    (y ∈ (splitOrder xs kd ok).1.map Prod.snd ∨ y ∈ (splitOrder xs kd ok).2) := by
  intro xs
  induction xs with
  | nil => intro kd ok _ _ y h; simpa [splitOrder] using h
  | cons x xs ih =>
    obtain ⟨o, x⟩ := x
    intro kd ok hn hd y h
    cases o with
    | none =>
      simp only [splitOrder]
      refine ih kd (ok ++ [x]) (by simpa using hn) (by simpa using hd) y ?_
      rcases h with h | h | h
      · rw [List.map_cons, List.mem_cons] at h
        rcases h with h | h
        · exact .inr (.inr (by simp [h]))
        · exact .inl h
      · exact .inr (.inl h)
      · exact .inr (.inr (by simp [h]))
    | some o =>
      simp only [splitOrder]
      have hn' : (o :: xs.filterMap Prod.fst).Nodup := hn
      have hd' : ∀ p ∈ o :: xs.filterMap Prod.fst, p ∉ kd.map Prod.fst := hd
      have hn := List.nodup_cons.1 hn'
      have ho : o ∉ kd.map Prod.fst := hd' o (by simp)
      refine ih (putOrder o x kd) ok hn.2 ?_ y ?_
      · intro p hp hp'
        rcases putOrder_keys hp' with rfl | hp'
        · exact hn.1 hp
        · exact hd' p (List.mem_cons_of_mem _ hp) hp'
      · rcases h with h | h | h
        · rw [List.map_cons, List.mem_cons] at h
          rcases h with h | h
          · exact .inr (.inl ((putOrder_mem ho).2 (.inl h)))
          · exact .inl h
        · exact .inr (.inl ((putOrder_mem ho).2 (.inr h)))
        · exact .inr (.inr h)

theorem keyOrder_mem {α : Type} {ordered : Bool} {xs : List (Option Int × α)} (h : ordered = true → (xs.filterMap Prod.fst).Nodup)
    {y : α} (hy : y ∈ xs.map Prod.snd) : y ∈ keyOrder ordered xs := by
  unfold keyOrder
  split
  · rename_i ho
    have := splitOrder_mem xs [] [] (h ho) (by simp) y (.inl hy)
    simp only [List.mem_append, List.mem_reverse]
    exact this
  · exact hy

/-- A list in a document loaded with `overwrite`. -/
theorem nList_over {g : LoadOpt} {info : ListInfo} {kids : List (Meta × Schema)} {own : Option Choice} {ch : Bool} {es : Members Inst}
    {ms : List (Str × J)} (hpos : info.ordered = true → (ms.filterMap fun x => position x.2).Nodup)
    (h : (nativeChild g true (.list info kids) own (.list ch es) (.obj ms)).err = none) :
    ∃ ch' es', (nativeChild g true (.list info kids) own (.list ch es) (.obj ms)).inst = .list ch' es' ∧
      (∀ q ∈ es', ∃ s ∈ ms.map Prod.fst, q.1 = .str s) ∧ (∀ s ∈ ms.map Prod.fst, ∃ q ∈ es', q.1 = .str s) ∧
      (ms ≠ [] → ∀ k ∈ (es.map Prod.fst).dropLast, ∃ s ∈ ms.map Prod.fst, k = .str s) := by
  unfold nativeChild at h ⊢
  simp only at h ⊢
  obtain ⟨h1, h2, h3⟩ := then_ok h
  obtain ⟨h4, h5, h6⟩ := then_ok h2
  rw [h3, h6]
  by_cases hms : ms = []
  · subst hms
    simp only [List.isEmpty_nil, if_true, jsonSet] at h5 ⊢
    exact ⟨true, [], rfl, by simp⟩
  · have hemp : ms.isEmpty = false := by cases ms with | nil => exact absurd rfl hms | cons _ _ => rfl
    simp only [hemp, Bool.false_eq_true, if_false, Out.same] at h5 ⊢
    obtain ⟨es1, e1, e2, e3⟩ := nLoop_ok _ es h1
    rw [e1] at h4 ⊢
    simp only [nativeClear] at h4 ⊢
    obtain ⟨f1, f2⟩ := purge_ok h4
    refine ⟨ch, _, rfl, ?_, ?_, ?_⟩
    · intro q hq
      rw [f1] at hq
      obtain ⟨_, hq⟩ := List.mem_filter.1 hq
      obtain ⟨s, hs, hsq⟩ := List.any_eq_true.1 hq
      exact ⟨s, hs, pyEq_str hsq⟩
    · intro s hs
      obtain ⟨m, hm, rfl⟩ := List.mem_map.1 hs
      have : mem es1 (.str m.1) = true := by
        refine e3 (m.1, fun c => nativeElem g info.ordered kids c m.2) (keyOrder_mem ?_ ?_)
        · intro ho
          rw [nFns_map, List.filterMap_map]
          simpa [Function.comp_def, position_eq] using hpos ho
        · rw [nFns_map, List.map_map]
          exact List.mem_map.2 ⟨m, hm, rfl⟩
      obtain ⟨q, hq, hqs⟩ := mem_true.1 this
      have hqs' : q.1 = .str m.1 := pyEq_str (by rw [pyEq_symm]; exact hqs)
      refine ⟨q, ?_, hqs'⟩
      rw [f1]
      refine List.mem_filter.2 ⟨hq, List.any_eq_true.2 ⟨m.1, hs, ?_⟩⟩
      rw [hqs']; exact pyEq_refl _
    · intro _ k hk
      have hk' : k ∈ es1.dropLast.map Prod.fst := by
        rw [List.map_dropLast]
        obtain ⟨t, ht⟩ := e2
        rw [← ht]
        cases t with
        | nil => simpa using hk
        | cons a t =>
          rw [List.dropLast_append_of_ne_nil (by simp)]
          exact List.mem_append_left _ (List.dropLast_subset _ hk)
      obtain ⟨q, hq, rfl⟩ := List.mem_map.1 hk'
      obtain ⟨s, hs, hsq⟩ := List.any_eq_true.1 (f2 q hq)
      exact ⟨s, hs, pyEq_str hsq⟩

/-! ## Containers in native JSON -/

theorem recvAll_flags {pres : Bool} {kids : List (Meta × Schema)} : ∀ (sigs : List (Option Choice)) (ch pr ch' pr' : Bool) (ns : List Inst),
    (recvAll pres kids (.cont ch pr ns) sigs).kids = (recvAll pres kids (.cont ch' pr' ns) sigs).kids := by
  intro sigs
  induction sigs with
  | nil => intros; rfl
  | cons s ss ih => intro ch pr ch' pr' ns; simp only [recvAll, List.foldl_cons, recv] at ih ⊢; exact ih ..

theorem recvAll_isCont {pres : Bool} {kids : List (Meta × Schema)} : ∀ (sigs : List (Option Choice)) (ch pr : Bool) (ns : List Inst),
    ∃ ch' pr' ns', recvAll pres kids (.cont ch pr ns) sigs = .cont ch' pr' ns' ∧ (pr = true → pr' = true) := by
  intro sigs
  induction sigs with
  | nil => intro ch pr ns; exact ⟨_, _, _, rfl, id⟩
  | cons s ss ih =>
    intro ch pr ns
    simp only [recvAll, List.foldl_cons, recv] at ih ⊢
    obtain ⟨a, b, c, e, h⟩ := ih true (pr || pres) (match s with | some c => clearKids c kids ns | none => ns)
    exact ⟨a, b, c, e, fun hp => h (by simp [hp])⟩

/-- The two outcomes have the same children and error. -/
def Alike (a b : Out) : Prop :=
  a.err = b.err ∧ ∃ ch pr ch' pr' ns, a.inst = .cont ch pr ns ∧ b.inst = .cont ch' pr' ns

theorem nMembers_flags {g : LoadOpt} {over ordered : Bool} {pres : Bool} {kids : List (Meta × Schema)} {own : Option Choice} :
    ∀ (ms : List (Str × J)) (ch pr ch' pr' : Bool) (ns : List Inst),
    Alike (nativeMembers g over true ordered (.cont pres kids) own (.cont ch pr ns) ms)
      (nativeMembers g over true ordered (.cont pres kids) own (.cont ch' pr' ns) ms) := by
  intro ms
  induction ms with
  | nil => intro ch pr ch' pr' ns; rw [nMembers_nil, nMembers_nil]; exact ⟨rfl, ch, pr, ch', pr', ns, rfl, rfl⟩
  | cons m ms ih =>
    intro ch pr ch' pr' ns
    rw [nMembers_cons, nMembers_cons]
    have key : Alike (if ordered && m.1 == yangOrder then Out.same (.cont ch pr ns)
          else withKid true (.cont pres kids) own (.cont ch pr ns) m.1 (nativeUnknown g.skip (.cont ch pr ns))
            fun _ k c => nativeChild g over k.2 k.1.choice c m.2)
        (if ordered && m.1 == yangOrder then Out.same (.cont ch' pr' ns)
          else withKid true (.cont pres kids) own (.cont ch' pr' ns) m.1 (nativeUnknown g.skip (.cont ch' pr' ns))
            fun _ k c => nativeChild g over k.2 k.1.choice c m.2) := by
      split
      · exact ⟨rfl, ch, pr, ch', pr', ns, rfl, rfl⟩
      · unfold withKid
        simp only
        cases kidIdx kids m.1 with
        | none =>
          simp only
          unfold nativeUnknown
          split <;> exact ⟨rfl, ch, pr, ch', pr', ns, rfl, rfl⟩
        | some i =>
          simp only
          cases kids[i]? with
          | none => exact ⟨rfl, ch, pr, ch', pr', ns, rfl, rfl⟩
          | some k =>
            simp only
            cases ns[i]? with
            | none => exact ⟨rfl, ch, pr, ch', pr', ns, rfl, rfl⟩
            | some c =>
              simp only [holdPut, if_true, contPut]
              generalize nativeChild g over k.2 k.1.choice c m.2 = o
              obtain ⟨a, b, x, e1, _⟩ := recvAll_isCont (pres := pres) (kids := kids) o.sigs ch pr (ns.set i o.inst)
              obtain ⟨a', b', x', e2, _⟩ := recvAll_isCont (pres := pres) (kids := kids) o.sigs ch' pr' (ns.set i o.inst)
              have := recvAll_flags (pres := pres) (kids := kids) o.sigs ch pr ch' pr' (ns.set i o.inst)
              rw [e1, e2] at this
              simp only [Inst.kids] at this
              subst this
              exact ⟨rfl, a, b, a', b', x, e1, e2⟩
    revert key
    generalize (if ordered && m.1 == yangOrder then Out.same (.cont ch pr ns)
          else withKid true (.cont pres kids) own (.cont ch pr ns) m.1 (nativeUnknown g.skip (.cont ch pr ns))
            fun _ k c => nativeChild g over k.2 k.1.choice c m.2) = p
    generalize (if ordered && m.1 == yangOrder then Out.same (.cont ch' pr' ns)
          else withKid true (.cont pres kids) own (.cont ch' pr' ns) m.1 (nativeUnknown g.skip (.cont ch' pr' ns))
            fun _ k c => nativeChild g over k.2 k.1.choice c m.2) = q
    rintro ⟨h1, a, b, a', b', x, e1, e2⟩
    unfold Out.andThen
    rw [← h1, e1, e2]
    cases hp : p.err with
    | some e => exact ⟨by simp only [hp, ← h1], a, b, a', b', x, e1, e2⟩
    | none =>
      simp only
      obtain ⟨f1, c1, d1, c2, d2, y, f2, f3⟩ := ih a b a' b' x
      exact ⟨f1, c1, d1, c2, d2, y, f2, f3⟩

end Pyb
