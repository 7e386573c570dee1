import Verif.Lemmas.TreeInv
import Verif.Lemmas.LeafList
import Verif.Lemmas.YList

/-! # Invariants of the leaves and leaf-lists of a tree -/

namespace Pyb
open Py Spec

/-- A property of leaves and one of leaf-lists. -/
structure LInv where
  leaf : LeafCls → PyVal → Bool → Prop
  ll : LLCls → List PyVal → Bool → Prop

/-- All leaves and leaf-lists of a tree have the property, and the entries of each list
have different keys. -/
inductive ObjInv (P : LInv) : Schema → Inst → Prop where
  | leaf (L v ch) : P.leaf L v ch → ObjInv P (.leaf L) (.leaf v ch)
  | leafList (L vs ch) : P.ll L vs ch → ObjInv P (.leafList L) (.leafList vs ch)
  | cont (pres kids ch pr ns) : ns.length = kids.length →
      (∀ (i : Nat) (k : Meta × Schema) c, kids[i]? = some k → ns[i]? = some c → ObjInv P k.2 c) →
      ObjInv P (.cont pres kids) (.cont ch pr ns)
  | list (info kids ch es) : (∀ q ∈ es, ObjInv P (.cont false kids) q.2) → PD (es.map Prod.fst) →
      ObjInv P (.list info kids) (.list ch es)

/-- The operations keep the property. -/
structure LStable (P : LInv) : Prop where
  zero : ∀ L, P.leaf L L.zero false
  nil : ∀ L, P.ll L [] false
  set : ∀ L v w, L.set v = .ok w → P.leaf L w true
  init : ∀ L a ys, tlInit L.conv L.uniq a = .ok ys → P.ll L ys true
  step : ∀ L own xs ch op ys ch', P.ll L xs ch → (llApply L own xs ch op).inst = .leafList ys ch' → P.ll L ys ch'

variable {P : LInv}

theorem ObjInv.cont_inv {pres kids n} (h : ObjInv P (.cont pres kids) n) :
    ∃ ch pr ns, n = .cont ch pr ns ∧ ns.length = kids.length ∧
      ∀ (i : Nat) (k : Meta × Schema) c, kids[i]? = some k → ns[i]? = some c → ObjInv P k.2 c := by
  cases h with
  | cont _ _ ch pr ns h2 h3 => exact ⟨ch, pr, ns, rfl, h2, h3⟩

theorem fresh_obj (hP : LStable P) : ∀ S, ObjInv P S (fresh S) := by
  intro S
  induction S using Schema.ind with
  | hleaf L => exact .leaf _ _ _ (hP.zero L)
  | hll L => exact .leafList _ _ _ (hP.nil L)
  | hcont pres kids ih =>
    refine .cont _ _ _ _ _ (freshKids_length _) ?_
    intro i k c hk hc
    rw [freshKids_get, hk] at hc
    simp at hc
    subst hc
    exact ih k (List.mem_of_getElem? hk)
  | hlist info kids ih => exact .list _ _ _ _ (by simp) (by simp)

theorem freshKids_obj (hP : LStable P) (pres : Bool) (kids : List (Meta × Schema)) {ch pr : Bool} :
    ObjInv P (.cont pres kids) (.cont ch pr (freshKids kids)) := by
  refine .cont _ _ _ _ _ (freshKids_length _) ?_
  intro i k c hk hc
  rw [freshKids_get, hk] at hc
  simp at hc
  subst hc
  exact fresh_obj hP _

theorem contPut_obj (hP : LStable P) {po : Option Choice} {pres : Bool}
    {kids : List (Meta × Schema)} {ch pr : Bool} {ns : List Inst} {i : Nat} {k : Meta × Schema} {o : Out}
    (hk : kids[i]? = some k) (hn : ObjInv P (.cont pres kids) (.cont ch pr ns)) (ho : ObjInv P k.2 o.inst) :
    ObjInv P (.cont pres kids) (contPut pres po kids ch pr ns i o).inst := by
  obtain ⟨ns', h1, h2⟩ := contPut_spec pres po kids ch pr ns i o
  obtain ⟨_, _, _, he, i2, i3⟩ := hn.cont_inv
  simp only [Inst.cont.injEq] at he
  obtain ⟨rfl, rfl, rfl⟩ := he
  have hi : i < ns.length := by rw [i2]; exact (List.getElem?_eq_some_iff.1 hk).1
  have hl : ∀ j : Nat, ns'[j]? = none ↔ ns[j]? = none := by
    intro j
    rw [h2 j]
    by_cases e : j = i
    · subst e
      rw [List.getElem?_set_self hi, List.getElem?_eq_getElem hi]
      cases kids[j]? <;> simp [clr]
    · rw [List.getElem?_set_ne (Ne.symm e)]
      cases kids[j]? <;> cases ns[j]? <;> simp [clr]
  rw [h1]
  refine .cont _ _ _ _ _ ?_ ?_
  · have a := hl ns.length
    have b := hl ns'.length
    simp only [List.getElem?_eq_none_iff] at a b
    omega
  · intro j k' c' hk' hc'
    rw [h2 j, hk'] at hc'
    cases hx : (ns.set i o.inst)[j]? with
    | none => simp [hx, clr] at hc'
    | some x =>
      simp only [hx, clr, Option.some.injEq] at hc'
      subst hc'
      split
      · exact fresh_obj hP _
      · by_cases e : i = j
        · subst e
          rw [List.getElem?_set_self hi] at hx
          simp at hx; subst hx
          rw [hk] at hk'; simp at hk'; subst hk'
          exact ho
        · rw [List.getElem?_set_ne e] at hx
          exact i3 j k' x hk' hx

theorem leafSet_obj (hP : LStable P) {L : LeafCls} {own : Option Choice} {n : Inst} {v : PyVal} (hn : ObjInv P (.leaf L) n) :
    ObjInv P (.leaf L) (leafSet L own n v).inst := by
  simp only [leafSet]
  split
  · exact hn
  · exact hn
  · rename_i w h; exact .leaf _ _ _ (hP.set _ _ _ h)

theorem copyKids_obj (hP : LStable P) {po : Option Choice} {pres : Bool} {kids : List (Meta × Schema)}
    (hkid : ∀ k ∈ kids, ∀ v, ObjInv P k.2 (copyNode k.2 k.1.choice (fresh k.2) v).inst)
    (vs : List Inst) (sg : List (Option Choice)) :
    ObjInv P (.cont pres kids)
      (copyKids pres po kids kids vs 0 ⟨.cont true pres (freshKids kids), sg, none⟩).inst := by
  refine copyKids_ind (P := fun o => ObjInv P (.cont pres kids) o.inst) pres po kids ?_ kids vs 0 _ (by simp) rfl
    (freshKids_obj hP pres kids)
  intro i k v o ch pr ns hk ho hinv
  rw [ho] at hinv
  exact contPut_obj (po := po) hP hk hinv (hkid k (List.mem_of_getElem? hk) v)

theorem copyNode_obj (hP : LStable P) : ∀ (S : Schema) (own : Option Choice) (n v : Inst),
    ObjInv P S n → ObjInv P S (copyNode S own n v).inst := by
  intro S
  induction S using Schema.ind with
  | hleaf L =>
    intro own n v hn
    cases v <;> simp only [copyNode] <;> first | exact leafSet_obj hP hn | exact hn
  | hll L =>
    intro own n v hn
    cases v <;> simp only [copyNode] <;> try exact hn
    split
    · rename_i ys h; exact .leafList _ _ _ (hP.init _ _ _ h)
    · exact hn
  | hcont pres kids ih =>
    intro own n v hn
    cases v <;> simp only [copyNode] <;> try exact hn
    rename_i _ _ ns
    split
    · exact copyKids_obj hP (fun k hk v => ih k hk _ _ v (fresh_obj hP _)) ns _
    · exact hn
  | hlist info kids ih =>
    intro own n v hn
    cases v <;> simp only [copyNode] <;> first | exact hn | exact .list _ _ _ _ (by simp) (by simp)

theorem keySet_obj (hP : LStable P) {kids : List (Meta × Schema)} {e : Inst}
    (he : ObjInv P (.cont false kids) e) (j : Nat) (v : PyVal) : ObjInv P (.cont false kids) (keySet kids e j v).inst := by
  simp only [keySet]
  split
  · rename_i m L ch pr ns hk
    obtain ⟨_, _, _, h, i2, i3⟩ := he.cont_inv
    simp only [Inst.cont.injEq] at h
    obtain ⟨rfl, rfl, rfl⟩ := h
    have hi : j < ns.length := by rw [i2]; exact (List.getElem?_eq_some_iff.1 hk).1
    have hc : ns[j]? = some ns[j] := List.getElem?_eq_getElem hi
    have hg : ns.getD j (fresh (.leaf L)) = ns[j] := by simp [List.getD, hc]
    refine contPut_obj hP hk he ?_
    rw [hg]; exact leafSet_obj hP (i3 j _ _ hk hc)
  · exact he

theorem setKeys_obj (hP : LStable P) {info : ListInfo} {kids : List (Meta × Schema)}
    {raws : List PyVal} : ∀ {i : Nat} {e e' : Inst}, ObjInv P (.cont false kids) e →
      setKeys (entryCls info kids) i raws e = .ok e' → ObjInv P (.cont false kids) e' := by
  induction raws with
  | nil => intro i e e' he h; simp only [setKeys, Except.ok.injEq] at h; subst h; exact he
  | cons r rs ih =>
    intro i e e' he h
    simp only [setKeys, bind_ok] at h
    obtain ⟨e1, h1, h2⟩ := h
    refine ih ?_ h2
    simp only [entryCls] at h1
    split at h1
    · rw [← (toExcept_ok h1).2]; exact keySet_obj hP he ..
    · simp at h1

theorem made_obj (hP : LStable P) {info : ListInfo} {kids : List (Meta × Schema)} {e : Inst} (h : Made info kids e) :
    ObjInv P (.cont false kids) e := by
  rcases h with rfl | ⟨u, v, raws, _, h⟩
  · exact fresh_obj hP (.cont false kids)
  · simp only [mkEntry, bind_ok] at h
    obtain ⟨e0, h0, h1⟩ := h
    refine setKeys_obj hP ?_ h1
    unfold startEntry at h0
    split at h0
    · simp only [Except.ok.injEq] at h0; subst h0; exact fresh_obj hP (.cont false kids)
    · rename_i v
      obtain ⟨g1, g2⟩ := toExcept_ok h0
      subst g2
      cases v <;> simp only [copyEntry, fail, reduceCtorEq] at g1 ⊢
      exact copyKids_obj (pres := false) hP (fun k hk v => copyNode_obj hP _ _ _ _ (fresh_obj hP _)) _ _
    · simp at h0

theorem nodeOp_obj (hP : LStable P) {own : Option Choice} {S : Schema} {n : Inst} {op : Op} (hn : ObjInv P S n) :
    ObjInv P S (nodeOp S own n op).inst := by
  by_cases hu : op = .unset
  · subst hu; cases S <;> exact fresh_obj hP _
  by_cases ha : ∃ v, op = .assign v
  · obtain ⟨v, rfl⟩ := ha
    have e : nodeOp S own n (.assign v) = copyNode S own n v := by cases S <;> rfl
    rw [e]
    exact copyNode_obj hP _ _ _ _ hn
  have ha : ∀ v, op ≠ .assign v := fun v hv => ha ⟨v, hv⟩
  cases hn with
  | leaf L v ch h =>
    cases op with
    | set v l => exact leafSet_obj hP (.leaf _ _ _ h)
    | present x => cases x <;> exact .leaf _ _ _ h
    | unset => exact absurd rfl hu
    | assign v => exact absurd rfl (ha _)
    | _ => exact .leaf _ _ _ h
  | leafList L vs ch h =>
    cases op with
    | ll op =>
      have : ∃ ys ch', (llApply L own vs ch op).inst = .leafList ys ch' := by
        simp only [llApply]
        repeat' split
        all_goals exact ⟨_, _, rfl⟩
      obtain ⟨ys, ch', e⟩ := this
      show ObjInv P _ (llApply L own vs ch op).inst
      rw [e]
      exact .leafList _ _ _ (hP.step _ _ _ _ _ _ _ h e)
    | present x => cases x <;> exact .leafList _ _ _ h
    | unset => exact absurd rfl hu
    | assign v => exact absurd rfl (ha _)
    | _ => exact .leafList _ _ _ h
  | cont pres kids ch pr ns h2 h3 =>
    cases op with
    | present x =>
      cases x with
      | true => exact .cont _ _ _ _ _ h2 h3
      | false => exact .cont _ _ _ _ _ h2 h3
    | unset => exact absurd rfl hu
    | assign v => exact absurd rfl (ha _)
    | _ => exact .cont _ _ _ _ _ h2 h3
  | list info kids ch es h hd =>
    have hs := nodeOp_list_shape info kids own ch es op hu ha
    generalize nodeOp (.list info kids) own (.list ch es) op = o at hs
    cases hs with
    | refused ch' sg e => exact .list _ _ _ _ h hd
    | stored ch' k e sg hm hne =>
      refine .list _ _ _ _ (fun q hq => ?_) (pd_store hd)
      rcases store_mem hq with h1 | ⟨h1, _⟩
      · exact h q h1
      · rw [h1]; exact made_obj hP hm
    | removed k es' he =>
      obtain ⟨l, p, r, h1, _, _, h4⟩ := erase_ok he
      subst h1; subst h4
      refine .list _ _ _ _ (fun q hq => h q ?_) (pd_erase hd he)
      simp only [List.mem_append, List.mem_cons] at hq ⊢
      rcases hq with hq | hq <;> simp [hq]
    | anon u _ =>
      refine .list _ _ _ _ (fun q hq => ?_) (pd_store hd)
      rcases store_mem hq with h1 | ⟨h1, _⟩
      · exact h q h1
      · rw [h1]; exact fresh_obj hP (.cont false kids)

theorem run_obj (hP : LStable P) {p : Path} : ∀ {po : Option Choice} {S : Schema} {n : Inst} {op : Op},
    ObjInv P S n → ObjInv P S (run S po n p op).inst := by
  induction p with
  | nil => intro po S n op hn; rw [run_nil]; exact nodeOp_obj hP hn
  | cons s p ih =>
    intro po S n op hn
    have hs := run_shape S po n s p op
    generalize run S po n (s :: p) op = o at hs
    cases hs with
    | stuck => exact hn
    | field pres kids ch pr ns i k c hk hc =>
      obtain ⟨_, _, _, he, _, i3⟩ := hn.cont_inv
      simp only [Inst.cont.injEq] at he
      obtain ⟨rfl, rfl, rfl⟩ := he
      exact contPut_obj hP hk hn (ih (i3 i k c hk hc))
    | entry info kids ch es k q hk hq hp hg =>
      cases hn with
      | list _ _ _ _ h hd =>
        refine .list _ _ _ _ (fun x hx => ?_) (pd_store hd)
        rcases store_mem hx with h1 | ⟨h1, _⟩
        · exact h x h1
        · rw [h1]
          exact ih (h q (List.mem_of_find?_eq_some hq))

/-- Every top-level child has the property. -/
def RootObj (P : LInv) (kids : List (Meta × Schema)) (ns : List Inst) : Prop :=
  ns.length = kids.length ∧ ∀ (i : Nat) (k : Meta × Schema) c, kids[i]? = some k → ns[i]? = some c → ObjInv P k.2 c

theorem rootObj_fresh (hP : LStable P) (kids : List (Meta × Schema)) : RootObj P kids (freshKids kids) := by
  refine ⟨freshKids_length _, ?_⟩
  intro i k c hk hc
  rw [freshKids_get, hk] at hc
  simp at hc
  subst hc
  exact fresh_obj hP _

theorem history_obj (hP : LStable P) {kids : List (Meta × Schema)} {ops : List (Path × Op)} : ∀ {ns : List Inst},
    RootObj P kids ns → RootObj P kids (history kids ns ops) := by
  induction ops with
  | nil => intro ns h; exact h
  | cons x ops ih =>
    intro ns h
    obtain ⟨p, op⟩ := x
    refine ih ?_
    unfold runRoot
    split
    · rename_i i p
      split
      · rename_i k c hk hc
        refine ⟨by simpa using h.1, ?_⟩
        intro j k' c' hk' hc'
        by_cases e : i = j
        · subst e
          rw [List.getElem?_set_self (List.getElem?_eq_some_iff.1 hc).1] at hc'
          simp at hc'; subst hc'
          rw [hk] at hk'; simp at hk'; subst hk'
          exact run_obj hP (h.2 i k c hk hc)
        · rw [List.getElem?_set_ne e] at hc'
          exact h.2 j k' c' hk' hc'
      · exact h
    · exact h

/-! ## The values come from the classes -/

/-- A set leaf holds a value its class made; a leaf-list with values is changed, and its
values were made by its class. -/
def fromClass : LInv where
  leaf L v ch := ch = true → ∃ x, L.set x = .ok v
  ll L vs ch := (vs ≠ [] → ch = true) ∧ ∀ v ∈ vs, ∃ x, L.conv x = some v

theorem fromClass_stable : LStable fromClass where
  zero L h := by simp at h
  nil L := ⟨by simp, by simp⟩
  set L v w h _ := ⟨v, h⟩
  init L a ys h := ⟨fun _ => rfl, typed_tlInit h⟩
  step L own xs ch op ys ch' h e := by
    have ht : Typed L.conv (llStep L.conv L.uniq L.show xs op).1 := typed_llStep h.2
    by_cases hm : (llApply L own xs ch op).sigs = []
    · obtain ⟨zs, e', hz⟩ := llApply_quiet hm
      have e2 := e
      rw [e'] at e2
      simp only [Inst.leafList.injEq] at e2
      obtain ⟨rfl, rfl⟩ := e2
      refine ⟨fun hy => h.1 (hz hy), ?_⟩
      cases op <;> simp only [llApply] at e hm
      case assign a => split at hm <;> simp at hm
      case iadd a => split at hm <;> simp at hm
      all_goals
        split at e <;> simp only [Inst.leafList.injEq] at e <;> rw [← e.1] <;> exact ht
    · cases op <;> simp only [llApply] at e hm
      case assign a =>
        split at e <;> simp only [Inst.leafList.injEq] at e <;> obtain ⟨rfl, rfl⟩ := e
        · exact ⟨fun _ => rfl, ht⟩
        · exact h
      case iadd a =>
        split at e <;> simp only [Inst.leafList.injEq] at e <;> obtain ⟨rfl, rfl⟩ := e <;> exact ⟨fun _ => rfl, ht⟩
      all_goals
        split at e
        · simp only [Inst.leafList.injEq] at e
          obtain ⟨rfl, rfl⟩ := e
          exact ⟨fun _ => rfl, ht⟩
        · simp_all

end Pyb
