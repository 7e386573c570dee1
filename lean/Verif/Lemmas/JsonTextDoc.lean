import Verif.Lemmas.JsonText
import Verif.Lemmas.IetfList
import Verif.Spec.JsonTypes
import Verif.Spec.Native

/-! # The texts of the documents of a binding -/

namespace Pyb
open Py Spec

/-- The document is written and read as it is. -/
def TextOk (fl : Int × Int → Str) (rf : Str → Option (Int × Int)) (j : J) : Prop := MembersApart j ∧ FloatsBack fl rf j

theorem textOk_str {fl : Int × Int → Str} {rf : Str → Option (Int × Int)} (s : Str) : TextOk fl rf (.str s) := ⟨trivial, trivial⟩

theorem serInt_ok {fl : Int × Int → Str} {rf : Str → Option (Int × Int)} {v : PyVal} {j : J} (h : serInt v = .ok j) : TextOk fl rf j := by
  rw [serInt] at h
  cases hv : v.toInt with
  | error e => simp [hv, Except.map] at h
  | ok n =>
    simp only [hv, Except.map, Except.ok.injEq] at h
    subst h
    exact ⟨trivial, trivial⟩

theorem serEmpty_ok {fl : Int × Int → Str} {rf : Str → Option (Int × Int)} (ietf : Bool) (v : PyVal) : TextOk fl rf (serEmpty ietf v) := by
  simp only [serEmpty]
  split
  · split
    · exact ⟨⟨trivial, trivial⟩, ⟨trivial, trivial⟩⟩
    · exact ⟨trivial, trivial⟩
  · exact ⟨trivial, trivial⟩

theorem serBinary_ok {fl : Int × Int → Str} {rf : Str → Option (Int × Int)} {v : PyVal} {j : J} (h : serBinary v = .ok j) : TextOk fl rf j := by
  rw [serBinary.eq_def] at h
  split at h
  · cases h
    exact textOk_str _
  · cases h

theorem serDecimal_ok {fl : Int × Int → Str} {rf : Str → Option (Int × Int)} {v : PyVal} {j : J} (h : serDecimal true v = .ok j) : TextOk fl rf j := by
  simp only [serDecimal, if_true, Except.ok.injEq] at h
  subst h
  exact textOk_str _

theorem serLong_ok {fl : Int × Int → Str} {rf : Str → Option (Int × Int)} {v : PyVal} {j : J} (h : serLong true v = .ok j) : TextOk fl rf j := by
  simp only [serLong, if_true, Except.ok.injEq] at h
  subst h
  exact textOk_str _

theorem serNative_ok {fl : Int × Int → Str} {rf : Str → Option (Int × Int)} {v : PyVal} {j : J} (h : serNative true v = .ok j) : TextOk fl rf j := by
  rw [serNative.eq_def] at h
  split at h
  · cases h
    exact ⟨trivial, trivial⟩
  · cases h
    exact ⟨trivial, trivial⟩
  · cases h
    exact ⟨trivial, trivial⟩
  · exact serDecimal_ok h
  · cases h

theorem serMapped_ok {fl : Int × Int → Str} {rf : Str → Option (Int × Int)} {yt : Str} {A : SerCls} {v : PyVal} {j : J} (h : serMapped true yt A v = .ok j) :
    TextOk fl rf j := by
  rw [serMapped] at h
  repeat' (split at h)
  all_goals first
    | exact serNative_ok h
    | exact serLong_ok h
    | exact serInt_ok h
    | exact serDecimal_ok h
    | exact serBinary_ok h
    | (cases h; exact serEmpty_ok _ _)
    | (cases h; exact ⟨trivial, trivial⟩)

theorem serVal_ok {fl : Int × Int → Str} {rf : Str → Option (Int × Int)} {mod yt : Str} {A : SerCls} {v : PyVal} {j : J} (h : serVal true mod yt A v = .ok j) :
    TextOk fl rf j := by
  have hid : ∀ ids, TextOk fl rf (serIdentity mod ids v) := by
    intro ids
    rw [serIdentity]
    repeat' split
    all_goals exact textOk_str _
  rw [serVal] at h
  repeat' (split at h)
  all_goals first
    | exact serMapped_ok h
    | exact serLong_ok h
    | exact serInt_ok h
    | exact serDecimal_ok h
    | exact serBinary_ok h
    | (cases h; exact serEmpty_ok _ _)
    | (cases h; exact hid _)
    | (cases h; exact ⟨trivial, trivial⟩)

theorem textOk_arr {fl : Int × Int → Str} {rf : Str → Option (Int × Int)} {xs : List J} (h : ∀ x ∈ xs, TextOk fl rf x) : TextOk fl rf (.arr xs) := by
  induction xs with
  | nil => exact ⟨trivial, trivial⟩
  | cons x xs ih =>
    have h1 := h x List.mem_cons_self
    have h2 := ih fun y hy => h y (List.mem_cons_of_mem _ hy)
    exact ⟨⟨h1.1, h2.1⟩, ⟨h1.2, h2.2⟩⟩

theorem textOk_obj {fl : Int × Int → Str} {rf : Str → Option (Int × Int)} {ms : List (Str × J)} (hn : (ms.map Prod.fst).Nodup)
    (h : ∀ x ∈ ms, TextOk fl rf x.2) : TextOk fl rf (.obj ms) := by
  have : MembersApartMems ms ∧ FloatsBackMems fl rf ms := by
    clear hn
    induction ms with
    | nil => exact ⟨trivial, trivial⟩
    | cons x ms ih =>
      obtain ⟨k, x⟩ := x
      have h1 := h (k, x) List.mem_cons_self
      have h2 := ih fun y hy => h y (List.mem_cons_of_mem _ hy)
      exact ⟨⟨h1.1, h2.1⟩, ⟨h1.2, h2.2⟩⟩
  exact ⟨⟨hn, this.1⟩, this.2⟩

theorem mapM_forall {α β : Type} {f : α → Except Err β} {P : β → Prop} {xs : List α} {ys : List β} (h : xs.mapM f = .ok ys)
    (hf : ∀ x ∈ xs, ∀ y, f x = .ok y → P y) : ∀ y ∈ ys, P y := by
  induction xs generalizing ys with
  | nil =>
    simp only [List.mapM_nil, pure, Except.pure, Except.ok.injEq] at h
    subst h
    simp
  | cons x xs ih =>
    simp only [List.mapM_cons, bind, Except.bind, pure, Except.pure] at h
    cases hx : f x with
    | error e => simp [hx] at h
    | ok y =>
      cases hxs : xs.mapM f with
      | error e => simp [hx, hxs] at h
      | ok zs =>
        simp only [hx, hxs, Except.ok.injEq] at h
        subst h
        intro z hz
        rcases List.mem_cons.1 hz with rfl | hz
        · exact hf x List.mem_cons_self _ hx
        · exact ih hxs (fun x hx => hf x (List.mem_cons_of_mem _ hx)) z hz

theorem ietfKids_sublist {o : DumpOpt} {pns : Option Str} : ∀ {kids : List (Meta × Schema)} {ns : List Inst} {ms : List (Str × J)},
    ietfKids o pns kids ns = .ok ms → (ms.map Prod.fst).Sublist (kids.map fun k => ietfName pns k.1)
  | [], ns, ms, h => by
    simp only [ietfKids, Except.ok.injEq] at h
    subst h
    exact List.Sublist.slnil
  | k :: ks, [], ms, h => by
    simp only [ietfKids, Except.ok.injEq] at h
    subst h
    exact List.nil_sublist _
  | k :: ks, n :: ns, ms, h => by
    rw [ietfKids] at h
    split at h
    · rename_i h2
      cases h
      exact (ietfKids_sublist h2).cons _
    · rename_i h2
      cases h
      exact (ietfKids_sublist h2).cons_cons _
    · cases h
    · cases h

mutual
theorem ietfNode_ok {fl : Int × Int → Str} {rf : Str → Option (Int × Int)} (o : DumpOpt) (m : Meta) :
    ∀ (S : Schema) (n : Inst) (j : J), Every NamedIetf m S n → ietfNode o m S n = .ok (some j) → TextOk fl rf j
  | .leaf L, n, j, _, h => by
    cases n with
    | leaf v ch =>
      rw [ietfNode] at h
      split at h
      · cases hs : serLeaf true m.module_ L v with
        | error e => simp [hs, Except.map] at h
        | ok j' =>
          simp only [hs, Except.map, Except.ok.injEq, Option.some.injEq] at h
          subst h
          exact serVal_ok hs
      · cases h
    | leafList vs ch => simp [ietfNode] at h
    | cont a b c => simp [ietfNode] at h
    | list a b => simp [ietfNode] at h
  | .leafList L, n, j, _, h => by
    cases n with
    | leafList vs ch =>
      rw [ietfNode] at h
      split at h
      · cases hs : vs.mapM (serElem true m.module_ L) with
        | error e => simp [hs, Except.map] at h
        | ok xs =>
          simp only [hs, Except.map, Except.ok.injEq, Option.some.injEq] at h
          subst h
          exact textOk_arr (mapM_forall hs fun v _ y hy => serVal_ok hy)
      · cases h
    | leaf vs ch => simp [ietfNode] at h
    | cont a b c => simp [ietfNode] at h
    | list a b => simp [ietfNode] at h
  | .cont pres kids, n, j, hn, h => by
    cases n with
    | cont ch pr ns =>
      rw [ietfNode] at h
      cases hk : ietfKids o (some m.ns) kids ns with
      | error e => simp [hk] at h
      | ok ms =>
        have hn' := hn
        simp only [Every] at hn'
        have h1 := ietfKids_ok (fl := fl) (rf := rf) o (some m.ns) kids ns ms hn'.2 hk
        have h2 : (ms.map Prod.fst).Nodup := (ietfKids_sublist hk).nodup (ietfName_inj hn'.1)
        simp only [hk, Except.ok.injEq] at h
        split at h
        · cases h
        · cases h
          exact textOk_obj h2 h1
    | leafList vs ch => simp [ietfNode] at h
    | leaf a b => simp [ietfNode] at h
    | list a b => simp [ietfNode] at h
  | .list info kids, n, j, hn, h => by
    cases n with
    | list ch es =>
      rw [ietfNode] at h
      split at h
      · rename_i xs hx
        have hn' := hn
        simp only [Every] at hn'
        have hall : ∀ x ∈ xs, TextOk fl rf x := by
          refine mapM_forall hx ?_
          intro q hq y hy
          cases hk : ietfKids o (some m.ns) kids q.2.kids with
          | error e => simp [hk, Except.map] at hy
          | ok ms =>
            simp only [hk, Except.map, Except.ok.injEq] at hy
            subst hy
            exact textOk_obj ((ietfKids_sublist hk).nodup (ietfName_inj hn'.1))
              (ietfKids_ok (fl := fl) (rf := rf) o (some m.ns) kids q.2.kids ms (hn'.2 q hq) hk)
        simp only [Except.ok.injEq] at h
        split at h
        · cases h
        · cases h
          exact textOk_arr hall
      · cases h
    | leafList vs ch => simp [ietfNode] at h
    | leaf a b => simp [ietfNode] at h
    | cont a b c => simp [ietfNode] at h

theorem ietfKids_ok {fl : Int × Int → Str} {rf : Str → Option (Int × Int)} (o : DumpOpt) (pns : Option Str) :
    ∀ (kids : List (Meta × Schema)) (ns : List Inst) (ms : List (Str × J)), EveryKids NamedIetf kids ns → ietfKids o pns kids ns = .ok ms →
      ∀ x ∈ ms, TextOk fl rf x.2
  | [], ns, ms, _, h => by
    simp only [ietfKids, Except.ok.injEq] at h
    subst h
    simp
  | k :: ks, [], ms, _, h => by
    simp only [ietfKids, Except.ok.injEq] at h
    subst h
    simp
  | (km, kS) :: ks, n :: ns, ms, hn, h => by
    rw [EveryKids] at hn
    rw [ietfKids] at h
    split at h
    · rename_i h2
      cases h
      exact ietfKids_ok o pns ks ns _ hn.2 h2
    · rename_i h1 h2
      cases h
      intro x hx
      rcases List.mem_cons.1 hx with rfl | hx
      · exact ietfNode_ok o km kS n _ hn.1 h1
      · exact ietfKids_ok o pns ks ns _ hn.2 h2 x hx
    · cases h
    · cases h
end

/-- Every IETF document of a binding is written and read as it is. -/
theorem ietfDump_ok {fl : Int × Int → Str} {rf : Str → Option (Int × Int)} (o : DumpOpt) {kids : List (Meta × Schema)} {ns : List Inst} {j : J}
    (hg : GoodNames kids) (hn : EveryKids NamedIetf kids ns) (h : ietfDump o kids ns = .ok j) : TextOk fl rf j := by
  rw [ietfDump] at h
  cases hk : ietfKids o none kids ns with
  | error e => simp [hk, Except.map] at h
  | ok ms =>
    simp only [hk, Except.map, Except.ok.injEq] at h
    subst h
    exact textOk_obj ((ietfKids_sublist hk).nodup (ietfName_inj hg)) (ietfKids_ok o none kids ns ms hn hk)

/-! ## The default encoding -/

theorem apart_arr {xs : List J} (h : ∀ x ∈ xs, MembersApart x) : MembersApart (.arr xs) := by
  induction xs with
  | nil => trivial
  | cons x xs ih => exact ⟨h x List.mem_cons_self, ih fun y hy => h y (List.mem_cons_of_mem _ hy)⟩

theorem apart_obj {ms : List (Str × J)} (hn : (ms.map Prod.fst).Nodup) (h : ∀ x ∈ ms, MembersApart x.2) : MembersApart (.obj ms) := by
  have : MembersApartMems ms := by
    clear hn
    induction ms with
    | nil => trivial
    | cons x ms ih =>
      obtain ⟨k, x⟩ := x
      exact ⟨h (k, x) List.mem_cons_self, ih fun y hy => h y (List.mem_cons_of_mem _ hy)⟩
  exact ⟨hn, this⟩

theorem serVal_apart {ietf : Bool} {mod yt : Str} {A : SerCls} {v : PyVal} {j : J} (h : serVal ietf mod yt A v = .ok j) : MembersApart j := by
  have hlong : ∀ {j}, serLong ietf v = .ok j → MembersApart j := by
    intro j h
    rw [serLong] at h
    split at h
    · cases h
      trivial
    · exact (serInt_ok (fl := fun _ => []) (rf := fun _ => none) h).1
  have hint : ∀ {j}, serInt v = .ok j → MembersApart j := fun h => (serInt_ok (fl := fun _ => []) (rf := fun _ => none) h).1
  have hbin : ∀ {j}, serBinary v = .ok j → MembersApart j := fun h => (serBinary_ok (fl := fun _ => []) (rf := fun _ => none) h).1
  have hemp : MembersApart (serEmpty ietf v) := (serEmpty_ok (fl := fun _ => []) (rf := fun _ => none) _ _).1
  have hdec : ∀ {j}, serDecimal ietf v = .ok j → MembersApart j := by
    intro j h
    simp only [serDecimal] at h
    split at h
    · cases h
      trivial
    · split at h
      · cases h
        trivial
      · cases h
  have hnat : ∀ {j}, serNative ietf v = .ok j → MembersApart j := by
    intro j h
    rw [serNative.eq_def] at h
    split at h
    · cases h
      trivial
    · cases h
      trivial
    · cases h
      trivial
    · exact hdec h
    · cases h
  have hmap : ∀ {j}, serMapped ietf yt A v = .ok j → MembersApart j := by
    intro j h
    rw [serMapped] at h
    repeat' (split at h)
    all_goals first
      | exact hnat h
      | exact hlong h
      | exact hint h
      | exact hdec h
      | exact hbin h
      | (cases h; exact hemp)
      | (cases h; trivial)
  have hid : ∀ ids, MembersApart (serIdentity mod ids v) := by
    intro ids
    rw [serIdentity]
    repeat' split
    all_goals trivial
  rw [serVal] at h
  repeat' (split at h)
  all_goals first
    | exact hmap h
    | exact hlong h
    | exact hint h
    | exact hdec h
    | exact hbin h
    | (cases h; exact hemp)
    | (cases h; exact hid _)
    | (cases h; trivial)

theorem goodNames_nodup {kids : List (Meta × Schema)} (h : GoodNames kids) : (kids.map fun k => k.1.name).Nodup := by
  have h2 := h.2
  rw [List.nodup_iff_pairwise_ne, List.pairwise_map] at h2 ⊢
  exact h2.imp fun h1 h => h1 (by rw [h])

theorem nativeKids_sublist : ∀ {kids : List (Meta × Schema)} {ns : List Inst} {ms : List (Str × J)},
    nativeKids kids ns = .ok ms → (ms.map Prod.fst).Sublist (kids.map fun k => k.1.name)
  | [], ns, ms, h => by
    simp only [nativeKids, Except.ok.injEq] at h
    subst h
    exact List.Sublist.slnil
  | k :: ks, [], ms, h => by
    simp only [nativeKids, Except.ok.injEq] at h
    subst h
    exact List.nil_sublist _
  | k :: ks, n :: ns, ms, h => by
    rw [nativeKids] at h
    split at h
    · rename_i h2
      cases h
      exact (nativeKids_sublist h2).cons _
    · rename_i h2
      cases h
      exact (nativeKids_sublist h2).cons_cons _
    · cases h
    · cases h

theorem nativeEntries_apart {ordered : Bool} {f : PyVal × Inst → Except Err (List (Str × J))} : ∀ (es : Members Inst) (i : Nat) (ms : List (Str × J)),
    nativeEntries ordered i (es.map fun q => (q.1, f q)) = .ok ms →
    (∀ q ∈ es, ∀ xs, f q = .ok xs → ∀ i : Nat, MembersApart (.obj (if ordered then xs ++ [(yangOrder, .num i)] else xs))) →
    (es.Pairwise fun a b => jsonKey a.1 ≠ jsonKey b.1) →
    (∀ x ∈ ms, MembersApart x.2) ∧ (ms.map Prod.fst).Nodup ∧ ∀ x ∈ ms, ∃ q ∈ es, jsonKey q.1 = .ok x.1
  | [], i, ms, h, _, _ => by
    simp only [List.map_nil, nativeEntries, Except.ok.injEq] at h
    subst h
    simp
  | q :: es, i, ms, h, hf, hp => by
    rw [List.pairwise_cons] at hp
    simp only [List.map_cons, nativeEntries] at h
    split at h
    · rename_i s xs rest hs hxs hrest
      cases h
      have ih := nativeEntries_apart es (i + 1) rest hrest (fun q hq => hf q (List.mem_cons_of_mem _ hq)) hp.2
      refine ⟨?_, ?_, ?_⟩
      · intro x hx
        rcases List.mem_cons.1 hx with rfl | hx
        · exact hf q List.mem_cons_self xs hxs i
        · exact ih.1 x hx
      · rw [List.map_cons, List.nodup_cons]
        refine ⟨?_, ih.2.1⟩
        intro hmem
        obtain ⟨x, hx, hxe⟩ := List.mem_map.1 hmem
        obtain ⟨q', hq', hk⟩ := ih.2.2 x hx
        refine hp.1 q' hq' ?_
        rw [hs, hk, hxe]
      · intro x hx
        rcases List.mem_cons.1 hx with rfl | hx
        · exact ⟨q, List.mem_cons_self, hs⟩
        · obtain ⟨q', hq', hk⟩ := ih.2.2 x hx
          exact ⟨q', List.mem_cons_of_mem _ hq', hk⟩
    · cases h
    · cases h
    · cases h

mutual
theorem nativeNode_apart (m : Meta) : ∀ (S : Schema) (n : Inst) (j : J), Every NamedNative m S n → nativeNode S n = .ok (some j) → MembersApart j
  | .leaf L, n, j, _, h => by
    cases n with
    | leaf v ch =>
      rw [nativeNode] at h
      split at h
      · cases hs : serLeaf false [] L v with
        | error e => simp [hs, Except.map] at h
        | ok j' =>
          simp only [hs, Except.map, Except.ok.injEq, Option.some.injEq] at h
          subst h
          exact serVal_apart hs
      · cases h
    | leafList vs ch => simp [nativeNode] at h
    | cont a b c => simp [nativeNode] at h
    | list a b => simp [nativeNode] at h
  | .leafList L, n, j, _, h => by
    cases n with
    | leafList vs ch =>
      rw [nativeNode] at h
      split at h
      · cases h
      · cases hs : vs.mapM (serElem false [] L) with
        | error e => simp [hs, Except.map] at h
        | ok xs =>
          simp only [hs, Except.map, Except.ok.injEq, Option.some.injEq] at h
          subst h
          exact apart_arr (mapM_forall hs fun v _ y hy => serVal_apart hy)
    | leaf vs ch => simp [nativeNode] at h
    | cont a b c => simp [nativeNode] at h
    | list a b => simp [nativeNode] at h
  | .cont pres kids, n, j, hn, h => by
    cases n with
    | cont ch pr ns =>
      rw [nativeNode] at h
      cases hk : nativeKids kids ns with
      | error e => simp [hk] at h
      | ok ms =>
        have hn' := hn
        simp only [Every] at hn'
        have h1 := nativeKids_apart kids ns ms hn'.2 hk
        have h2 : (ms.map Prod.fst).Nodup := (nativeKids_sublist hk).nodup (goodNames_nodup hn'.1)
        simp only [hk, Except.ok.injEq] at h
        split at h
        · cases h
        · cases h
          exact apart_obj h2 h1
    | leafList vs ch => simp [nativeNode] at h
    | leaf a b => simp [nativeNode] at h
    | list a b => simp [nativeNode] at h
  | .list info kids, n, j, hn, h => by
    cases n with
    | list ch es =>
      rw [nativeNode] at h
      split at h
      · cases h
      · have hn' := hn
        simp only [Every] at hn'
        obtain ⟨⟨hg, ho, hp⟩, hent⟩ := hn'
        cases hx : nativeEntries info.ordered 0 (es.map fun q => (q.1, nativeKids kids q.2.kids)) with
        | error e => simp [hx, Except.map] at h
        | ok ms =>
          simp only [hx, Except.map, Except.ok.injEq, Option.some.injEq] at h
          subst h
          have := nativeEntries_apart (f := fun q => nativeKids kids q.2.kids) es 0 ms hx (by
            intro q hq xs hxs i
            have h1 := nativeKids_apart kids q.2.kids xs (hent q hq) hxs
            have h2 := nativeKids_sublist hxs
            split
            · rename_i hord
              refine apart_obj ?_ ?_
              · rw [List.map_append, List.nodup_append]
                refine ⟨h2.nodup (goodNames_nodup hg), by simp, ?_⟩
                intro a ha b hb
                simp only [List.map_cons, List.map_nil, List.mem_singleton] at hb
                subst hb
                obtain ⟨k, hk, rfl⟩ := List.mem_map.1 (h2.subset ha)
                exact ho hord k hk
              · intro x hx
                rcases List.mem_append.1 hx with hx | hx
                · exact h1 x hx
                · simp only [List.mem_singleton] at hx
                  subst hx
                  trivial
            · exact apart_obj (h2.nodup (goodNames_nodup hg)) h1) hp
          exact apart_obj this.2.1 this.1
    | leafList vs ch => simp [nativeNode] at h
    | leaf a b => simp [nativeNode] at h
    | cont a b c => simp [nativeNode] at h

theorem nativeKids_apart : ∀ (kids : List (Meta × Schema)) (ns : List Inst) (ms : List (Str × J)),
    EveryKids NamedNative kids ns → nativeKids kids ns = .ok ms → ∀ x ∈ ms, MembersApart x.2
  | [], ns, ms, _, h => by
    simp only [nativeKids, Except.ok.injEq] at h
    subst h
    simp
  | k :: ks, [], ms, _, h => by
    simp only [nativeKids, Except.ok.injEq] at h
    subst h
    simp
  | (km, kS) :: ks, n :: ns, ms, hn, h => by
    rw [EveryKids] at hn
    rw [nativeKids] at h
    split at h
    · rename_i h2
      cases h
      exact nativeKids_apart ks ns _ hn.2 h2
    · rename_i h1 h2
      cases h
      intro x hx
      rcases List.mem_cons.1 hx with rfl | hx
      · exact nativeNode_apart km kS n _ hn.1 h1
      · exact nativeKids_apart ks ns _ hn.2 h2 x hx
    · cases h
    · cases h
end

/-- No object of the default document of a binding has two members of one name. -/
theorem nativeDump_apart {kids : List (Meta × Schema)} {ns : List Inst} {j : J}
    (hg : GoodNames kids) (hn : EveryKids NamedNative kids ns) (h : nativeDump kids ns = .ok j) : MembersApart j := by
  rw [nativeDump] at h
  cases hk : nativeKids kids ns with
  | error e => simp [hk, Except.map] at h
  | ok ms =>
    simp only [hk, Except.map, Except.ok.injEq] at h
    subst h
    exact apart_obj ((nativeKids_sublist hk).nodup (goodNames_nodup hg)) (nativeKids_apart kids ns ms hn hk)

/-! ## The characters of the text -/

theorem ascii_append {a b : Str} (ha : Ascii a) (hb : Ascii b) : Ascii (a ++ b) := by
  intro c hc
  rcases List.mem_append.1 hc with h | h
  · exact ha c h
  · exact hb c h

theorem ascii_cons {a : Char} {b : Str} (ha : a.toNat < 128) (hb : Ascii b) : Ascii (a :: b) := by
  intro c hc
  rcases List.mem_cons.1 hc with rfl | h
  · exact ha
  · exact hb c h

theorem ascii_nil : Ascii [] := by intro c hc; cases hc

theorem hexDigit_ascii (n : Nat) (h : n < 16) : (hexDigit n).toNat < 128 := by
  have : ∀ m : Fin 16, (hexDigit m.1).toNat < 128 := by decide
  exact this ⟨n, h⟩

theorem hexFour_ascii (n : Nat) : Ascii (hexFour n) := by
  have h : ∀ k, (hexDigit (k % 16)).toNat < 128 := fun k => hexDigit_ascii _ (Nat.mod_lt _ (by decide))
  exact ascii_cons (h _) (ascii_cons (h _) (ascii_cons (h _) (ascii_cons (h _) ascii_nil)))

theorem shortEscapes_ascii : ∀ p ∈ shortEscapes, p.2.toNat < 128 := by decide

theorem lookup_memb {α β : Type} [BEq α] [LawfulBEq α] {a : α} {b : β} : ∀ {l : List (α × β)}, l.lookup a = some b → (a, b) ∈ l
  | [], h => by simp at h
  | (x, y) :: l, h => by
    rw [List.lookup_cons] at h
    split at h
    · rename_i hx
      have := eq_of_beq hx
      simp only [Option.some.injEq] at h
      subst h
      subst this
      exact List.mem_cons_self
    · exact List.mem_cons_of_mem _ (lookup_memb h)

theorem jsonChar_ascii (c : Char) : Ascii (jsonChar c) := by
  have hu : ∀ n, Ascii ('\\' :: 'u' :: hexFour n) := fun n => ascii_cons (by decide) (ascii_cons (by decide) (hexFour_ascii n))
  rw [jsonChar]
  split
  · rename_i e he
    exact ascii_cons (by decide) (ascii_cons (shortEscapes_ascii _ (lookup_memb he)) ascii_nil)
  · split
    · rename_i h
      exact ascii_cons (by omega) ascii_nil
    · split
      · exact hu _
      · exact ascii_append (a := '\\' :: 'u' :: hexFour _) (hu _) (hu _)

theorem jsonStr_ascii (s : Str) : Ascii (jsonStr s) := by
  refine ascii_cons (by decide) (ascii_append ?_ (ascii_cons (by decide) ascii_nil))
  intro c hc
  obtain ⟨d, _, hd⟩ := List.mem_flatMap.1 hc
  exact jsonChar_ascii d c hd

theorem digit_ascii {c : Char} (h : isDigit c = true) : c.toNat < 128 := by
  have : c.toNat ≤ 57 := by
    simp only [isDigit, Bool.and_eq_true, decide_eq_true_eq] at h
    exact h.2
  omega

theorem digits_ascii {s : Str} (h : ∀ c ∈ s, isDigit c = true) : Ascii s := fun c hc => digit_ascii (h c hc)

theorem intStr_ascii (n : Int) : Ascii (intStr n) := by
  rw [intStr.eq_def]
  split
  · exact digits_ascii (natStr_digits _)
  · exact ascii_cons (by decide) (digits_ascii (natStr_digits _))

theorem floatForm_ascii {s : Str} (h : FloatForm s) : Ascii s := by
  obtain ⟨sign, n, f, e, rfl, hs, hf, he, _⟩ := h
  refine ascii_append (ascii_append (ascii_append ?_ (digits_ascii (natStr_digits _))) ?_) ?_
  · rcases hs with rfl | rfl
    · exact ascii_nil
    · exact ascii_cons (by decide) ascii_nil
  · rcases hf with rfl | ⟨d, rfl, hd⟩
    · exact ascii_nil
    · exact ascii_cons (by decide) (digits_ascii hd.2)
  · rcases he with rfl | ⟨g, d, rfl, hg, hd⟩
    · exact ascii_nil
    · refine ascii_append (a := 'e' :: g) (ascii_cons (by decide) ?_) (digits_ascii hd.2)
      rcases hg with rfl | rfl | rfl
      · exact ascii_nil
      · exact ascii_cons (by decide) ascii_nil
      · exact ascii_cons (by decide) ascii_nil

theorem jsonLine_ascii (ind : Option Nat) (lvl : Nat) : Ascii (jsonLine ind lvl) := by
  cases ind with
  | none => exact ascii_nil
  | some k =>
    refine ascii_cons (by decide) ?_
    intro c hc
    rw [List.eq_of_mem_replicate hc]
    decide

theorem jsonSep_ascii (ind : Option Nat) (lvl : Nat) : Ascii (jsonSep ind lvl) := by
  cases ind with
  | none => exact ascii_cons (by decide) (ascii_cons (by decide) ascii_nil)
  | some k => exact ascii_cons (by decide) (jsonLine_ascii _ _)

mutual
theorem jsonText_ascii {fl : Int × Int → Str} {rf : Str → Option (Int × Int)} (ind : Option Nat) : ∀ (lvl : Nat) (j : J), FloatsBack fl rf j → Ascii (jsonText ind fl lvl j)
  | _, .null, _ => by rw [jsonText, Ascii]; decide
  | _, .bool b, _ => by cases b <;> (simp only [jsonText, Ascii]; decide)
  | _, .num n, _ => by rw [jsonText]; exact intStr_ascii n
  | _, .float x, h => by rw [jsonText]; exact floatForm_ascii h.1
  | _, .str s, _ => by rw [jsonText]; exact jsonStr_ascii s
  | _, .arr [], _ => by rw [jsonText, Ascii]; decide
  | lvl, .arr (x :: xs), h => by
    rw [jsonText]
    exact ascii_cons (by decide) (ascii_append (jsonLine_ascii _ _) (ascii_append (jsonText_ascii ind _ x h.1) (ascii_append (jsonElems_ascii ind _ xs h.2)
      (ascii_append (jsonLine_ascii _ _) (ascii_cons (by decide) ascii_nil)))))
  | _, .obj [], _ => by rw [jsonText, Ascii]; decide
  | lvl, .obj ((k, x) :: ms), h => by
    rw [jsonText]
    exact ascii_cons (by decide) (ascii_append (jsonLine_ascii _ _) (ascii_append (jsonStr_ascii k) (ascii_cons (by decide) (ascii_cons (by decide)
      (ascii_append (jsonText_ascii ind _ x h.1) (ascii_append (jsonMems_ascii ind _ ms h.2)
        (ascii_append (jsonLine_ascii _ _) (ascii_cons (by decide) ascii_nil))))))))

theorem jsonElems_ascii {fl : Int × Int → Str} {rf : Str → Option (Int × Int)} (ind : Option Nat) : ∀ (lvl : Nat) (xs : List J), FloatsBackAll fl rf xs → Ascii (jsonElems ind fl lvl xs)
  | _, [], _ => by rw [jsonElems]; exact ascii_nil
  | lvl, x :: xs, h => by
    rw [jsonElems]
    exact ascii_append (jsonSep_ascii _ _) (ascii_append (jsonText_ascii ind _ x h.1) (jsonElems_ascii ind _ xs h.2))

theorem jsonMems_ascii {fl : Int × Int → Str} {rf : Str → Option (Int × Int)} (ind : Option Nat) : ∀ (lvl : Nat) (ms : List (Str × J)), FloatsBackMems fl rf ms → Ascii (jsonMems ind fl lvl ms)
  | _, [], _ => by rw [jsonMems]; exact ascii_nil
  | lvl, (k, x) :: ms, h => by
    rw [jsonMems]
    exact ascii_append (jsonSep_ascii _ _) (ascii_append (jsonStr_ascii k) (ascii_cons (by decide) (ascii_cons (by decide)
      (ascii_append (jsonText_ascii ind _ x h.1) (jsonMems_ascii ind _ ms h.2)))))
end

end Pyb
