import Verif.Spec.SaveNative
import Verif.Lemmas.SaveXml
import Verif.Lemmas.JsonTextDoc

namespace Pyb
open Py Spec

theorem safe_no_obj {t : YTy} (ht : SafeTy t) {v : PyVal} (h : Value t v) : ∀ o, v ≠ .obj o := by
  intro o
  cases h with
  | int => simp
  | str => simp
  | bool => simp
  | ident => cases ht
  | empty => cases ht
  | ext => cases ht

theorem native_values {rx : Str → Str → Bool} : ∀ (S : Schema) (m : Meta) (n : Inst), ClsOk m S → (∀ p m' S', Attr [(m, S)] p m' S' → ClsOk m' S') →
    ObjInv fromClass S n → Every (NKept rx) m S n → Every (NativeValues rx) m S n := by
  intro S
  induction S using Schema.ind with
  | hleaf L =>
    intro m n _ _ ho hk
    cases ho with
    | leaf _ v ch h =>
      intro hch
      rcases hk hch with ⟨t, d, rfl, ht⟩ | hk
      · obtain ⟨x, hx⟩ := h hch
        have h1 := safe_set ht hx
        exact .inl ⟨t, d, rfl, h1, fun y e => absurd e (safe_no_obj ht h1.1 _)⟩
      · exact hk
  | hll L =>
    intro m n _ _ ho hk
    cases ho with
    | leafList _ vs ch h =>
      intro hvs
      obtain ⟨h1, h2⟩ := hk hvs
      refine ⟨?_, h2⟩
      rcases h1 with ⟨t, u, tx, rfl, ht⟩ | h1
      · have hc : ∀ v ∈ vs, StoredElem rx t v := fun v hv => by
          obtain ⟨x, hx⟩ := h.2 v hv
          exact safe_conv ht hx
        exact ⟨.inl ⟨t, u, tx, rfl, hc⟩, fun v hv => safe_no_obj ht (hc v hv).1⟩
      · exact h1
  | hcont pres kids ih =>
    intro m n hQ hA ho hk
    cases ho with
    | cont _ _ ch pr ns hlen ho =>
      obtain ⟨h0, hk⟩ := hk
      refine ⟨hQ, ?_⟩
      rw [everyKids_iff] at hk ⊢
      refine ⟨hk.1, fun i k c hi hc => ?_⟩
      have hm : k ∈ kids := List.mem_of_getElem? hi
      exact ih k hm k.1 c (hA _ _ _ (.cont (List.mem_singleton.2 rfl) (.here hm)))
        (fun p m' S' h => hA _ _ _ (.cont (List.mem_singleton.2 rfl) (attr_mono (by rintro x hx; rw [List.mem_singleton.1 hx]; exact hm) h)))
        (ho i k c hi hc) (hk.2 i k c hi hc)
  | hlist info kids ih =>
    intro m n hQ hA ho hk
    cases ho with
    | list _ _ ch es ho hpd =>
      obtain ⟨⟨k1, k2, k3⟩, hk⟩ := hk
      obtain ⟨q1, q2, q3, q4⟩ := hQ
      refine ⟨⟨q1, k1, fun _ => q2, k2, k3⟩, ?_⟩
      intro q hq
      have hk := hk q hq
      have ho := ho q hq
      generalize q.2 = e at hk ho
      cases ho with
      | cont _ _ ch pr ns hlen ho =>
        simp only [Inst.kids] at hk ⊢
        rw [everyKids_iff] at hk ⊢
        refine ⟨hk.1, fun i k c hi hc => ?_⟩
        have hm : k ∈ kids := List.mem_of_getElem? hi
        exact ih k hm k.1 c (hA _ _ _ (.list (List.mem_singleton.2 rfl) (.here hm)))
          (fun p m' S' h => hA _ _ _ (.list (List.mem_singleton.2 rfl) (attr_mono (by rintro x hx; rw [List.mem_singleton.1 hx]; exact hm) h)))
          (ho i k c hi hc) (hk.2 i k c hi hc)

theorem session_nready {rx : Str → Str → Bool} {o : Bool} {f : List YNode} (H : Supported f) {acts : List Act}
    (h : EveryKids (NKept rx) (genModule o f) (session (genModule o f) (freshKids (genModule o f)) acts)) :
    EveryKids (NativeValues rx) (genModule o f) (session (genModule o f) (freshKids (genModule o f)) acts) := by
  have h1 := session_obj fromClass_stable acts (rootObj_fresh fromClass_stable (genModule o f))
  rw [everyKids_iff] at h ⊢
  refine ⟨h.1, fun i k c hk hc => ?_⟩
  have hm : k ∈ genModule o f := List.mem_of_getElem? hk
  exact native_values k.2 k.1 c (gen_clsOk H (.here hm))
    (fun p m' S' ha => gen_clsOk H (attr_mono (by rintro x hx; rw [List.mem_singleton.1 hx]; exact hm) ha)) (h1.2 i k c hk hc) (h.2 i k c hk hc)

theorem nkept_leaves {rx : Str → Str → Bool} : ∀ (S : Schema) (m : Meta) (n : Inst), LeafOrCont rx S → (∀ p m' S', Attr [(m, S)] p m' S' → LeafOrCont rx S') →
    ObjInv fromClass S n → Every (NKept rx) m S n := by
  intro S
  induction S using Schema.ind with
  | hleaf L => intro m n h _ ho; cases ho; exact fun hc => .inl h
  | hll L => intro m n h; exact h.elim
  | hlist info kids ih => intro m n h; exact h.elim
  | hcont pres kids ih =>
    intro m n _ hA ho
    cases ho with
    | cont _ _ ch pr ns hlen ho =>
      refine ⟨trivial, everyKids_iff.2 ⟨hlen, fun i k c hi hc => ?_⟩⟩
      have hm : k ∈ kids := List.mem_of_getElem? hi
      exact ih k hm k.1 c (hA _ _ _ (.cont (List.mem_singleton.2 rfl) (.here hm)))
        (fun p m' S' h => hA _ _ _ (.cont (List.mem_singleton.2 rfl) (attr_mono (by rintro x hx; rw [List.mem_singleton.1 hx]; exact hm) h)))
        (ho i k c hi hc)

theorem session_nleaves {rx : Str → Str → Bool} {o : Bool} {f : List YNode} (H : Supported f) (hl : SafeLeaves rx f) (acts : List Act) :
    EveryKids (NKept rx) (genModule o f) (session (genModule o f) (freshKids (genModule o f)) acts) := by
  have h1 := session_obj fromClass_stable acts (rootObj_fresh fromClass_stable (genModule o f))
  refine everyKids_iff.2 ⟨h1.1, fun i k c hk hc => ?_⟩
  have hm : k ∈ genModule o f := List.mem_of_getElem? hk
  exact nkept_leaves k.2 k.1 c (leaf_or_cont H hl (.here hm))
    (fun p m' S' ha => leaf_or_cont H hl (attr_mono (by rintro x hx; rw [List.mem_singleton.1 hx]; exact hm) ha)) (h1.2 i k c hk hc)

/-! ## Floats -/

section
variable {fl : Int × Int → Str} {rf : Str → Option (Int × Int)}

theorem floats_arr {xs : List J} (h : ∀ x ∈ xs, FloatsBack fl rf x) : FloatsBack fl rf (.arr xs) := by
  have : FloatsBackAll fl rf xs := by
    induction xs with
    | nil => trivial
    | cons x xs ih => exact ⟨h x List.mem_cons_self, ih fun y hy => h y (List.mem_cons_of_mem _ hy)⟩
  exact this

theorem floats_obj {ms : List (Str × J)} (h : ∀ x ∈ ms, FloatsBack fl rf x.2) : FloatsBack fl rf (.obj ms) := by
  have : FloatsBackMems fl rf ms := by
    induction ms with
    | nil => trivial
    | cons x ms ih =>
      obtain ⟨k, x⟩ := x
      exact ⟨h (k, x) List.mem_cons_self, ih fun y hy => h y (List.mem_cons_of_mem _ hy)⟩
  exact this

theorem serVal_floats {mod yt : Str} {A : SerCls} {v : PyVal} {j : J} (hv : ∀ x, v = .obj (.dec x) → FloatBack fl rf (floatOfDec x))
    (h : serVal false mod yt A v = .ok j) : FloatsBack fl rf j := by
  have hint : ∀ {j}, serInt v = .ok j → FloatsBack fl rf j := fun h => (serInt_ok h).2
  have hlong : ∀ {j}, serLong false v = .ok j → FloatsBack fl rf j := by
    intro j h
    exact hint h
  have hbin : ∀ {j}, serBinary v = .ok j → FloatsBack fl rf j := fun h => (serBinary_ok h).2
  have hemp : FloatsBack fl rf (serEmpty false v) := (serEmpty_ok _ _).2
  have hdec : ∀ {j}, serDecimal false v = .ok j → FloatsBack fl rf j := by
    intro j h
    simp only [serDecimal] at h
    split at h
    · rename_i h0
      cases h0
    · split at h
      · cases h
        exact hv _ rfl
      · cases h
  have hnat : ∀ {j}, serNative false v = .ok j → FloatsBack fl rf j := by
    intro j h
    rw [serNative.eq_def] at h
    split at h
    · cases h
      trivial
    · cases h
      trivial
    · cases h
      trivial
    · exact hdec h
    · cases h
  have hmap : ∀ {j}, serMapped false yt A v = .ok j → FloatsBack fl rf j := by
    intro j h
    rw [serMapped] at h
    repeat' (split at h)
    all_goals first
      | exact hnat h
      | exact hlong h
      | exact hint h
      | exact hdec h
      | exact hbin h
      | (cases h; exact hemp)
      | (cases h; trivial)
  have hid : ∀ ids, FloatsBack fl rf (serIdentity mod ids v) := by
    intro ids
    rw [serIdentity]
    repeat' split
    all_goals trivial
  rw [serVal] at h
  repeat' (split at h)
  all_goals first
    | exact hmap h
    | exact hlong h
    | exact hint h
    | exact hdec h
    | exact hbin h
    | (cases h; exact hemp)
    | (cases h; exact hid _)
    | (cases h; trivial)

theorem nativeEntries_floats {ordered : Bool} {f : PyVal × Inst → Except Err (List (Str × J))} : ∀ (es : Members Inst) (i : Nat) (ms : List (Str × J)),
    nativeEntries ordered i (es.map fun q => (q.1, f q)) = .ok ms → (∀ q ∈ es, ∀ xs, f q = .ok xs → ∀ x ∈ xs, FloatsBack fl rf x.2) →
    ∀ x ∈ ms, FloatsBack fl rf x.2
  | [], i, ms, h, _ => by
    simp only [List.map_nil, nativeEntries, Except.ok.injEq] at h
    subst h
    simp
  | q :: es, i, ms, h, hf => by
    simp only [List.map_cons, nativeEntries] at h
    split at h
    · rename_i s xs rest hs hxs hrest
      cases h
      intro x hx
      rcases List.mem_cons.1 hx with rfl | hx
      · refine floats_obj fun y hy => ?_
        split at hy
        · rcases List.mem_append.1 hy with hy | hy
          · exact hf q List.mem_cons_self xs hxs y hy
          · rw [List.mem_singleton.1 hy]; trivial
        · exact hf q List.mem_cons_self xs hxs y hy
      · exact nativeEntries_floats es (i + 1) rest hrest (fun q hq => hf q (List.mem_cons_of_mem _ hq)) x hx
    · cases h
    · cases h
    · cases h

mutual
theorem nativeNode_floats (m : Meta) : ∀ (S : Schema) (n : Inst) (j : J), Every (DecimalsBack fl rf) m S n → nativeNode S n = .ok (some j) → FloatsBack fl rf j
  | .leaf L, n, j, hn, h => by
    cases n with
    | leaf v ch =>
      rw [nativeNode] at h
      split at h
      · rename_i hc
        cases hs : serLeaf false [] L v with
        | error e => simp [hs, Except.map] at h
        | ok j' =>
          simp only [hs, Except.map, Except.ok.injEq, Option.some.injEq] at h
          subst h
          exact serVal_floats (hn hc) hs
      · cases h
    | leafList vs ch => simp [nativeNode] at h
    | cont a b c => simp [nativeNode] at h
    | list a b => simp [nativeNode] at h
  | .leafList L, n, j, hn, h => by
    cases n with
    | leafList vs ch =>
      rw [nativeNode] at h
      split at h
      · cases h
      · cases hs : vs.mapM (serElem false [] L) with
        | error e => simp [hs, Except.map] at h
        | ok xs =>
          simp only [hs, Except.map, Except.ok.injEq, Option.some.injEq] at h
          subst h
          exact floats_arr (mapM_forall hs fun v hv y hy => serVal_floats (hn v hv) hy)
    | leaf vs ch => simp [nativeNode] at h
    | cont a b c => simp [nativeNode] at h
    | list a b => simp [nativeNode] at h
  | .cont pres kids, n, j, hn, h => by
    cases n with
    | cont ch pr ns =>
      rw [nativeNode] at h
      cases hk : nativeKids kids ns with
      | error e => simp [hk] at h
      | ok ms =>
        have h1 := nativeKids_floats kids ns ms hn.2 hk
        simp only [hk, Except.ok.injEq] at h
        split at h
        · cases h
        · cases h
          exact floats_obj h1
    | leafList vs ch => simp [nativeNode] at h
    | leaf a b => simp [nativeNode] at h
    | list a b => simp [nativeNode] at h
  | .list info kids, n, j, hn, h => by
    cases n with
    | list ch es =>
      rw [nativeNode] at h
      split at h
      · cases h
      · have hn' := hn
        simp only [Every] at hn'
        cases hx : nativeEntries info.ordered 0 (es.map fun q => (q.1, nativeKids kids q.2.kids)) with
        | error e => simp [hx, Except.map] at h
        | ok ms =>
          simp only [hx, Except.map, Except.ok.injEq, Option.some.injEq] at h
          subst h
          exact floats_obj (nativeEntries_floats (f := fun q => nativeKids kids q.2.kids) es 0 ms hx fun q hq xs hxs =>
            nativeKids_floats kids q.2.kids xs (hn'.2 q hq) hxs)
    | leafList vs ch => simp [nativeNode] at h
    | leaf a b => simp [nativeNode] at h
    | cont a b c => simp [nativeNode] at h

theorem nativeKids_floats : ∀ (kids : List (Meta × Schema)) (ns : List Inst) (ms : List (Str × J)),
    EveryKids (DecimalsBack fl rf) kids ns → nativeKids kids ns = .ok ms → ∀ x ∈ ms, FloatsBack fl rf x.2
  | [], ns, ms, _, h => by
    simp only [nativeKids, Except.ok.injEq] at h
    subst h
    simp
  | k :: ks, [], ms, _, h => by
    simp only [nativeKids, Except.ok.injEq] at h
    subst h
    simp
  | (km, kS) :: ks, n :: ns, ms, hn, h => by
    rw [EveryKids] at hn
    rw [nativeKids] at h
    split at h
    · rename_i h2
      cases h
      exact nativeKids_floats ks ns _ hn.2 h2
    · rename_i h1 h2
      cases h
      intro x hx
      rcases List.mem_cons.1 hx with rfl | hx
      · exact nativeNode_floats km kS n _ hn.1 h1
      · exact nativeKids_floats ks ns _ hn.2 h2 x hx
    · cases h
    · cases h
end

/-- Every document in the default encoding of a tree whose decimals are read as they are written. -/
theorem nativeDump_floats {kids : List (Meta × Schema)} {ns : List Inst} {j : J} (hn : EveryKids (DecimalsBack fl rf) kids ns)
    (h : nativeDump kids ns = .ok j) : FloatsBack fl rf j := by
  rw [nativeDump] at h
  cases hk : nativeKids kids ns with
  | error e => simp [hk, Except.map] at h
  | ok ms =>
    simp only [hk, Except.map, Except.ok.injEq] at h
    subst h
    exact floats_obj (nativeKids_floats kids ns ms hn hk)
end

/-- In modules of safe leaves there are no decimals. -/
theorem decimals_leaves {fl : Int × Int → Str} {rf : Str → Option (Int × Int)} {rx : Str → Str → Bool} : ∀ (S : Schema) (m : Meta) (n : Inst),
    LeafOrCont rx S → (∀ p m' S', Attr [(m, S)] p m' S' → LeafOrCont rx S') → ObjInv fromClass S n → Every (DecimalsBack fl rf) m S n := by
  intro S
  induction S using Schema.ind with
  | hleaf L =>
    intro m n h _ ho
    cases ho with
    | leaf _ v ch hv =>
      obtain ⟨t, d, rfl, ht⟩ := h
      intro hc x e
      obtain ⟨y, hy⟩ := hv hc
      exact absurd e (safe_no_obj ht (safe_set ht hy).1 _)
  | hll L => intro m n h; exact h.elim
  | hlist info kids ih => intro m n h; exact h.elim
  | hcont pres kids ih =>
    intro m n _ hA ho
    cases ho with
    | cont _ _ ch pr ns hlen ho =>
      refine ⟨trivial, everyKids_iff.2 ⟨hlen, fun i k c hi hc => ?_⟩⟩
      have hm : k ∈ kids := List.mem_of_getElem? hi
      exact ih k hm k.1 c (hA _ _ _ (.cont (List.mem_singleton.2 rfl) (.here hm)))
        (fun p m' S' h => hA _ _ _ (.cont (List.mem_singleton.2 rfl) (attr_mono (by rintro x hx; rw [List.mem_singleton.1 hx]; exact hm) h)))
        (ho i k c hi hc)

theorem session_decimals {fl : Int × Int → Str} {rf : Str → Option (Int × Int)} {rx : Str → Str → Bool} {o : Bool} {f : List YNode} (H : Supported f)
    (hl : SafeLeaves rx f) (acts : List Act) : EveryKids (DecimalsBack fl rf) (genModule o f) (session (genModule o f) (freshKids (genModule o f)) acts) := by
  have h1 := session_obj fromClass_stable acts (rootObj_fresh fromClass_stable (genModule o f))
  refine everyKids_iff.2 ⟨h1.1, fun i k c hk hc => ?_⟩
  have hm : k ∈ genModule o f := List.mem_of_getElem? hk
  exact decimals_leaves k.2 k.1 c (leaf_or_cont H hl (.here hm))
    (fun p m' S' ha => leaf_or_cont H hl (attr_mono (by rintro x hx; rw [List.mem_singleton.1 hx]; exact hm) ha)) (h1.2 i k c hk hc)

end Pyb
