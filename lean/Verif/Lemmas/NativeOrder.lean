import Verif.Spec.NativeOrder
import Verif.Lemmas.NativeList

namespace Pyb
open Py Spec

theorem position_eq (j : J) : position j = orderOf j := by
  cases j <;> rfl

theorem andThen_assoc (o : Out) (f h : Inst → Out) : (o.andThen f).andThen h = o.andThen fun n => (f n).andThen h := by
  cases o with
  | mk i s e =>
    cases e with
    | some e => simp [Out.andThen]
    | none =>
      simp only [Out.andThen]
      cases f i with
      | mk i' s' e' => cases e' <;> simp [List.append_assoc]

theorem nMembers_append {g : LoadOpt} {over wrapped ordered : Bool} {S : Schema} {own : Option Choice} {ms ms' : List (Str × J)} : ∀ {n : Inst},
    nativeMembers g over wrapped ordered S own n (ms ++ ms') =
    (nativeMembers g over wrapped ordered S own n ms).andThen fun n => nativeMembers g over wrapped ordered S own n ms' := by
  induction ms with
  | nil => intro n; rw [List.nil_append, nMembers_nil, same_then]
  | cons m ms ih =>
    intro n
    rw [List.cons_append, nMembers_cons, nMembers_cons, andThen_assoc]
    simp only [ih]

theorem kidIdx_childOf (kids : List (Meta × Schema)) (key : Str) :
    (kidIdx kids key = none ∧ childOf kids key = none) ∨
    ∃ i k, kidIdx kids key = some i ∧ kids[i]? = some k ∧ childOf kids key = some k := by
  unfold kidIdx childOf
  cases h : kids.findIdx? fun k => safeName k.1.name == safeName key with
  | none =>
    left
    refine ⟨rfl, ?_⟩
    rw [List.find?_eq_none]
    simpa using h
  | some i =>
    right
    rw [List.findIdx?_eq_some_iff_getElem] at h
    obtain ⟨h1, h2, h3⟩ := h
    refine ⟨i, kids[i], rfl, List.getElem?_eq_getElem h1, ?_⟩
    rw [List.find?_eq_some_iff_getElem]
    refine ⟨h2, i, h1, rfl, ?_⟩
    intro j hj
    simpa using h3 j hj

theorem nMembers_member {g : LoadOpt} {over wrapped ordered pres : Bool} {kids : List (Meta × Schema)} {own : Option Choice}
    {pre post : List (Str × J)} {key : Str} {k : Meta × Schema} {a b : J} (hk : childOf kids key = some k)
    (h : ∀ c, nativeChild g over k.2 k.1.choice c a = nativeChild g over k.2 k.1.choice c b) (n : Inst) :
    nativeMembers g over wrapped ordered (.cont pres kids) own n (pre ++ (key, a) :: post) =
    nativeMembers g over wrapped ordered (.cont pres kids) own n (pre ++ (key, b) :: post) := by
  rw [nMembers_append, nMembers_append]
  congr 1
  funext n
  rw [nMembers_cons, nMembers_cons]
  have : ∀ u, withKid wrapped (.cont pres kids) own n key u (fun _ k c => nativeChild g over k.2 k.1.choice c a) =
      withKid wrapped (.cont pres kids) own n key u (fun _ k c => nativeChild g over k.2 k.1.choice c b) := by
    intro u
    rcases kidIdx_childOf kids key with ⟨h1, h2⟩ | ⟨i, k', h1, h2, h3⟩
    · rw [h2] at hk; simp at hk
    · rw [h3] at hk; simp at hk; subst hk
      cases n with
      | cont ch pr ns =>
        simp only [withKid, h1, h2]
        cases ns[i]? with
        | none => rfl
        | some c => simp only [h c]
      | _ => simp only [withKid, h1, h2]
  simp only [this]

theorem putOrder_comm {α : Type} {o p : Int} {x y : α} (h : o ≠ p) (kd : List (Int × α)) :
    putOrder o x (putOrder p y kd) = putOrder p y (putOrder o x kd) := by
  induction kd with
  | nil =>
    simp only [putOrder, h, h.symm, if_false]
    split <;> split <;> first | rfl | omega
  | cons q kd ih =>
    simp only [putOrder]
    by_cases h1 : p = q.1 <;> by_cases h2 : o = q.1
    · omega
    · subst h1
      by_cases h3 : o < q.1
      · simp [putOrder, h2, h3, Ne.symm h2, Int.not_lt.2 (Int.le_of_lt h3)]
      · simp [putOrder, h2, h3]
    · subst h2
      by_cases h3 : p < q.1
      · simp [putOrder, h1, h3, Ne.symm h1, Int.not_lt.2 (Int.le_of_lt h3)]
      · simp [putOrder, h1, h3]
    · by_cases h3 : p < q.1 <;> by_cases h4 : o < q.1
      · rcases Int.lt_or_gt_of_ne h with h5 | h5
        · simp [putOrder, h1, h2, h3, h4, h, h.symm, h5, Int.not_lt.2 (Int.le_of_lt h5)]
        · simp [putOrder, h1, h2, h3, h4, h, h.symm, h5, Int.not_lt.2 (Int.le_of_lt h5)]
      · have : p < o := by omega
        simp [putOrder, h1, h2, h3, h4, h, h.symm, this, Int.not_lt.2 (Int.le_of_lt this)]
      · have : o < p := by omega
        simp [putOrder, h1, h2, h3, h4, h, h.symm, this, Int.not_lt.2 (Int.le_of_lt this)]
      · simp [putOrder, h1, h2, h3, h4, ih]

theorem split_perm {α : Type} {xs ys : List (Option Int × α)} (hp : xs.Perm ys) : (∀ x ∈ xs, x.1 ≠ none) → (xs.map Prod.fst).Nodup →
    ∀ kd : List (Int × α), splitOrder xs kd [] = splitOrder ys kd [] := by
  induction hp with
  | nil => intro _ _ kd; rfl
  | cons x hp ih =>
    intro h1 h2 kd
    obtain ⟨o, x⟩ := x
    cases o with
    | none => exact absurd rfl (h1 _ List.mem_cons_self)
    | some o =>
      simp only [splitOrder]
      exact ih (fun x hx => h1 x (List.mem_cons_of_mem _ hx)) (by simp at h2; exact h2.2) _
  | swap x y l =>
    intro h1 h2 kd
    obtain ⟨o, x⟩ := x
    obtain ⟨p, y⟩ := y
    cases o with
    | none => exact absurd rfl (h1 (none, x) (by simp))
    | some o =>
      cases p with
      | none => exact absurd rfl (h1 (none, y) (by simp))
      | some p =>
        simp only [splitOrder]
        have : o ≠ p := by
          rintro rfl
          simp at h2
        rw [putOrder_comm this]
  | trans hp hq ih1 ih2 =>
    intro h1 h2 kd
    rw [ih1 h1 h2, ih2 (fun x hx => h1 x (hp.symm.subset hx)) ((hp.map _).nodup_iff.1 h2)]

theorem nFns_map {g : LoadOpt} {ordered : Bool} {kids : List (Meta × Schema)} (ms : List (Str × J)) :
    nativeFns g ordered kids ms = ms.map fun m => (orderOf m.2, m.1, fun c => nativeElem g ordered kids c m.2) := by
  induction ms with
  | nil => unfold nativeFns; rfl
  | cons m ms ih => unfold nativeFns; rw [ih]; rfl

theorem purge_perm {ks ks' : List Str} (h : ks.Perm ks') (es : Members Inst) : nativePurge ks es = nativePurge ks' es := by
  induction es with
  | nil => rfl
  | cons q es ih =>
    have : (ks.any fun s => pyEq (.str s) q.1) = ks'.any fun s => pyEq (.str s) q.1 := by
      rw [Bool.eq_iff_iff, List.any_eq_true, List.any_eq_true]
      exact ⟨fun ⟨x, h1, h2⟩ => ⟨x, h.subset h1, h2⟩, fun ⟨x, h1, h2⟩ => ⟨x, h.symm.subset h1, h2⟩⟩
    simp only [nativePurge, this, ih]

theorem clear_perm {over : Bool} {ks ks' : List Str} (h : ks.Perm ks') (n : Inst) : nativeClear over ks n = nativeClear over ks' n := by
  cases over <;> cases n <;> simp only [nativeClear]
  rw [purge_perm h]

/-- Shuffling keeps the numbers of entries. -/
theorem shuffled_order {S : Schema} {a b : J} (h : Shuffled S a b) : ∀ {pres kids}, S = .cont pres kids → position a = position b := by
  induction h with
  | refl => intros; rfl
  | trans _ _ ih1 ih2 => intro _ _ e; rw [ih1 e, ih2 e]
  | entries | entry => intro _ _ e; simp at e
  | @member _ _ pre post key k a b hk _ _ _ =>
    intro _ _ _
    have : ∀ ms, List.lookup py!"__yang_order" (pre ++ (key, a) :: ms) = List.lookup py!"__yang_order" (pre ++ (key, b) :: ms) := by
      intro ms
      have e : (py!"__yang_order" == key) = false := by simpa using Ne.symm hk
      induction pre with
      | nil => simp only [List.nil_append, List.lookup, e]
      | cons m pre ih => simp only [List.cons_append, List.lookup, ih]
    simp only [position, this]

theorem shuffled_unnumbered {S : Schema} {a b : J} (h : Shuffled S a b) : Unnumbered S b → Unnumbered S a := by
  induction h with
  | refl => exact id
  | trans _ _ ih1 ih2 => exact fun h => ih1 (ih2 h)
  | @entries info kids ms ms' ho hp =>
    intro h
    cases h with
    | here _ h =>
      refine .here ho fun ⟨h1, h2⟩ => h ⟨fun x hx => h1 x (hp.symm.subset hx), (hp.map _).nodup_iff.1 h2⟩
    | entry hx h => exact .entry (hp.symm.subset hx) h
  | @entry info kids pre post key a b hs ih =>
    intro h
    cases h with
    | here ho h =>
      refine .here ho fun ⟨h1, h2⟩ => h ⟨?_, ?_⟩
      · intro x hx
        rcases List.mem_append.1 hx with hx | hx
        · exact h1 x (by simp [hx])
        · rcases List.mem_cons.1 hx with rfl | hx
          · rw [← shuffled_order hs rfl]; exact h1 (key, a) (by simp)
          · exact h1 x (by simp [hx])
      · simpa [shuffled_order hs rfl] using h2
    | @entry _ _ _ x hx h =>
      rcases List.mem_append.1 hx with hx | hx
      · exact .entry (x := x) (by simp [hx]) h
      · rcases List.mem_cons.1 hx with rfl | hx
        · exact .entry (x := (key, a)) (by simp) (ih h)
        · exact .entry (x := x) (by simp [hx]) h
  | @member pres kids pre post key k a b hk hc hs ih =>
    intro h
    cases h with
    | @member _ _ _ x k' hx hc' h =>
      rcases List.mem_append.1 hx with hx | hx
      · exact .member (x := x) (by simp [hx]) hc' h
      · rcases List.mem_cons.1 hx with rfl | hx
        · rw [hc] at hc'; simp at hc'; subst hc'
          exact .member (x := (key, a)) (by simp) hc (ih h)
        · exact .member (x := x) (by simp [hx]) hc' h

/-- What loading two documents does is the same. -/
structure SameLoad (S : Schema) (a b : J) : Prop where
  child : ∀ g over own c, nativeChild g over S own c a = nativeChild g over S own c b
  elem : ∀ pres kids, S = .cont pres kids → ∀ g ordered c, nativeElem g ordered kids c a = nativeElem g ordered kids c b
  root : ∀ pres kids, S = .cont pres kids → ∀ g ns, nativeLoad g kids ns a = nativeLoad g kids ns b

theorem shuffled_load {S : Schema} {a b : J} (h : Shuffled S a b) : ¬ Unnumbered S a → SameLoad S a b := by
  induction h with
  | refl => intro _; exact ⟨fun _ _ _ _ => rfl, fun _ _ _ _ _ _ => rfl, fun _ _ _ _ _ => rfl⟩
  | trans h1 h2 ih1 ih2 =>
    intro hn
    have := ih1 hn
    have := ih2 fun h => hn (shuffled_unnumbered h1 h)
    constructor
    · intro g over own c; rw [(ih1 hn).child, this.child]
    · intro p k e g o c; rw [(ih1 hn).elem p k e, this.elem p k e]
    · intro p k e g ns; rw [(ih1 hn).root p k e, this.root p k e]
  | @entries info kids ms ms' ho hp =>
    intro hn
    have hd : (∀ x ∈ ms, position x.2 ≠ none) ∧ (ms.map fun x => position x.2).Nodup := by
      apply Classical.byContradiction
      exact fun h => hn (.here ho h)
    refine ⟨fun g over own c => ?_, by simp, by simp⟩
    have hko : keyOrder true (nativeFns g true kids ms) = keyOrder true (nativeFns g true kids ms') := by
      simp only [keyOrder, if_true]
      rw [split_perm (xs := nativeFns g true kids ms) (ys := nativeFns g true kids ms')]
      · rw [nFns_map, nFns_map]; exact hp.map _
      · intro x hx
        rw [nFns_map, List.mem_map] at hx
        obtain ⟨m, hm, rfl⟩ := hx
        rw [← position_eq]; exact hd.1 m hm
      · rw [nFns_map, List.map_map]
        have := hd.2
        simp only [position_eq] at this
        exact this
    have hem : ms.isEmpty = ms'.isEmpty := by
      rw [Bool.eq_iff_iff, List.isEmpty_iff, List.isEmpty_iff]
      exact ⟨fun h => List.length_eq_zero_iff.1 (by rw [← hp.length_eq, h]; rfl), fun h => List.length_eq_zero_iff.1 (by rw [hp.length_eq, h]; rfl)⟩
    conv => lhs; unfold nativeChild
    conv => rhs; unfold nativeChild
    simp only [ho, hko, clear_perm (hp.map Prod.fst), hem, jsonSet]
  | @entry info kids pre post key a b hs ih =>
    intro hn
    have ih := ih fun h => hn (.entry (x := (key, a)) (by simp) h)
    have hf : ∀ g, nativeFns g info.ordered kids (pre ++ (key, a) :: post) = nativeFns g info.ordered kids (pre ++ (key, b) :: post) := by
      intro g
      rw [nFns_map, nFns_map]
      have e : (fun c => nativeElem g info.ordered kids c a) = fun c => nativeElem g info.ordered kids c b :=
        funext fun c => ih.elem _ _ rfl g info.ordered c
      simp only [List.map_append, List.map_cons, ← position_eq, shuffled_order hs rfl, e]
    refine ⟨fun g over own c => ?_, by simp, by simp⟩
    conv => lhs; unfold nativeChild
    conv => rhs; unfold nativeChild
    simp [hf, jsonSet]
  | @member pres kids pre post key k a b hk hc hs ih =>
    intro hn
    have ih := ih fun h => hn (.member (x := (key, a)) (by simp) hc h)
    have hm : ∀ g over wrapped ordered pres own n, nativeMembers g over wrapped ordered (.cont pres kids) own n (pre ++ (key, a) :: post) =
        nativeMembers g over wrapped ordered (.cont pres kids) own n (pre ++ (key, b) :: post) :=
      fun g over wrapped ordered pres own n => nMembers_member hc (fun c => ih.child g over _ c) n
    constructor
    · intro g over own c
      conv => lhs; unfold nativeChild
      conv => rhs; unfold nativeChild
      simp only [hm]
    · intro p ks e g o c
      simp only [Schema.cont.injEq] at e
      obtain ⟨rfl, rfl⟩ := e
      unfold nativeElem
      exact hm ..
    · intro p ks e g ns
      simp only [Schema.cont.injEq] at e
      obtain ⟨rfl, rfl⟩ := e
      simp only [nativeLoad, hm]

/-! ## What is written is numbered -/

theorem nKids_sub {ks : List (Meta × Schema)} {ns : List Inst} {ms : List (Str × J)}
    (h : nativeKids ks ns = .ok ms) {x : Str × J} (hx : x ∈ ms) :
    ∃ (i : Nat) (k : Meta × Schema) (n : Inst), ks[i]? = some k ∧ ns[i]? = some n ∧ x.1 = k.1.name ∧ nativeNode k.2 n = .ok (some x.2) := by
  induction ks generalizing ns ms with
  | nil => simp [nativeKids] at h; subst h; simp at hx
  | cons k ks ih =>
    cases ns with
    | nil => simp [nativeKids] at h; subst h; simp at hx
    | cons n ns =>
      simp only [nativeKids] at h
      cases h1 : nativeNode k.2 n with
      | error e => simp [h1] at h
      | ok r =>
        cases h2 : nativeKids ks ns with
        | error e => cases r <;> simp [h1, h2] at h
        | ok ms' =>
          have tl : x ∈ ms' → ∃ (i : Nat) (k' : Meta × Schema) (n' : Inst), (k :: ks)[i]? = some k' ∧ (n :: ns)[i]? = some n' ∧
              x.1 = k'.1.name ∧ nativeNode k'.2 n' = .ok (some x.2) := by
            intro hx
            obtain ⟨i, k', n', a, b, c, d⟩ := ih h2 hx
            exact ⟨i + 1, k', n', by simpa using a, by simpa using b, c, d⟩
          cases r with
          | none => simp [h1, h2] at h; subst h; exact tl hx
          | some j =>
            simp [h1, h2] at h
            subst h
            rcases List.mem_cons.1 hx with rfl | hx
            · exact ⟨0, k, n, rfl, rfl, rfl, h1⟩
            · exact tl hx

theorem childOf_self {kids : List (Meta × Schema)} (h : GoodNames kids) {i : Nat} {k : Meta × Schema} (hk : kids[i]? = some k) :
    childOf kids k.1.name = some k := by
  rcases kidIdx_childOf kids k.1.name with ⟨h1, _⟩ | ⟨j, k', h1, h2, h3⟩
  · rw [kidIdx_self h.2 hk] at h1; simp at h1
  · rw [kidIdx_self h.2 hk] at h1
    simp at h1; subst h1
    rw [hk] at h2; simp at h2; subst h2
    exact h3

theorem nEntries_sub {ordered : Bool} : ∀ {es : List (PyVal × Except Err (List (Str × J)))} {i : Nat} {ms : List (Str × J)},
    nativeEntries ordered i es = .ok ms →
    ∀ (p : Nat) x, ms[p]? = some x → ∃ q ms1, es[p]? = some q ∧ q.2 = .ok ms1 ∧
      x.2 = .obj (if ordered then ms1 ++ [(yangOrder, .num ((i + p : Nat) : Int))] else ms1) := by
  intro es
  induction es with
  | nil => intro i ms h; simp [nativeEntries] at h; subst h; simp
  | cons q es ih =>
    intro i ms h p x hx
    obtain ⟨k, r⟩ := q
    simp only [nativeEntries] at h
    cases h1 : jsonKey k with
    | error e => simp [h1] at h
    | ok s =>
      cases r with
      | error e => simp [h1] at h
      | ok ms1 =>
        cases h2 : nativeEntries ordered (i + 1) es with
        | error e => simp [h1, h2] at h
        | ok rest =>
          simp only [h1, h2, Except.ok.injEq] at h
          subst h
          cases p with
          | zero =>
            simp at hx; subst hx
            exact ⟨_, ms1, rfl, rfl, rfl⟩
          | succ p =>
            obtain ⟨q, ms2, a, b, c⟩ := ih h2 p x (by simpa using hx)
            refine ⟨q, ms2, by simpa using a, b, ?_⟩
            rw [c, show i + 1 + p = i + (p + 1) by omega]

theorem written_numbered {repr : J → Str} : ∀ (S : Schema) (m : Meta) (n : Inst) (j : J), Every (NativeReady repr) m S n →
    nativeNode S n = .ok (some j) → ¬ Unnumbered S j := by
  have kidsCase : ∀ {pres : Bool} {kids : List (Meta × Schema)} {ns : List Inst} {ms tail : List (Str × J)},
      (∀ k ∈ kids, ∀ (m : Meta) (n : Inst) (j : J), Every (NativeReady repr) m k.2 n → nativeNode k.2 n = .ok (some j) → ¬ Unnumbered k.2 j) →
      GoodNames kids → EveryKids (NativeReady repr) kids ns → nativeKids kids ns = .ok ms → (∀ x ∈ tail, ∃ i, x.2 = .num i) →
      ¬ Unnumbered (.cont pres kids) (.obj (ms ++ tail)) := by
    intro pres kids ns ms tail ih hg hev hm ht hu
    rw [everyKids_iff] at hev
    cases hu with
    | @member _ _ _ x k hx hc h =>
      rcases List.mem_append.1 hx with hx | hx
      · obtain ⟨i, k', n, a, b, c, d⟩ := nKids_sub hm hx
        rw [c, childOf_self hg a] at hc
        simp at hc; subst hc
        exact ih k' (List.mem_of_getElem? a) k'.1 n x.2 (hev.2 i k' n a b) d h
      · obtain ⟨i, e⟩ := ht x hx
        rw [e] at h
        generalize k.2 = S at h
        cases h
  intro S
  induction S using Schema.ind with
  | hleaf L => intro m n j _ _ h; cases h
  | hll L => intro m n j _ _ h; cases h
  | hcont pres kids ih =>
    intro m n j h hw
    cases n <;> simp only [Every, NativeReady] at h
    rename_i ch pr ns
    simp only [nativeNode] at hw
    cases hm : nativeKids kids ns with
    | error e => simp [hm] at hw
    | ok ms =>
      simp only [hm, Except.ok.injEq, Option.ite_none_left_eq_some, Option.some.injEq] at hw
      obtain ⟨_, rfl⟩ := hw
      have := kidsCase (pres := pres) (tail := []) (fun k hk m n j => ih k hk m n j) h.1.2.1 h.2 hm (by simp)
      simpa using this
  | hlist info kids ih =>
    intro m n j h hw
    cases n <;> simp only [Every, NativeReady] at h
    rename_i ch es
    obtain ⟨⟨hg, _, hord, _⟩, hev⟩ := h
    simp only [nativeNode] at hw
    split at hw
    · simp at hw
    · cases hm : nativeEntries info.ordered 0 (es.map fun q => (q.1, nativeKids kids q.2.kids)) with
      | error e => simp [hm, Except.map] at hw
      | ok ms =>
        simp only [hm, Except.map, Except.ok.injEq, Option.some.injEq] at hw
        subst hw
        have hsub : ∀ (p : Nat) x, ms[p]? = some x → ∃ q ms1, es[p]? = some q ∧ nativeKids kids q.2.kids = .ok ms1 ∧
            x.2 = .obj (if info.ordered then ms1 ++ [(yangOrder, .num (p : Int))] else ms1) := by
          intro p x hx
          obtain ⟨q, ms1, a, b, c⟩ := nEntries_sub hm p x hx
          rw [List.getElem?_map, Option.map_eq_some_iff] at a
          obtain ⟨q', a, rfl⟩ := a
          exact ⟨q', ms1, a, b, by simpa using c⟩
        intro hu
        cases hu with
        | here ho hu =>
          have hpos : ∀ (p : Nat) x, ms[p]? = some x → position x.2 = some (p : Int) := by
            intro p x hx
            obtain ⟨q, ms1, a, b, c⟩ := hsub p x hx
            rw [c, position_eq, if_pos ho]
            exact orderOf_written b (hord ho) p
          apply hu
          constructor
          · intro x hx
            obtain ⟨p, hp⟩ := List.getElem?_of_mem hx
            rw [hpos p x hp]; simp
          · have e : (ms.map fun x => position x.2) = (List.range ms.length).map fun p : Nat => some (p : Int) := by
              apply List.ext_getElem?
              intro p
              rw [List.getElem?_map, List.getElem?_map]
              by_cases hp : p < ms.length
              · rw [List.getElem?_range hp, List.getElem?_eq_getElem hp]
                simp only [Option.map_some]
                rw [hpos p _ (List.getElem?_eq_getElem hp)]
              · rw [List.getElem?_eq_none (by omega), List.getElem?_eq_none (by simp; omega)]
                rfl
            rw [e]
            unfold List.Nodup
            rw [List.pairwise_map]
            refine List.nodup_range.imp ?_
            intro a b hab h
            simp at h
            omega
        | entry hx hu =>
          obtain ⟨p, hp⟩ := List.getElem?_of_mem hx
          obtain ⟨q, ms1, a, b, c⟩ := hsub p _ hp
          have hd : (if info.ordered then ms1 ++ [(yangOrder, J.num (p : Int))] else ms1) =
              ms1 ++ if info.ordered then [(yangOrder, J.num (p : Int))] else [] := by
            cases info.ordered <;> simp
          rw [c, hd] at hu
          refine kidsCase (fun k hk m n j => ih k hk m n j) hg (hev q (List.mem_of_getElem? a)) b ?_ hu
          intro x hx
          cases ho : info.ordered <;> simp [ho] at hx
          subst hx
          exact ⟨_, rfl⟩

end Pyb
