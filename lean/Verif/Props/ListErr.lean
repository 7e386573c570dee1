import Verif.Spec.ListErr
import Verif.Props.YList
import Verif.Props.Restricted

/-! # What lists refuse, and how: C84 -/

namespace Pyb
open Py Spec

variable {E : Type}

/-! ## The parts -/

theorem hashable_iff {k : PyVal} : hashable k = true ↔ ¬ Unhashable k := by
  cases k with
  | obj o => cases o <;> simp [hashable, Unhashable]
  | _ => simp [hashable, Unhashable]

theorem keyParts_of_writes {n : Nat} {k : PyVal} {raws : List PyVal} (h : Writes n k raws) :
    keyParts n k = .ok raws := by
  rcases h with ⟨rfl, h1, rfl⟩ | ⟨hn, words, h1, h2, h3, rfl, rfl⟩
  · simp [keyParts, h1]
  · simp [keyParts, hn, splitOn_join ' ' words h1 h3, h2]

theorem writes_of_keyParts {n : Nat} {k : PyVal} {raws : List PyVal} (h : keyParts n k = .ok raws) :
    Writes n k raws := by
  obtain ⟨hl, h⟩ := keyParts_ok h
  rcases h with ⟨h1, h2, h3⟩ | ⟨h1, s, h2, h3⟩
  · exact .inl ⟨h1, h3, h2⟩
  · refine .inr ⟨h1, splitOn ' ' s, splitOn_ne_nil ' ' s, ?_, not_mem_of_mem_splitOn ' ' s, ?_, h3⟩
    · rw [h3] at hl; simpa using hl
    · rw [h2]; congr 1; exact (join_splitOn ' ' s).symm

theorem keyParts_error {n : Nat} {k : PyVal} {x : Err} (h : keyParts n k = .error x) :
    (NotText n k ∧ x = .attributeError) ∨ (¬ NotText n k ∧ x = .keyError) := by
  unfold keyParts at h
  by_cases hn : n = 1
  · simp only [hn, if_true] at h
    by_cases hk : k = .str []
    · simp only [hk, if_true, Except.error.injEq] at h
      exact .inr ⟨fun c => c.1 hn, h.symm⟩
    · simp [hk] at h
  · simp only [hn, if_false] at h
    cases k with
    | str s =>
      simp only [List.length_map] at h
      by_cases hl : (splitOn ' ' s).length = n
      · simp [hl] at h
      · simp only [hl, if_false, Except.error.injEq] at h
        exact .inr ⟨fun c => c.2 s rfl, h.symm⟩
    | _ => simp only [Except.error.injEq] at h; exact .inl ⟨⟨hn, by simp⟩, h.symm⟩

theorem taken_cons {conv : Nat → PyVal → Except Err PyVal} {r : PyVal} {rs : List PyVal} :
    Taken conv (r :: rs) ↔ (∃ w, conv 0 r = .ok w) ∧ Taken (fun i => conv (i + 1)) rs := by
  constructor
  · intro h
    refine ⟨h 0 (by simp), fun i hi => ?_⟩
    have := h (i + 1) (by simpa using hi)
    simpa using this
  · rintro ⟨h1, h2⟩ i hi
    cases i with
    | zero => simpa using h1
    | succ i => simpa using h2 i (by simpa using hi)

theorem setKeys_outcome {C : EntryCls E} {conv : Nat → PyVal → Except Err PyVal} (X : ExactKeys C conv) :
    ∀ (rs : List PyVal) (i : Nat) (e : E),
      (Taken (fun j => conv (i + j)) rs → ∃ e', setKeys C i rs e = .ok e') ∧
      (¬ Taken (fun j => conv (i + j)) rs → setKeys C i rs e = .error .valueError) := by
  intro rs
  induction rs with
  | nil => intro i e; exact ⟨fun _ => ⟨e, rfl⟩, fun h => absurd (fun j hj => absurd hj (by simp)) h⟩
  | cons r rs ih =>
    intro i e
    have hshift : (fun j => conv (i + (j + 1))) = fun j => conv (i + 1 + j) := by
      funext j; congr 1; omega
    rw [taken_cons, Nat.add_zero, hshift]
    simp only [setKeys, bind, Except.bind]
    cases hc : conv i r with
    | ok w =>
      obtain ⟨e', he⟩ := X.accepts e i r w hc
      simp only [he]
      obtain ⟨h1, h2⟩ := ih (i + 1) e'
      refine ⟨fun h => h1 h.2, fun h => h2 fun c => h ⟨⟨w, rfl⟩, c⟩⟩
    | error x =>
      rw [X.refuses e i r x hc]
      exact ⟨fun ⟨⟨w, h⟩, _⟩ => (by cases h), fun _ => rfl⟩

theorem setKeys_taken {C : EntryCls E} {conv : Nat → PyVal → Except Err PyVal} (X : ExactKeys C conv)
    (rs : List PyVal) (e : E) :
    (Taken conv rs → ∃ e', setKeys C 0 rs e = .ok e') ∧
    (¬ Taken conv rs → setKeys C 0 rs e = .error .valueError) := by
  have := setKeys_outcome X rs 0 e
  simpa only [Nat.zero_add] using this

theorem not_none_hashable {k : PyVal} (h : k = .none) : hashable k = true := by subst h; rfl

/-- Item assignment below the first two checks. -/
theorem ylSetPos_outcome {C : EntryCls E} {conv : Nat → PyVal → Except Err PyVal} (X : ExactKeys C conv)
    (n : Nat) (ms : Members E) (k : PyVal) (v : Option E) (h1 : k ≠ .none) (h2 : ¬ Unhashable k) :
    (NotText n k → ylSetPos C n ms k v = .error .attributeError) ∧
    (¬ NotText n k → (∀ raws, Writes n k raws → ¬ Taken conv raws) → ylSetPos C n ms k v = .error .keyError) ∧
    (∀ raws e, Writes n k raws → startEntry C (v.isSome || mem ms k) v = .ok e → Taken conv raws →
      ∃ ms', ylSetPos C n ms k v = .ok ms') ∧
    (¬ NotText n k → ∀ x, startEntry C (v.isSome || mem ms k) v = .error x → ylSetPos C n ms k v = .error .keyError) := by
  have h2' := hashable_iff.2 h2
  have hstart : ∀ x, startEntry C (v.isSome || mem ms k) v = .error x → x = .valueError := by
    intro x hx
    cases hb : (v.isSome || mem ms k) with
    | false => simp [hb, startEntry] at hx
    | true =>
      rw [hb] at hx
      cases v with
      | none => simpa [startEntry] using hx.symm
      | some v => exact X.copies v x hx
  simp only [ylSetPos, h1, if_false, h2', Bool.not_true, Bool.false_eq_true]
  cases hk : keyParts n k with
  | error x =>
    simp only [bind, Except.bind]
    rcases keyParts_error hk with ⟨h3, rfl⟩ | ⟨h3, rfl⟩
    · exact ⟨fun _ => rfl, fun c => absurd h3 c, fun raws e hw => (by rw [keyParts_of_writes hw] at hk; cases hk),
        fun c => absurd h3 c⟩
    · exact ⟨fun c => absurd c h3, fun _ _ => rfl, fun raws e hw => (by rw [keyParts_of_writes hw] at hk; cases hk),
        fun _ _ _ => rfl⟩
  | ok raws =>
    have hw := writes_of_keyParts hk
    have hnt : ¬ NotText n k := by
      rintro ⟨c1, c2⟩
      rcases hw with ⟨d, _⟩ | ⟨_, words, _, _, _, d, _⟩
      · exact c1 d
      · exact c2 _ d
    simp only [bind, Except.bind, mkEntry]
    refine ⟨fun c => absurd c hnt, fun _ ht => ?_, fun raws' e' hw' he ht => ?_, fun _ x hx => ?_⟩
    · cases hs : startEntry C (v.isSome || mem ms k) v with
      | error x => rw [hstart x hs]; rfl
      | ok e => simp only [(setKeys_taken X raws e).2 (ht raws hw)]; rfl
    · have : raws' = raws := by
        have := keyParts_of_writes hw'
        rw [hk] at this; simpa using this.symm
      subst this
      obtain ⟨e'', he''⟩ := (setKeys_taken X raws' e').1 ht
      simp only [he, he'']
      exact ⟨_, rfl⟩
    · rw [hx, hstart x hx]; rfl

/-! ## C84 -/

/-- C84, `add(k)`: a list, set or dict as a key raises `TypeError`; a key that is there
already, or `None`, raises `KeyError`; with several keys anything but a text raises
`AttributeError`; a key that does not write its values, or writes one its key leaf does
not take, raises `KeyError`; any other is added. -/
theorem C84_add (C : EntryCls E) (conv : Nat → PyVal → Except Err PyVal) (X : ExactKeys C conv)
    (n : Nat) (ms : Members E) (k : PyVal) :
    (Unhashable k → ylStep C n ms (.add k) = .error .typeError) ∧
    (¬ Unhashable k → Present ms k ∨ k = .none → ylStep C n ms (.add k) = .error .keyError) ∧
    (¬ Unhashable k → ¬ Present ms k → k ≠ .none → NotText n k → ylStep C n ms (.add k) = .error .attributeError) ∧
    (¬ Unhashable k → ¬ NotText n k → (∀ raws, Writes n k raws → ¬ Taken conv raws) →
      ylStep C n ms (.add k) = .error .keyError) ∧
    (∀ raws, ¬ Unhashable k → ¬ Present ms k → k ≠ .none → Writes n k raws → Taken conv raws →
      ∃ e, ylStep C n ms (.add k) = .ok (ms ++ [(k, e)])) := by
  have hP : Present ms k ↔ mem ms k = true := mem_true.symm
  have hno : ¬ Present ms k → mem ms k = false := fun h => by
    cases hm : mem ms k with
    | false => rfl
    | true => exact absurd (hP.2 hm) h
  refine ⟨?_, ?_, ?_, ?_, ?_⟩
  · intro h
    have : hashable k = false := by
      cases hh : hashable k with
      | false => rfl
      | true => exact absurd h (hashable_iff.1 hh)
    simp [ylStep, ylAdd, this]
  · rintro h (c | c)
    · simp [ylStep, ylAdd, hashable_iff.2 h, hP.1 c]
    · subst c; simp [ylStep, ylAdd, hashable]
  · intro h1 h2 h3 h4
    simp only [ylStep, ylAdd, hashable_iff.2 h1, Bool.not_true, Bool.false_eq_true, if_false, hno h2, h3]
    exact (ylSetPos_outcome X n ms k none h3 h1).1 h4
  · intro h1 h2 h3
    simp only [ylStep, ylAdd, hashable_iff.2 h1, Bool.not_true, Bool.false_eq_true, if_false]
    by_cases c1 : mem ms k = true
    · simp [c1]
    · by_cases c2 : k = .none
      · simp [c2]
      · simp only [c1, c2, if_false]
        exact (ylSetPos_outcome X n ms k none c2 h1).2.1 h2 h3
  · intro raws h1 h2 h3 h4 h5
    obtain ⟨ms', h⟩ := (ylSetPos_outcome X n ms k none h3 h1).2.2.1 raws C.fresh h4
      (by simp [hno h2, startEntry]) h5
    have h' : ylStep C n ms (.add k) = .ok ms' := by
      simp only [ylStep, ylAdd, hashable_iff.2 h1, Bool.not_true, Bool.false_eq_true, if_false, hno h2, h3]
      exact h
    obtain ⟨_, e, he⟩ := (C23_add C n ms k (hashable_iff.2 h1)).2 ms' h'
    exact ⟨e, by rw [h', he]⟩

/-- C84, `add` by keywords: a missing keyword raises `AttributeError`; a key that is there
already, or a value its key leaf does not take, raises `KeyError`; any other is added. -/
theorem C84_add_named (C : EntryCls E) (conv : Nat → PyVal → Except Err PyVal) (X : ExactKeys C conv)
    (n : Nat) (ms : Members E) :
    (∀ raws : List (Option PyVal), raws.length = n → none ∈ raws →
      ylStep C n ms (.addNamed raws none) = .error .attributeError) ∧
    (∀ raws : List PyVal, raws.length = n → Present ms (.str (join py!" " (raws.map PyVal.toStr))) ∨ ¬ Taken conv raws →
      ylStep C n ms (.addNamed (raws.map some) none) = .error .keyError) ∧
    (∀ raws : List PyVal, raws.length = n → ¬ Present ms (.str (join py!" " (raws.map PyVal.toStr))) → Taken conv raws →
      ∃ e, ylStep C n ms (.addNamed (raws.map some) none)
        = .ok (ms ++ [(.str (join py!" " (raws.map PyVal.toStr)), e)])) := by
  have hg : ∀ raws : List PyVal, allGiven (raws.map some) = .ok raws := fun raws => allGiven_ok.2 rfl
  refine ⟨?_, ?_, ?_⟩
  · intro raws hl hm
    have : allGiven raws = .error .attributeError := by
      clear hl
      induction raws with
      | nil => cases hm
      | cons r raws ih =>
        cases r with
        | none => rfl
        | some r =>
          simp only [List.mem_cons, reduceCtorEq, false_or] at hm
          simp [allGiven, ih hm, Except.map]
    simp [ylStep, hl, ylAddNamed, this, bind, Except.bind]
  · intro raws hl h
    simp only [ylStep, List.length_map, hl, if_true, ylAddNamed, hg, bind, Except.bind]
    by_cases c : mem ms (namedKey raws) = true
    · simp [c]
    · simp only [c]
      have ht : ¬ Taken conv raws := by
        rcases h with h | h
        · exact absurd (mem_true.2 h) c
        · exact h
      simp only [mkEntry, startEntry, bind, Except.bind, Option.isSome_none, (setKeys_taken X raws C.fresh).2 ht]
      rfl
  · intro raws hl h ht
    have hm : mem ms (namedKey raws) = false := by
      cases hm : mem ms (namedKey raws) with
      | false => rfl
      | true => exact absurd (mem_true.1 hm) h
    obtain ⟨e, he⟩ := (setKeys_taken X raws C.fresh).1 ht
    refine ⟨e, ?_⟩
    simp only [ylStep, List.length_map, hl, if_true, ylAddNamed, hg, bind, Except.bind, hm]
    simp only [mkEntry, startEntry, bind, Except.bind, Option.isSome_none, he, asKeyError, Bool.false_eq_true, if_false,
      pure, Except.pure, store_new hm]
    rfl

/-- C84, item assignment: `None` raises `IndexError` and a list, set or dict as a key
`TypeError`; with several keys anything but a text raises `AttributeError`; a key that
does not write its values, or writes one its key leaf does not take, raises `KeyError`;
so does assigning `None` under a key that is there. -/
theorem C84_setitem (C : EntryCls E) (conv : Nat → PyVal → Except Err PyVal) (X : ExactKeys C conv)
    (n : Nat) (ms : Members E) (k : PyVal) (v : Option E) :
    (k = .none → ylStep C n ms (.setitem k v) = .error .indexError) ∧
    (Unhashable k → ylStep C n ms (.setitem k v) = .error .typeError) ∧
    (k ≠ .none → ¬ Unhashable k → NotText n k → ylStep C n ms (.setitem k v) = .error .attributeError) ∧
    (k ≠ .none → ¬ Unhashable k → ¬ NotText n k →
      (∀ raws, Writes n k raws → ¬ Taken conv raws) ∨ (v = none ∧ Present ms k) →
      ylStep C n ms (.setitem k v) = .error .keyError) ∧
    (∀ raws e, k ≠ .none → ¬ Unhashable k → Writes n k raws → Taken conv raws → v = some e →
      (∃ e', C.copy e = .ok e') → ∃ ms', ylStep C n ms (.setitem k v) = .ok ms') := by
  refine ⟨?_, ?_, ?_, ?_, ?_⟩
  · rintro rfl; simp [ylStep, ylSetPos]
  · rintro (⟨r, l, rfl⟩ | ⟨ns, rfl⟩) <;> simp [ylStep, ylSetPos, hashable]
  · intro h1 h2 h3
    exact (ylSetPos_outcome X n ms k v h1 h2).1 h3
  · rintro h1 h2 h3 (h4 | ⟨rfl, h4⟩)
    · exact (ylSetPos_outcome X n ms k v h1 h2).2.1 h3 h4
    · refine (ylSetPos_outcome X n ms k none h1 h2).2.2.2 h3 .valueError ?_
      simp [mem_true.2 h4, startEntry]
  · rintro raws e h1 h2 h3 h4 rfl ⟨e', h5⟩
    exact (ylSetPos_outcome X n ms k (some e) h1 h2).2.2.1 raws e' h3 (by simpa [startEntry] using h5) h4

/-- C84, `delete(k)`: a list, set or dict as a key raises `TypeError`. -/
theorem C84_delete (C : EntryCls E) (n : Nat) (ms : Members E) (k : PyVal) :
    (Unhashable k → ylStep C n ms (.delete k) = .error .typeError) ∧
    (¬ Unhashable k → ¬ Present ms k → ylStep C n ms (.delete k) = .error .keyError) ∧
    (¬ Unhashable k → Present ms k → ∃ ms', ylStep C n ms (.delete k) = .ok ms' ∧ ms'.length + 1 = ms.length) := by
  refine ⟨?_, fun h1 h2 => ?_, fun h1 h2 => ?_⟩
  · rintro (⟨r, l, rfl⟩ | ⟨ns, rfl⟩) <;> simp [ylStep, ylDelete, hashable]
  · refine (C23_delete C n ms k (hashable_iff.2 h1)).1 fun p hp => ?_
    cases hq : pyEq p.1 k with
    | false => rfl
    | true => exact absurd ⟨p, hp, hq⟩ h2
  · obtain ⟨l, p, r, e1, _, e3⟩ := (C23_delete C n ms k (hashable_iff.2 h1)).2 h2
    exact ⟨l ++ r, e3, by rw [e1]; simp; omega⟩

/-! The hypotheses are met by a list whose first key is a `uint8` and whose other keys
are strings. -/

theorem objInt_error {o : PyObj} {e : Err} (h : o.toInt = .error e) : e = .valueError ∨ e = .typeError := by
  cases o with
  | dec x => cases h
  | float f r => cases h
  | bytes b => exact .inl (intOfStr_error h)
  | bits ns => cases h; exact .inr rfl

/-- Only `ValueError` and `TypeError` are raised. -/
def VT {α : Type} (r : Except Err α) : Prop := ∀ e, r = .error e → e = .valueError ∨ e = .typeError

theorem VT.ok {α : Type} (a : α) : VT (.ok a : Except Err α) := by intro e h; cases h
theorem VT.value {α : Type} : VT (.error .valueError : Except Err α) := by intro e h; cases h; exact .inl rfl
theorem VT.type {α : Type} : VT (.error .typeError : Except Err α) := by intro e h; cases h; exact .inr rfl

theorem VT.bind {α β : Type} {r : Except Err α} {f : α → Except Err β} (h : VT r) (hf : ∀ a, r = .ok a → VT (f a)) : VT (r >>= f) := by
  cases r with
  | error e => intro e' h'; cases h'; exact h e rfl
  | ok a => exact hf a rfl

theorem VT.map {α β : Type} {r : Except Err α} {f : α → β} (h : VT r) : VT (r.map f) := by
  cases r with
  | error e => intro e' h'; cases h'; exact h e rfl
  | ok a => exact VT.ok _

theorem vt_toInt (o : PyObj) : VT (PyVal.obj o).toInt := fun _ h => objInt_error h

theorem vt_lt (a b : PyVal) : VT (a.lt b) := by
  unfold PyVal.lt
  split
  · exact VT.ok _
  · exact VT.type

theorem vt_range (v : PyVal) : VT (rangeCheck [.pair (some (.int 0)) (some (.int 255))] v) := by
  simp only [rangeCheck, List.mapM_cons, List.mapM_nil, Chk.run]
  refine VT.bind (VT.bind (VT.bind (vt_lt _ _) fun _ _ => VT.bind (vt_lt _ _) fun _ _ => VT.ok _) fun _ _ => VT.ok _) fun _ _ => VT.ok _

theorem uint8_refuses_obj (rx : Str → Str → Bool) (o : PyObj) (x : Err) (h : setLeaf rx IntTy.uint8.rty (.obj o) = .error x) :
    x = .valueError := by
  have hr : IntTy.uint8.rty = .restr (.base .int) [.range [py!"0..255"]] := rfl
  have hm : [py!"0..255"].mapM (buildChk fun v => (((RTy.base BaseTy.int).cls rx).call (some v))) =
      .ok [.pair (some (.int 0)) (some (.int 255))] := rfl
  have hconv : VT (BaseTy.conv .int (.obj o)) := VT.map (vt_toInt o)
  have hnone : ((RTy.restr (.base .int) [.range [py!"0..255"]]).cls rx).new none =
      .ok (.int 0, some [.range [.pair (some (.int 0)) (some (.int 255))]]) := rfl
  have hnew : VT (((RTy.restr (.base .int) [.range [py!"0..255"]]).cls rx).new (some (.obj o))) ∧
      ∀ r, ((RTy.restr (.base .int) [.range [py!"0..255"]]).cls rx).new (some (.obj o)) = .ok r →
        r.2 = some [.range [.pair (some (.int 0)) (some (.int 255))]] := by
    simp only [RTy.cls] at hm ⊢
    have hb : VT (buildTests (fun v => BaseTy.conv .int v) [.range [py!"0..255"]] (.obj o)) ∧
        ∀ r, buildTests (fun v => BaseTy.conv .int v) [.range [py!"0..255"]] (.obj o) = .ok r →
          r.1 = [.range [.pair (some (.int 0)) (some (.int 255))]] := by
      simp only [buildTests, hm, bind, Except.bind, pure, Except.pure]
      cases (PyVal.obj o).truthy with
      | false => exact ⟨VT.ok _, fun r hr => by cases hr; rfl⟩
      | true =>
        cases BaseTy.conv .int (.obj o) with
        | ok v => exact ⟨VT.ok _, fun r hr => by cases hr; rfl⟩
        | error e => exact ⟨VT.type, fun r hr => by cases hr⟩
    simp only [Option.getD_some]
    generalize buildTests (fun v => BaseTy.conv .int v) [.range [py!"0..255"]] (.obj o) = bt at hb ⊢
    cases bt with
    | error e => exact ⟨fun e' h' => by cases h'; exact hb.1 e rfl, fun r hr => by cases hr⟩
    | ok x =>
      obtain ⟨ts, val⟩ := x
      have ht : ts = [.range [.pair (some (.int 0)) (some (.int 255))]] := hb.2 _ rfl
      subst ht
      have hany : VT (anyOf rx [.range [.pair (some (.int 0)) (some (.int 255))]] val) := vt_range val
      have hc3 : (∃ v, BaseTy.conv .int (.obj o) = .ok v) ∨ BaseTy.conv .int (.obj o) = .error .valueError ∨
          BaseTy.conv .int (.obj o) = .error .typeError := by
        cases hc : BaseTy.conv .int (.obj o) with
        | ok v => exact .inl ⟨v, rfl⟩
        | error e => rcases hconv e hc with rfl | rfl <;> simp
      generalize BaseTy.conv .int (.obj o) = cv at hc3 ⊢
      by_cases hv : val = .bool false
      · subst hv
        rcases hc3 with ⟨v, rfl⟩ | rfl | rfl
        · exact ⟨VT.ok _, fun r hr => by cases hr; rfl⟩
        · exact ⟨VT.value, fun r hr => by cases hr⟩
        · exact ⟨VT.ok _, fun r hr => by cases hr; rfl⟩
      · simp only [bind, Except.bind, ne_eq, hv, not_false_eq_true, if_true]
        generalize anyOf rx [.range [.pair (some (.int 0)) (some (.int 255))]] val = an at hany ⊢
        cases an with
        | error e => exact ⟨fun e' h' => by cases h'; exact hany e rfl, fun r hr => by cases hr⟩
        | ok b =>
          cases b with
          | true =>
            rcases hc3 with ⟨v, rfl⟩ | rfl | rfl
            · exact ⟨VT.ok _, fun r hr => by cases hr; rfl⟩
            · exact ⟨VT.value, fun r hr => by cases hr⟩
            · exact ⟨VT.ok _, fun r hr => by cases hr; rfl⟩
          | false => exact ⟨VT.value, fun r hr => by cases hr⟩
  have hinit : ∀ r : PyVal × Option (List Test), r.2 = some [.range [.pair (some (.int 0)) (some (.int 255))]] →
      VT ((RTy.restr (.base .int) [.range [py!"0..255"]]).init rx r.2 (some (.obj o)) : Except Err Unit) := by
    intro r hr
    rw [hr]
    simp only [RTy.init, initCheck, RTy.cls, Option.getD_some, allOf, Test.run]
    refine VT.bind hconv fun _ _ => VT.bind (vt_range _) fun b _ => ?_
    cases b
    · exact VT.value
    · exact VT.ok _
  have hdyn : VT (dynLeaf rx (.restr (.base .int) [.range [py!"0..255"]]) (.obj o)) := by
    unfold dynLeaf
    obtain ⟨h1, h2⟩ := hnew
    generalize ((RTy.restr (.base .int) [.range [py!"0..255"]]).cls rx).new (some (.obj o)) = nw at h1 h2 ⊢
    have hfin : ∀ r : PyVal × Option (List Test), r.2 = some [.range [.pair (some (.int 0)) (some (.int 255))]] →
        VT (match (RTy.restr (.base .int) [.range [py!"0..255"]]).init rx r.2 (some (.obj o)) with
          | .ok () => pure r.1
          | .error .typeError => pure r.1
          | .error e => .error e) := by
      intro r hr
      have h3 := hinit r hr
      generalize (RTy.restr (.base .int) [.range [py!"0..255"]]).init rx r.2 (some (.obj o)) = i at h3 ⊢
      cases i with
      | ok u => exact VT.ok _
      | error e => rcases h3 e rfl with rfl | rfl
                   · exact VT.value
                   · exact VT.ok _
    cases nw with
    | ok r => exact hfin r (h2 r rfl)
    | error e =>
      rcases h1 e rfl with rfl | rfl
      · exact VT.value
      · simp only [hnone]; exact hfin _ rfl
  rw [hr] at h
  unfold setLeaf at h
  generalize dynLeaf rx (.restr (.base .int) [.range [py!"0..255"]]) (.obj o) = dl at h hdyn
  cases dl with
  | ok v => cases h
  | error e => rcases hdyn e rfl with rfl | rfl <;> (cases h; rfl)

/-- `uint8` leaves refuse values with `ValueError`. -/
theorem uint8_refuses (rx : Str → Str → Bool) (v : PyVal) (x : Err) (h : setLeaf rx IntTy.uint8.rty v = .error x) :
    x = .valueError := by
  have key : ∀ n, Denotes v n → x = .valueError := by
    intro n hn
    rw [C09_builtin_int_exact rx .uint8 0 255 rfl v n hn] at h
    split at h <;> simp_all
  cases v with
  | none => rw [show setLeaf rx IntTy.uint8.rty .none = .ok (.int 0) from rfl] at h; cases h
  | bool b =>
    cases b with
    | false => rw [show setLeaf rx IntTy.uint8.rty (.bool false) = .ok (.int 0) from rfl] at h; cases h
    | true => rw [show setLeaf rx IntTy.uint8.rty (.bool true) = .ok (.int 1) from rfl] at h; cases h
  | int n => exact key n (.inl rfl)
  | str s =>
    cases hs : intOfStr s with
    | ok n => exact key n (.inr ⟨s, rfl, hs⟩)
    | error e =>
      cases intOfStr_error hs
      by_cases hne : s = []
      · subst hne
        rw [show setLeaf rx IntTy.uint8.rty (.str []) = .error .valueError from rfl] at h
        cases h; rfl
      · rw [builtin_tower, single_tower_str_error rx _ (builtin_legal .uint8) s hne hs] at h
        cases h; rfl
  | seq r l =>
    cases l with
    | zero => rw [show setLeaf rx IntTy.uint8.rty (.seq r 0) = .ok (.int 0) from rfl] at h; cases h
    | succ l => rw [show setLeaf rx IntTy.uint8.rty (.seq r (l + 1)) = .ok (.int 0) from rfl] at h; cases h
  | obj o => exact uint8_refuses_obj rx o x h

/-- Entries with such key leaves and a payload. -/
def errCls (rx : Str → Str → Bool) : EntryCls ((Nat → PyVal) × Nat) where
  fresh := (fun _ => .str [], 0)
  copy e := .ok e
  setKey e i v := (setLeaf rx (if i = 0 then IntTy.uint8.rty else strT) v).map fun w =>
    (fun j => if j = i then w else e.1 j, e.2)
  getKey e i := e.1 i

def errConv (rx : Str → Str → Bool) (i : Nat) (v : PyVal) : Except Err PyVal :=
  setLeaf rx (if i = 0 then IntTy.uint8.rty else strT) v

theorem errCls_exact (rx : Str → Str → Bool) : ExactKeys (errCls rx) (errConv rx) where
  accepts := by
    intro e i v w h
    simp only [errConv] at h
    simp only [errCls, h, Except.map]
    exact ⟨_, rfl⟩
  refuses := by
    intro e i v x h
    simp only [errConv] at h
    simp only [errCls, h, Except.map]
    by_cases hi : i = 0
    · rw [if_pos hi] at h
      rw [uint8_refuses rx v x h]
    · rw [if_neg hi] at h
      rw [show setLeaf rx strT v = .ok (.str v.toStr) from by cases v <;> rfl] at h
      cases h
  copies := by intro e x h; cases h

/-- Keys of each kind. -/
example : let C := errCls yes
    let ms := ylRun C 2 [] [.add (.str py!"1 x")]
    ylStep C 2 ms (.add (.seq py!"[1]" 1)) = .error .typeError ∧
    ylStep C 2 ms (.add (.str py!"1 x")) = .error .keyError ∧
    ylStep C 2 ms (.add (.int 1)) = .error .attributeError ∧
    ylStep C 2 ms (.add (.str py!"2")) = .error .keyError ∧
    ylStep C 2 ms (.add (.str py!"300 x")) = .error .keyError ∧
    ylStep C 2 ms (.addNamed [some (.int 1), none] none) = .error .attributeError ∧
    ylStep C 2 ms (.addNamed [some (.int 300), some (.str py!"y")] none) = .error .keyError ∧
    ylStep C 2 ms (.setitem .none none) = .error .indexError ∧
    ylStep C 2 ms (.setitem (.str py!"1 x") none) = .error .keyError := by
  refine ⟨rfl, rfl, rfl, rfl, rfl, rfl, rfl, rfl, rfl⟩

end Pyb
