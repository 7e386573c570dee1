import Verif.Model.LeafCls
import Verif.Props.Tree
import Verif.Props.Scalar

/-! # The tree's leaves are the leaves of the type models -/

namespace Pyb
open Py Spec

/-- The leaf class made of a restricted type accepts and rejects what `setLeaf` does. -/
theorem build_setLeaf (rx : Str → Str → Bool) (T : RTy) (v : PyVal) : (T.build rx v).toExcept = setLeaf rx T v := by
  have h : ∀ p : PyVal × Option (List Test),
      (match T.init rx p.2 (some v) with
        | .ok () => LeafRes.ok p.1
        | .error .typeError => .ok p.1
        | .error e => .marked e).toExcept =
      (match (match T.init rx p.2 (some v) with
        | .ok () => pure p.1
        | .error .typeError => pure p.1
        | .error e => .error e : Except Err PyVal) with
      | .error .typeError => .error .valueError
      | r => r) := by
    intro p
    cases T.init rx p.2 (some v) with
    | ok u => rfl
    | error e => cases e <;> rfl
  unfold RTy.build setLeaf dynLeaf
  cases hn : (T.cls rx).new (some v) with
  | ok p => exact h p
  | error e =>
    cases e with
    | typeError =>
      cases hn' : (T.cls rx).new none with
      | ok p => exact h p
      | error e => cases e <;> rfl
    | _ => rfl

theorem ext_dyn_type (x : ExtTy) (v : PyVal) : x.dyn v ≠ .error .typeError := by
  unfold ExtTy.dyn
  intro h
  cases hc : x.call v with
  | ok w => rw [hc] at h; cases h
  | error e => rw [hc] at h; cases e <;> cases h

/-- What assigning to such a leaf comes to. -/
theorem build_ext (x : ExtTy) (v : PyVal) : (x.build v).toExcept = x.dyn v := by
  unfold ExtTy.build
  have hd := ext_dyn_type x v
  generalize x.dyn v = r at hd ⊢
  cases r with
  | ok w => cases x <;> rfl
  | error e =>
    cases x <;> cases e <;> first | rfl | exact absurd rfl hd

theorem build_setUnion (rx : Str → Str → Bool) (ts : List LeafTy) (v : PyVal) :
    (unionBuild rx ts v).toExcept = setUnion rx ts v := by
  unfold unionBuild setUnion
  cases ts.find? (fun t => (t.call rx v).toBool) with
  | none => rfl
  | some t =>
    cases t with
    | restr T => exact build_setLeaf rx T v
    | ext x =>
      simp only [LeafTy.build, LeafTy.dyn, build_ext]
      have hd := ext_dyn_type x v
      generalize x.dyn v = r at hd ⊢
      cases r with
      | ok w => rfl
      | error e => cases e <;> first | rfl | exact absurd rfl hd
    | bool =>
      simp only [LeafTy.build, LeafTy.dyn]
      cases yangBool v with
      | ok b => rfl
      | error e => cases e <;> rfl

theorem toExcept_ok_iff {r : LeafRes} {w : PyVal} : r.toExcept = .ok w ↔ r = .ok w := by
  cases r <;> simp [LeafRes.toExcept]

/-- What assigning to a leaf of the given type comes to, as in C07-C20. -/
def setT (rx : Str → Str → Bool) : LeafT → PyVal → Except Err PyVal
  | .one (.restr T), v => setLeaf rx T v
  | .one .bool, v => (setBool v).map .bool
  | .one (.ext x), v => x.dyn v
  | .union ts, v => setUnion rx ts v

theorem build_setT (rx : Str → Str → Bool) (t : LeafT) (v : PyVal) : (t.build rx v).toExcept = setT rx t v := by
  cases t with
  | union ts => exact build_setUnion rx ts v
  | one t =>
    cases t with
    | restr T => exact build_setLeaf rx T v
    | ext x => exact build_ext x v
    | bool =>
      simp only [LeafT.build, LeafTy.build, setT, setBool]
      cases yangBool v with
      | ok b => rfl
      | error e => cases e <;> rfl

/-- **C34.**  With the types of C07-C20: assigning `v` to a leaf succeeds only if its
type takes `v`, and reading the leaf gives the value the type made of it.  Missing: as
in `C34_set_get_partial`. -/
theorem C34_typed_partial (rx : Str → Str → Bool) (kids : List (Meta × Schema)) (hf : ApartRoot kids) (ns ns' : List Inst) (p : Path)
    (t : LeafT) (d : Option PyVal) (v : PyVal) (load : Bool) (hS : clsAt kids p = some (.leaf (t.cls rx d)))
    (h : runRoot kids ns p (.set v load) = (ns', none)) :
    ∃ w, setT rx t v = .ok w ∧ objAt ns' p = some (.leaf w true) := by
  obtain ⟨L, w, h1, h2, h3⟩ := C34_set_get_partial kids hf ns ns' p v load h
  rw [hS] at h1
  simp at h1
  subst h1
  exact ⟨w, by rw [← build_setT, toExcept_ok_iff]; exact h2, h3⟩

/-- `container c { leaf n { type uint8; } leaf u { type union { type uint8; type boolean; } } }` -/
def typedM : List (Meta × Schema) :=
  [({ name := py!"c" }, .cont false
    [({ name := py!"n", choice := some cA }, .leaf ((LeafT.one (.restr IntTy.uint8.rty)).cls fun _ _ => true)),
     ({ name := py!"u", choice := some cB }, .leaf ((LeafT.union [.restr IntTy.uint8.rty, .bool]).cls fun _ _ => true))])]

theorem typedM_flat : FlatRoot typedM := by
  intro k hk
  simp only [typedM, List.mem_cons, List.not_mem_nil, or_false] at hk
  subst hk
  simp [Choices, ChoicesKids, choiceNames, cA, cB]

example : ∃ w, setT (fun _ _ => true) (.one (.restr IntTy.uint8.rty)) (.str py!"7") = .ok w ∧
    objAt (runRoot typedM (freshKids typedM) [.field 0, .field 0] (.set (.str py!"7") false)).1 [.field 0, .field 0]
      = some (.leaf w true) :=
  C34_typed_partial (fun _ _ => true) typedM typedM_flat.apart (freshKids typedM) _ [.field 0, .field 0] _ none _ false rfl
    (Prod.ext rfl (by decide))

/-! ## C35 -/

/-- Types and values for which a refusal comes before `_set`: booleans, decimals, binary and
unions with any value, strings given a text and integers given an integer, with at most one
restriction. -/
inductive Early : LeafT → PyVal → Prop where
  | bool (v) : Early (.one .bool) v
  | dec (fd v) : Early (.one (.ext (.dec fd))) v
  | bin (v) : Early (.one (.ext .bin)) v
  | union (ts v) : Early (.union ts) v
  | str (s) : Early (.one (.restr (.base .str))) (.str s)
  | str1 (r s) : Early (.one (.restr (.restr (.base .str) [r]))) (.str s)
  | int1 (r n) : Early (.one (.restr (.restr (.base .int) [r]))) (.int n)


theorem call_ok_build (rx : Str → Str → Bool) (t : LeafTy) (v : PyVal) (h : (t.call rx v).toBool = true) :
    ∃ w, t.build rx v = .ok w := by
  cases t with
  | bool =>
    simp only [LeafTy.call, LeafTy.build] at h ⊢
    cases hb : yangBool v with
    | ok b => exact ⟨_, rfl⟩
    | error e => simp [hb, Except.map, Except.toBool] at h
  | ext x =>
    simp only [LeafTy.call, LeafTy.build] at h ⊢
    cases hc : x.call v with
    | error e => simp [hc, Except.toBool] at h
    | ok w => exact ⟨w, by simp [ExtTy.build, ExtTy.dyn, hc]⟩
  | restr T =>
    simp only [LeafTy.call, LeafTy.build] at h ⊢
    cases T with
    | base b =>
      simp only [RTy.cls] at h
      cases hc : b.conv v with
      | error e => simp [hc, Except.toBool] at h
      | ok w => exact ⟨w, by simp [RTy.build, RTy.cls, hc, Except.map, RTy.init]⟩
    | restr inner rs =>
      cases hn : ((RTy.restr inner rs).cls rx).new (some v) with
      | error e =>
        rw [RTy.cls] at hn h
        simp only at hn h
        rw [hn] at h
        simp [bind, Except.bind, Except.toBool] at h
      | ok p =>
        obtain ⟨o, t⟩ := p
        have hc : ((RTy.restr inner rs).cls rx).call (some v)
            = (initCheck rx (inner.cls rx).call (t.getD []) (some v)).map fun _ => o := by
          rw [RTy.cls] at hn ⊢
          simp only at hn ⊢
          rw [hn]
          simp only [bind, Except.bind, pure, Except.pure]
          cases initCheck rx (inner.cls rx).call (t.getD []) (some v) <;> rfl
        rw [hc] at h
        refine ⟨o, ?_⟩
        simp only [RTy.build, hn, RTy.init]
        cases hi : initCheck rx (inner.cls rx).call (t.getD []) (some v) with
        | ok u => rfl
        | error e => simp [hi, Except.map, Except.toBool] at h

theorem buildTests_one {b : BaseTy} {r : Restr} {v : PyVal} (hv : b.conv v = .ok v) :
    (∃ e, ∀ x, x = v ∨ x = .bool false → buildTests b.conv [r] x = .error e) ∨
    ∃ t, buildTests b.conv [r] v = .ok ([t], v) ∧ buildTests b.conv [r] (.bool false) = .ok ([t], .bool false) := by
  cases r with
  | pattern p => exact .inr ⟨_, rfl, rfl⟩
  | dictKey k => exact .inr ⟨_, rfl, rfl⟩
  | length l =>
    simp only [buildTests]
    cases l.mapM (buildChk fun v => v.toInt.map .int) with
    | error e => exact .inl ⟨e, fun _ _ => rfl⟩
    | ok cs => exact .inr ⟨_, rfl, rfl⟩
  | range l =>
    simp only [buildTests]
    cases l.mapM (buildChk b.conv) with
    | error e => exact .inl ⟨e, fun _ _ => rfl⟩
    | ok cs =>
      refine .inr ⟨.range cs, ?_, rfl⟩
      cases v.truthy <;> simp [hv, bind, Except.bind, pure, Except.pure]

/-- One test, checked before and after `_set` on the same value. -/
theorem one_test {rx : Str → Str → Bool} {b : BaseTy} {r : Restr} {v : PyVal} (hv : b.conv v = .ok v) (hf : v ≠ .bool false) :
    ∀ e, (RTy.restr (.base b) [r]).build rx v ≠ .marked e := by
  intro e h
  have hc : ((RTy.base b).cls rx).call = fun | none => .ok b.zero | some v => b.conv v := rfl
  rcases buildTests_one (r := r) hv with ⟨e', he⟩ | ⟨t, h1, h2⟩
  · have n1 : ((RTy.restr (.base b) [r]).cls rx).new (some v) = .error e' := by
      rw [RTy.cls]
      simp only [Option.getD_some, hc]
      have := he v (.inl rfl)
      simp only [bind, Except.bind, this]
    have n2 : ((RTy.restr (.base b) [r]).cls rx).new none = .error e' := by
      rw [RTy.cls]
      simp only [Option.getD_none, hc]
      have := he _ (.inr rfl)
      simp only [bind, Except.bind, this]
    simp only [RTy.build, n1, n2] at h
    cases e' <;> simp at h
  · have n2 : ((RTy.restr (.base b) [r]).cls rx).new none = .ok (b.zero, some [t]) := by
      rw [RTy.cls]
      simp only [Option.getD_none, hc, bind, Except.bind, h2]
      simp [RTy.cls, Except.map, pure, Except.pure]
    have ini : RTy.init rx (some [t]) (.restr (.base b) [r]) (some v) = allOf rx [t] v := by
      simp [RTy.init, initCheck, hc, hv, bind, Except.bind]
    cases hr : t.run rx v with
    | ok x =>
      cases x with
      | true =>
        have n1 : ((RTy.restr (.base b) [r]).cls rx).new (some v) = .ok (v, some [t]) := by
          rw [RTy.cls]
          simp only [Option.getD_some, hc, bind, Except.bind, h1, anyOf, hr]
          simp [RTy.cls, Except.map, pure, Except.pure, hv, hf]
        simp [RTy.build, n1, ini, allOf, hr, bind, Except.bind] at h
      | false =>
        have n1 : ((RTy.restr (.base b) [r]).cls rx).new (some v) = .error .valueError := by
          rw [RTy.cls]
          simp only [Option.getD_some, hc, bind, Except.bind, h1, anyOf, hr]
          simp [hf]
        simp [RTy.build, n1] at h
    | error e' =>
      have n1 : ((RTy.restr (.base b) [r]).cls rx).new (some v) = .error e' := by
        rw [RTy.cls]
        simp only [Option.getD_some, hc, bind, Except.bind, h1, anyOf, hr]
        simp [hf]
      simp only [RTy.build, n1] at h
      cases e' with
      | typeError => simp [n2, ini, allOf, hr, bind, Except.bind] at h
      | _ => simp at h

/-- **C35.**  For these types a refused value leaves no trace. -/
theorem C35_early_partial (rx : Str → Str → Bool) (kids : List (Meta × Schema)) (ns ns' : List Inst) (p : Path) (t : LeafT)
    (d : Option PyVal) (v : PyVal) (load : Bool) (e : Err) (hS : clsAt kids p = some (.leaf (t.cls rx d)))
    (ht : Early t v) (h : runRoot kids ns p (.set v load) = (ns', some e)) : ns' = ns := by
  refine C35_failed_set_partial kids ns ns' p v load e h ?_
  intro L hL e
  rw [hS] at hL
  simp at hL
  subst hL
  show t.build rx v ≠ .marked e
  cases ht with
  | bool v =>
    simp only [LeafT.build, LeafTy.build]
    split <;> simp
  | dec fd v =>
    simp only [LeafT.build, LeafTy.build, ExtTy.build]
    cases (ExtTy.dec fd).dyn v <;> simp
  | bin v =>
    simp only [LeafT.build, LeafTy.build, ExtTy.build]
    cases ExtTy.bin.dyn v <;> simp
  | union ts v =>
    simp only [LeafT.build, unionBuild]
    split
    · simp
    · rename_i t ht
      obtain ⟨w, hw⟩ := call_ok_build rx t v (List.find?_some (p := fun t : LeafTy => (t.call rx v).toBool) ht)
      rw [hw]; simp
  | str s => simp [LeafT.build, LeafTy.build, RTy.build, RTy.cls, BaseTy.conv, Except.map, RTy.init]
  | str1 r s => exact one_test rfl (by simp) e
  | int1 r n => exact one_test rfl (by simp) e

example : (runRoot typedM (freshKids typedM) [.field 0, .field 0] (.set (.int 256) false)).1 = freshKids typedM :=
  C35_early_partial (fun _ _ => true) typedM (freshKids typedM) _ [.field 0, .field 0] _ none (.int 256) false .valueError rfl
    (.int1 _ _) (Prod.ext rfl (by decide))

/-- **C35** fails for a plain `uint8` leaf given a text that is no number: the value is
refused only in `__init__`, after `_set` has marked the container changed and deleted
the data of the other case. -/
theorem C35_number_refuted : ∃ kids ops ns' p v, FlatRoot kids ∧
    clsAt kids p = some (.leaf ((LeafT.one (.restr IntTy.uint8.rty)).cls fun _ _ => true)) ∧
    runRoot kids (history kids (freshKids kids) ops) p (.set v false) = (ns', some .valueError) ∧
    objAt (history kids (freshKids kids) ops) [.field 0, .field 1] = some (.leaf (.bool true) true) ∧
    objAt ns' [.field 0, .field 1] = some (.leaf (.int 0) false) :=
  ⟨typedM, [([.field 0, .field 1], .set (.str py!"true") false)], _, [.field 0, .field 0], .str py!"x", typedM_flat, rfl,
    Prod.ext rfl (by decide), by rfl, by rfl⟩

/-- `container c { choice { leaf b { type bits { bit up; bit down; } } leaf u { type boolean; } } }` -/
def bitsM : List (Meta × Schema) :=
  [({ name := py!"c" }, .cont false
    [({ name := py!"b", choice := some cA },
      .leaf ((LeafT.one (.ext (.bits [(py!"up", py!"0"), (py!"down", py!"1")]))).cls fun _ _ => true)),
     ({ name := py!"u", choice := some cB }, .leaf ((LeafT.one .bool).cls fun _ _ => true))])]

theorem bitsM_flat : FlatRoot bitsM := by
  intro k hk
  simp only [bitsM, List.mem_cons, List.not_mem_nil, or_false] at hk
  subst hk
  simp [Choices, ChoicesKids, choiceNames, cA, cB]

/-- **C35** fails for `bits`: a text with a name that is no bit, and anything that is no text
(even the value of another leaf of the same type), is refused only after the data of the
other case are gone. -/
theorem C35_bits_refuted : ∃ kids ops p, FlatRoot kids ∧ (∃ a L, clsAt kids p = some (.leaf L) ∧ L = (LeafT.one (.ext (.bits a))).cls fun _ _ => true) ∧
    objAt (history kids (freshKids kids) ops) [.field 0, .field 1] = some (.leaf (.bool true) true) ∧
    ∀ v e, (v = .str py!"up left" ∧ e = .valueError) ∨ (v = .obj (.bits [py!"up"]) ∧ e = .attributeError) →
      ∃ ns', runRoot kids (history kids (freshKids kids) ops) p (.set v false) = (ns', some e) ∧
        objAt ns' [.field 0, .field 1] = some (.leaf (.bool false) false) := by
  refine ⟨bitsM, [([.field 0, .field 1], .set (.str py!"true") false)], [.field 0, .field 0], bitsM_flat, ⟨_, _, rfl, rfl⟩, by rfl, ?_⟩
  rintro v e (⟨rfl, rfl⟩ | ⟨rfl, rfl⟩)
  · exact ⟨_, Prod.ext rfl (by rfl), by rfl⟩
  · exact ⟨_, Prod.ext rfl (by rfl), by rfl⟩

example : (runRoot bitsM (freshKids bitsM) [.field 0, .field 0] (.set (.str py!" down  up ") false)).1 =
    [.cont true false [.leaf (.obj (.bits [py!"up", py!"down"])) true, .leaf (.bool false) false]] := by rfl

/-- **C35** fails for a string with a pattern and a length, one of which the value meets. -/
theorem C35_two_restrictions_refuted : ∃ (rx : Str → Str → Bool) (T : RTy) (s : Str) (e : Err),
    T = genRTy (.base .str) [py!"a+"] (some py!"1..5") none ∧ T.build rx (.str s) = .marked e :=
  ⟨fun _ s => s.all (· == 'a'), _, py!"b", .valueError, rfl, by rfl⟩

end Pyb
