import Verif.Lemmas.BitsTree
import Verif.Props.ExtDoc

/-! # C102: bits leaves changed in place -/

namespace Pyb
open Py Spec

/-- A method of `YANGBits` called with declared bits only. -/
def OwnMethod (allowed : List (Str × Str)) : BitCall → Prop
  | .add b => b ∈ allowed.map Prod.fst
  | .discard b => b ∈ allowed.map Prod.fst
  | .clear => True
  | _ => False

/-- **C102.**  `add`, `discard` and `clear` on a bits leaf anywhere in a binding (also in
entries of lists): the leaf has the bits it should have, is marked as changed, and nothing
else in the binding is different.  Missing: that is not all that assigning the bits would do,
see the refutations below; the methods of `set` that are not replaced. -/
theorem C102_in_place_partial (rx : Str → Str → Bool) (kids : List (Meta × Schema)) (ns : List Inst) (p : Path) (name : Str)
    (allowed : List (Str × Str)) (d : Option PyVal) (s : List Str) (ch helper : Bool) (c : BitCall) (hd : BitsDecl allowed)
    (hT : clsAt kids p = some (.leaf ((YTy.ext name (.bits allowed)).cls rx d)))
    (hn : objAt ns p = some (.leaf (.obj (.bits s)) ch)) (hv : ExtValue (.bits allowed) (.bits s))
    (hk : ∀ k, Step.key k ∈ p → hashable k = true) (hc : OwnMethod allowed c) :
    ∃ ns' s', bitsRoot kids allowed helper ns p c = (ns', none) ∧ objAt ns' p = some (.leaf (.obj (.bits s')) true) ∧
      ExtValue (.bits allowed) (.bits s') ∧ (∀ b, b ∈ s' ↔ After s c b) ∧
      ∀ q, ¬ Covers p q → (objAt ns' q).map shell = (objAt ns q).map shell := by
  have key : ∃ t, (∀ own, bitsCall allowed helper c own (.leaf (.obj (.bits s)) ch) = ⟨.leaf (.obj (.bits (bitSort allowed t))) true, [], none⟩) ∧
      ExtValue (.bits allowed) (.bits (bitSort allowed t)) ∧ ∀ b, b ∈ bitSort allowed t ↔ After s c b := by
    cases c with
    | add b =>
      have e : bitStep allowed s (.add b) = .ok (if b ∈ s then s else s ++ [b]) := by
        simp only [OwnMethod] at hc; simp only [bitStep, bitAdd, hc, if_true]
      exact ⟨_, fun own => by simp only [bitsCall, e, bitsOut], bitStep_after hv hd e (.inl ⟨b, rfl, rfl⟩)⟩
    | discard b =>
      have e : bitStep allowed s (.discard b) = .ok (s.filter (· ≠ b)) := by
        simp only [OwnMethod] at hc; simp only [bitStep, hc, if_true]
      exact ⟨_, fun own => by simp only [bitsCall, e, bitsOut], bitStep_after hv hd e (.inr (.inl ⟨b, rfl, rfl⟩))⟩
    | clear => exact ⟨[], fun own => rfl, bitStep_after hv hd (op := .clear) rfl (.inr (.inr (.inl ⟨rfl, rfl⟩)))⟩
    | _ => exact absurd hc (by simp [OwnMethod])
  obtain ⟨t, h1, h2, h3⟩ := key
  cases p with
  | nil => simp [objAt] at hn
  | cons st p =>
    cases st with
    | key k => simp [objAt, nodeAt] at hn
    | field i =>
      rw [objAt_field] at hn
      rw [clsAt_field] at hT
      obtain ⟨n, hi, hn⟩ := Option.bind_eq_some_iff.1 hn
      obtain ⟨k, hkk, hT⟩ := Option.bind_eq_some_iff.1 hT
      obtain ⟨n', g1, g2, g3⟩ := through_quiet h1 (own := k.1.choice) hT hn fun x hx => hk x (by simp [hx])
      have hl := (List.getElem?_eq_some_iff.1 hi).1
      refine ⟨ns.set i n', bitSort allowed t, by simp only [bitsRoot, hkk, hi, g1], ?_, h2, h3, fun q hq => ?_⟩
      · rw [objAt_field, List.getElem?_set_self hl]; exact g2
      · cases q with
        | nil => simp [objAt, shell]
        | cons u q =>
          cases u with
          | key x => rfl
          | field j =>
            rw [objAt_field, objAt_field]
            by_cases e : i = j
            · subst e
              simp only [List.getElem?_set_self hl, hi, Option.bind_some]
              exact g3 q fun h => hq ⟨rfl, h⟩
            · rw [List.getElem?_set_ne e]

/-- **C102.**  `add` and `discard` of an undeclared bit raise `ValueError` and change
nothing. -/
theorem C102_undeclared (kids : List (Meta × Schema)) (ns : List Inst) (p : Path) (allowed : List (Str × Str)) (T : Schema) (s : List Str)
    (ch helper : Bool) (b : Str) (hT : clsAt kids p = some T) (hn : objAt ns p = some (.leaf (.obj (.bits s)) ch))
    (hk : ∀ k, Step.key k ∈ p → hashable k = true) (hb : b ∉ allowed.map Prod.fst) :
    bitsRoot kids allowed helper ns p (.add b) = (ns, some .valueError) ∧ bitsRoot kids allowed helper ns p (.discard b) = (ns, some .valueError) := by
  have h1 : ∀ own, bitsCall allowed helper (.add b) own (.leaf (.obj (.bits s)) ch) = ⟨.leaf (.obj (.bits s)) ch, [], some .valueError⟩ :=
    fun own => by simp only [bitsCall, bitStep, bitAdd, hb, if_false, bitsOut]
  have h2 : ∀ own, bitsCall allowed helper (.discard b) own (.leaf (.obj (.bits s)) ch) = ⟨.leaf (.obj (.bits s)) ch, [], some .valueError⟩ :=
    fun own => by simp only [bitsCall, bitStep, hb, if_false, bitsOut]
  cases p with
  | nil => simp [objAt] at hn
  | cons st p =>
    cases st with
    | key k => simp [objAt, nodeAt] at hn
    | field i =>
      rw [objAt_field] at hn
      rw [clsAt_field] at hT
      obtain ⟨n, hi, hn⟩ := Option.bind_eq_some_iff.1 hn
      obtain ⟨k, hkk, hT⟩ := Option.bind_eq_some_iff.1 hT
      have hk' : ∀ x, Step.key x ∈ p → hashable x = true := fun x hx => hk x (by simp [hx])
      simp only [bitsRoot, hkk, hi, through_same h1 (own := k.1.choice) hT hn hk', through_same h2 (own := k.1.choice) hT hn hk', set_same hi, and_self]

/-- **C102.**  `remove` and `pop` of a bit that is set, without path helper, on a leaf that is
not directly in a case: the binding is as if the text of the remaining bits had been assigned
to the leaf (with `load=True`, because the methods do not care whether the leaf is a key). -/
theorem C102_removed_partial (rx : Str → Str → Bool) (kids : List (Meta × Schema)) (ns : List Inst) (p : Path) (name : Str)
    (allowed : List (Str × Str)) (d : Option PyVal) (s : List Str) (ch : Bool) (b : Str) (c : BitCall) (hc : c = .remove b ∨ c = .pop b)
    (hd : BitsDecl allowed) (hT : clsAt kids p = some (.leaf ((YTy.ext name (.bits allowed)).cls rx d)))
    (hn : objAt ns p = some (.leaf (.obj (.bits s)) ch)) (hv : ExtValue (.bits allowed) (.bits s))
    (hk : ∀ k, Step.key k ∈ p → hashable k = true) (hb : b ∈ s) (hca : caseAt none (.cont false kids) p = none) :
    ∃ ns' s', bitsRoot kids allowed false ns p c = (ns', none) ∧ ExtValue (.bits allowed) (.bits s') ∧ (∀ x, x ∈ s' ↔ x ∈ s ∧ x ≠ b) ∧
      runRoot kids ns p (.set (.str (join py!" " s')) true) = (ns', none) := by
  have e1 : bitStep allowed s (.remove b) = .ok (s.filter (· ≠ b)) := by simp only [bitStep, hb, if_true]
  have e2 : bitStep allowed s (.pop b) = .ok (s.filter (· ≠ b)) := by simp only [bitStep, hb, if_true]
  have hf : bitsCall allowed false c none (.leaf (.obj (.bits s)) ch) =
      ⟨.leaf (.obj (.bits (bitSort allowed (s.filter (· ≠ b))))) true, [none], none⟩ := by
    rcases hc with rfl | rfl
    · simp only [bitsCall, Bool.false_eq_true, if_false, e1, bitsOut]
    · simp only [bitsCall, e2, bitsOut]
  obtain ⟨h2, h3⟩ := bitStep_after hv hd e1 (c := .remove b) (.inr (.inr (.inr (.inl ⟨b, rfl, rfl⟩))))
  have hset := ext_set (rx := rx) (name := name) (d := d) (ext_call_bits h2 (List.Perm.refl _))
  have hs : leafSet ((YTy.ext name (.bits allowed)).cls rx d) none (.leaf (.obj (.bits s)) ch)
      (.str (join py!" " (bitSort allowed (s.filter (· ≠ b))))) = ⟨.leaf (.obj (.bits (bitSort allowed (s.filter (· ≠ b))))) true, [none, none], none⟩ := by
    simp only [leafSet, hset]
  cases p with
  | nil => simp [objAt] at hn
  | cons st p =>
    cases st with
    | key k => simp [objAt, nodeAt] at hn
    | field i =>
      rw [objAt_field] at hn
      rw [clsAt_field] at hT
      obtain ⟨n, hi, hn⟩ := Option.bind_eq_some_iff.1 hn
      obtain ⟨k, hkk, hT⟩ := Option.bind_eq_some_iff.1 hT
      simp only [caseAt, hkk] at hca
      obtain ⟨g1, g2, g3, _⟩ := through_assign hf hs (own := k.1.choice) hT hn hca fun x hx => hk x (by simp [hx])
      exact ⟨_, _, by simp only [bitsRoot, hkk, hi, g2]; rfl, h2, h3, by simp only [runRoot, hkk, hi, g1, g3]⟩

/-! ## What assigning does and these methods do not -/

def abc : List (Str × Str) := [(py!"a", py!"0"), (py!"b", py!"1"), (py!"c", py!"2")]

/-- ```
container c {
  presence "";
  choice ch { case x { leaf f { type flags; } }  case y { leaf g { type flags; } } }
  leaf h { type flags; }
}
list l { key k; leaf k { type flags; } }
``` -/
def bitKids : List (Meta × Schema) :=
  [(inM py!"c", .cont true [({ inM py!"f" with choice := some ⟨py!"ch", py!"x"⟩ }, .leaf (tBits.cls noRx)),
      ({ inM py!"g" with choice := some ⟨py!"ch", py!"y"⟩ }, .leaf (tBits.cls noRx)), (inM py!"h", .leaf (tBits.cls noRx))]),
   (inM py!"l", .list { keys := [0] } [(inM py!"k", .leaf (tBits.cls noRx))])]

theorem abc_decl : BitsDecl abc := by refine ⟨by decide, by decide, by decide⟩

theorem abc_nil : ExtValue (.bits abc) (.bits []) := .bits _ _ (by decide) (by simp) .nil

/-- The first theorem at a leaf of a new binding. -/
example : ∃ ns' s', bitsRoot bitKids abc false (freshKids bitKids) [.field 0, .field 2] (.add py!"b") = (ns', none) ∧
    objAt ns' [.field 0, .field 2] = some (.leaf (.obj (.bits s')) true) ∧ (∀ b, b ∈ s' ↔ b ∈ [] ∨ b = py!"b") ∧
    (objAt ns' [.field 0, .field 1]).map shell = some (.leaf (.obj (.bits [])) false) := by
  obtain ⟨ns', s', h1, h2, _, h4, h5⟩ := C102_in_place_partial noRx bitKids (freshKids bitKids) [.field 0, .field 2] py!"flags" abc none [] false
    false (.add py!"b") abc_decl rfl rfl abc_nil (by simp) (by simp [OwnMethod, abc])
  exact ⟨ns', s', h1, h2, h4, h5 _ (by simp [Covers])⟩

def abcIn : List Inst := history bitKids (freshKids bitKids) [([.field 0, .field 2], .set (.str py!"c a") false)]

theorem abc_ac : ExtValue (.bits abc) (.bits [py!"a", py!"c"]) :=
  bits_value abc_decl (t := [py!"a", py!"c"]) (by decide) (by decide)

/-- The third theorem. -/
example : ∃ ns' s', bitsRoot bitKids abc false abcIn [.field 0, .field 2] (.remove py!"a") = (ns', none) ∧
    runRoot bitKids abcIn [.field 0, .field 2] (.set (.str (join py!" " s')) true) = (ns', none) := by
  obtain ⟨ns', s', h1, _, _, h2⟩ := C102_removed_partial noRx bitKids abcIn [.field 0, .field 2] py!"flags" abc none _ true py!"a"
    (.remove py!"a") (.inl rfl) abc_decl rfl rfl abc_ac (by simp) (by decide) rfl
  exact ⟨ns', s', h1, h2⟩

/-- C102 fails above the leaf: setting a bit with `add` does not mark the container as
changed, and does not mark a presence container as present; assigning does both.  (So C31 and
C36 do not hold for such changes.) -/
theorem C102_above_refuted : ∃ kids allowed ns p q ms, (bitsRoot kids allowed false ns p (.add py!"b")).2 = none ∧
    objAt (bitsRoot kids allowed false ns p (.add py!"b")).1 p = some (.leaf (.obj (.bits [py!"b"])) true) ∧ Covers q p ∧
    objAt (bitsRoot kids allowed false ns p (.add py!"b")).1 q = some (.cont false false ms) ∧
    ∃ ms', objAt (runRoot kids ns p (.set (.str py!"b") false)).1 q = some (.cont true true ms') :=
  ⟨bitKids, abc, freshKids bitKids, [.field 0, .field 2], [.field 0], _, rfl, rfl, ⟨rfl, trivial⟩, rfl, _, rfl⟩

/-- C102 fails for choices: after `add` on leaves in two cases both have data; assigning leaves
only the last. -/
theorem C102_choice_refuted : ∃ kids allowed ns p q, FlatRoot kids ∧
    dataAt (bitsRoot kids allowed false (bitsRoot kids allowed false ns p (.add py!"a")).1 q (.add py!"b")).1 p =
      some (.inl (.obj (.bits [py!"a"])), true) ∧
    dataAt (bitsRoot kids allowed false (bitsRoot kids allowed false ns p (.add py!"a")).1 q (.add py!"b")).1 q =
      some (.inl (.obj (.bits [py!"b"])), true) ∧
    dataAt (runRoot kids (bitsRoot kids allowed false ns p (.add py!"a")).1 q (.set (.str py!"b") false)).1 p = some (.inl (.obj (.bits [])), false) :=
  ⟨bitKids, abc, freshKids bitKids, [.field 0, .field 0], [.field 0, .field 1],
    by simp [ChoicesRoot, bitKids, Choices, ChoicesKids, inM, choiceNames], rfl, rfl, rfl⟩

/-- C102 fails for keys: assigning to the key leaf of an entry in a list raises, `add` changes
it; the entry stays under its old key. -/
theorem C102_key_refuted : ∃ kids allowed ns l k, (runRoot kids ns (l ++ [.key k, .field 0]) (.set (.str py!"a b") false)).2 = some .attributeError ∧
    (bitsRoot kids allowed false ns (l ++ [.key k, .field 0]) (.add py!"b")).2 = none ∧
    objAt (bitsRoot kids allowed false ns (l ++ [.key k, .field 0]) (.add py!"b")).1 (l ++ [.key k, .field 0]) =
      some (.leaf (.obj (.bits [py!"a", py!"b"])) true) ∧ k = .str py!"a" :=
  ⟨bitKids, abc, history bitKids (freshKids bitKids) [([.field 1], .add (.str py!"a"))], [.field 1], .str py!"a", rfl, rfl, rfl, rfl⟩

/-- C102 fails for `update`: it puts an undeclared bit into the leaf (against C19), whose text
cannot be had then, and does not mark the leaf as changed. -/
theorem C102_update_refuted : ∃ kids allowed ns p s, (bitsRoot kids allowed false ns p (.update [py!"z"])).2 = none ∧
    objAt (bitsRoot kids allowed false ns p (.update [py!"z"])).1 p = some (.leaf (.obj (.bits s)) false) ∧ py!"z" ∈ s ∧
    py!"z" ∉ allowed.map Prod.fst ∧ bitStr allowed s = .error .keyError :=
  ⟨bitKids, abc, freshKids bitKids, [.field 0, .field 2], [py!"z"], rfl, rfl, by decide, by decide, by decide⟩

/-- C102 fails for `remove` if there is a path helper: it always raises, after marking the
leaf as changed; the bits stay. -/
theorem C102_helper_refuted (allowed : List (Str × Str)) (own : Option Choice) (s : List Str) (ch : Bool) (b : Str) :
    bitsCall allowed true (.remove b) own (.leaf (.obj (.bits s)) ch) = ⟨.leaf (.obj (.bits s)) true, [own], some .attributeError⟩ := rfl

/-- C35 fails for these methods: a `remove` or `pop` that raises has marked the leaf as
changed, and its containers. -/
theorem C102_raised_refuted (allowed : List (Str × Str)) (helper : Bool) (own : Option Choice) (s : List Str) (ch : Bool) (b : Str) (hb : b ∉ s) :
    ∃ e, bitsCall allowed helper (.remove b) own (.leaf (.obj (.bits s)) ch) = ⟨.leaf (.obj (.bits s)) true, [own], some e⟩ ∧
      bitsCall allowed helper (.pop b) own (.leaf (.obj (.bits s)) ch) = ⟨.leaf (.obj (.bits s)) true, [own], some .keyError⟩ := by
  cases helper
  · exact ⟨.keyError, by simp only [bitsCall, Bool.false_eq_true, if_false, bitStep, hb, bitsOut], by simp only [bitsCall, bitStep, hb, if_false, bitsOut]⟩
  · exact ⟨.attributeError, rfl, by simp only [bitsCall, bitStep, hb, if_false, bitsOut]⟩

end Pyb
