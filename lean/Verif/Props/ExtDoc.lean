import Verif.Props.Native
import Verif.Props.Xml

/-! # Documents with decimal64, binary and bits

The round trips (C38, C39, C69) are proved for trees with leaves of these types, too; here
are a module with such leaves, and what does not come back. -/

namespace Pyb
open Py Spec

def tDec : YTy := .ext py!"decimal64" (.dec 2)
def tBin : YTy := .ext py!"binary" .bin
/-- `typedef flags { type bits { bit a; bit b; bit c; } }` -/
def tBits : YTy := .ext py!"flags" (.bits [(py!"a", py!"0"), (py!"b", py!"1"), (py!"c", py!"2")])

/-- ```
leaf d { type decimal64 { fraction-digits 2; } }
leaf b { type binary; }
leaf f { type flags; }
leaf-list v { type decimal64 { fraction-digits 2; } }
``` -/
def extKids : List (Meta × Schema) :=
  [(inM py!"d", .leaf (tDec.cls noRx)), (inM py!"b", .leaf (tBin.cls noRx)), (inM py!"f", .leaf (tBits.cls noRx)),
   (inM py!"v", .leafList (tDec.llCls noRx))]

def extSets : List (Path × Op) :=
  [([.field 0], .set (.str py!"-3.145") false), ([.field 1], .set (.str py!"aGk=") false), ([.field 2], .set (.str py!"c  a") false)]

def extOps : List (Path × Op) := extSets ++ [([.field 3], .ll (.append (.str py!"0.1"))), ([.field 3], .ll (.append (.int 7)))]

def extLeaves : List Inst := [.leaf (.obj (.dec ⟨-314, -2⟩)) true, .leaf (.obj (.bytes [104, 105])) true, .leaf (.obj (.bits [py!"a", py!"c"])) true]

theorem ext_reached : history extKids (freshKids extKids) extOps =
    extLeaves ++ [.leafList [.obj (.dec ⟨10, -2⟩), .obj (.dec ⟨700, -2⟩)] true] := by rfl

theorem ext_reached' : history extKids (freshKids extKids) extSets = extLeaves ++ [.leafList [] false] := by rfl

theorem ext_flat : FlatRoot extKids := by simp [ChoicesRoot, extKids, Choices, inM]

theorem val_dec (k : Int) (h : -2 ^ 63 ≤ k ∧ k < 2 ^ 63) : Value tDec (.obj (.dec ⟨k, -2⟩)) :=
  .ext _ _ _ (.inl rfl) (.dec 2 k (by decide) h)

theorem val_bin (b : List Nat) (h : ∀ x ∈ b, x < 256) : Value tBin (.obj (.bytes b)) := .ext _ _ _ (.inl rfl) (.bin b h)

theorem val_bits : Value tBits (.obj (.bits [py!"a", py!"c"])) := by
  refine .ext _ _ _ (.inr (by decide)) (.bits _ _ ?_ ?_ ?_)
  · decide
  · decide
  · simp only [List.pairwise_cons, List.mem_singleton, forall_eq, List.not_mem_nil, false_imp_iff, implies_true, List.Pairwise.nil, and_true]
    exact ⟨py!"0", py!"2", rfl, rfl, by decide, by decide⟩

/-- C38 with such leaves and a leaf-list of decimals. -/
example : ∃ ns', ietfDump {} extKids (history extKids (freshKids extKids) extOps) =
      .ok (.obj [(py!"m:d", .str py!"-3.14"), (py!"m:b", .str py!"aGk="), (py!"m:f", .str py!"a c"), (py!"m:v", .arr [.str py!"0.10", .str py!"7.00"])]) ∧
    SameKids extKids (history extKids (freshKids extKids) extOps) ns' := by
  obtain ⟨j, ns', h1, h2, h3⟩ := C38_reachable_partial noRx demoLoad rfl demoUuid_fresh extKids ext_flat ⟨by decide, by decide⟩
    extOps (by simp [extOps, extSets, Plain]) (by
      rw [ext_reached]
      refine ⟨fun _ => .inl ⟨tDec, none, rfl, val_dec _ (by decide), by simp [tDec]⟩,
        fun _ => .inl ⟨tBin, none, rfl, val_bin _ (by decide), by simp [tBin]⟩,
        fun _ => .inl ⟨tBits, none, rfl, val_bits, by simp [tBits]⟩, fun _ => ⟨.inl ⟨tDec, _, _, rfl, ?_⟩, by decide⟩, trivial⟩
      intro v hv
      simp only [List.mem_cons, List.not_mem_nil, or_false] at hv
      rcases hv with rfl | rfl <;> exact ⟨val_dec _ (by decide), by simp [tDec], rfl⟩)
  exact ⟨ns', by rw [ext_reached]; rfl, h3⟩

/-- C39 with such leaves. -/
example : ∃ j ns', nativeDump extKids (history extKids (freshKids extKids) extSets) = .ok j ∧
    nativeLoad demoLoad extKids (freshKids extKids) j = (ns', none) ∧ SameKids extKids (history extKids (freshKids extKids) extSets) ns' := by
  refine C39_reachable_partial noRx demoLoad rfl extKids ext_flat ⟨by decide, by decide⟩ extSets (by simp [extSets, Plain]) ?_
  rw [ext_reached']
  refine ⟨fun _ => .inl ⟨tDec, none, rfl, ⟨val_dec _ (by decide), by simp [tDec]⟩, ?_⟩,
    fun _ => .inl ⟨tBin, none, rfl, ⟨val_bin _ (by decide), by simp [tBin]⟩, by simp [FitsFloat]⟩,
    fun _ => .inl ⟨tBits, none, rfl, ⟨val_bits, by simp [tBits]⟩, by simp [FitsFloat]⟩, fun h => by simp at h, trivial⟩
  intro x e
  simp only [PyVal.obj.injEq, PyObj.dec.injEq] at e
  subst e
  decide

/-- C69 with such leaves. -/
example : ∃ ns', xmlDump demoNs true py!"m" py!"urn:m" extKids (history extKids (freshKids extKids) extSets) =
      .ok (xElem py!"m" [xLeaf py!"d" py!"-3.14", xLeaf py!"b" py!"aGk=", xLeaf py!"f" py!"a c"]) ∧
    SameKids extKids (history extKids (freshKids extKids) extSets) ns' := by
  obtain ⟨x, ns', h1, h2, h3⟩ := C69_reachable_partial noRx demoNs demoInfer demo_objectify py!"m" py!"urn:m" extKids ext_flat
    ⟨by decide, by decide⟩ extSets (by simp [extSets, Plain]) (by
      rw [ext_reached']
      refine ⟨fun _ => ⟨.inl ⟨tDec, none, rfl, ⟨val_dec _ (by decide), by simp [tDec]⟩, ⟨by simp, by simp [tDec], by simp⟩⟩, by decide⟩,
        fun _ => ⟨.inl ⟨tBin, none, rfl, ⟨val_bin _ (by decide), by simp [tBin]⟩, ⟨by simp, by simp [tBin], by simp⟩⟩, by decide⟩,
        fun _ => ⟨.inl ⟨tBits, none, rfl, ⟨val_bits, by simp [tBits]⟩, ⟨by simp, by simp [tBits], ?_⟩⟩, by decide⟩,
        ⟨fun h => by simp at h, fun h => by simp at h⟩, trivial⟩
      intro ns e
      simp only [PyVal.obj.injEq, PyObj.bits.injEq] at e
      subst e
      decide)
  exact ⟨ns', by rw [ext_reached']; rfl, h3⟩

/-! ## What does not come back -/

def decsKids : List (Meta × Schema) := [(inM py!"v", .leafList (tDec.llCls noRx))]

/-- C39 fails for a leaf-list of decimals: `0.1` is written as the float 0.1, which does not
equal the decimal, so it is removed as a value that is not in the document. -/
theorem C39_decimal_leaflist_refuted :
    history decsKids (freshKids decsKids) [([.field 0], .ll (.append (.str py!"0.1")))] = [.leafList [.obj (.dec ⟨10, -2⟩)] true] ∧
    ∃ j, nativeDump decsKids [.leafList [.obj (.dec ⟨10, -2⟩)] true] = .ok j ∧
      nativeLoad demoLoad decsKids (freshKids decsKids) j = ([.leafList [] true], none) :=
  ⟨rfl, _, rfl, rfl⟩

def binsKids : List (Meta × Schema) := [(inM py!"v", .leafList (tBin.llCls noRx))]

/-- C38, C39 and C69 fail for a leaf-list of binary values: it cannot be written. -/
theorem C38_binary_leaflist_refuted :
    history binsKids (freshKids binsKids) [([.field 0], .ll (.append (.str py!"aGk=")))] = [.leafList [.obj (.bytes [104, 105])] true] ∧
    (∃ e, ietfDump {} binsKids [.leafList [.obj (.bytes [104, 105])] true] = .error e) ∧
    (∃ e, nativeDump binsKids [.leafList [.obj (.bytes [104, 105])] true] = .error e) ∧
    ∃ e, xmlDump demoNs true py!"m" py!"urn:m" binsKids [.leafList [.obj (.bytes [104, 105])] true] = .error e :=
  ⟨rfl, ⟨_, rfl⟩, ⟨_, rfl⟩, ⟨_, rfl⟩⟩

def binKids : List (Meta × Schema) := [(inM py!"b", .leaf (tBin.cls noRx))]

/-- C69 fails for a binary leaf with no octets: it is not set. -/
theorem C69_empty_binary_refuted :
    XRoundTripFails binKids [([.field 0], .set (.obj (.bytes [])) false)] [xElem py!"b" []] [.leaf (.obj (.bytes [])) false] none := by
  refine ⟨by simp [ChoicesRoot, binKids, Choices], ⟨by decide, by decide⟩, by simp [Plain], demo_objectify, rfl, rfl, .inr ?_⟩
  intro h
  have : history binKids (freshKids binKids) [([.field 0], .set (.obj (.bytes [])) false)] = [.leaf (.obj (.bytes [])) true] := rfl
  rw [this] at h
  simp [binKids, SameKids, SameData] at h

def bitsKids : List (Meta × Schema) := [(inM py!"f", .leaf (tBits.cls noRx))]

/-- C69 fails for a leaf with no bits: it is not set. -/
theorem C69_no_bits_refuted :
    XRoundTripFails bitsKids [([.field 0], .set (.str []) false)] [xElem py!"f" []] [.leaf (.obj (.bits [])) false] none := by
  refine ⟨by simp [ChoicesRoot, bitsKids, Choices], ⟨by decide, by decide⟩, by simp [Plain], demo_objectify, rfl, rfl, .inr ?_⟩
  intro h
  have : history bitsKids (freshKids bitsKids) [([.field 0], .set (.str []) false)] = [.leaf (.obj (.bits [])) true] := rfl
  rw [this] at h
  simp [bitsKids, SameKids, SameData] at h

/-- C19 fails for leaf-lists of bits: they take no text or any other of the values
considered (only objects of the very class made for the elements). -/
theorem C19_leaflist_refuted (rx : Str → Str → Bool) (name : Str) (allowed : List (Str × Str)) (u : Bool) (tx : List PyVal → Str) (v : PyVal) :
    ((YTy.ext name (.bits allowed)).llCls rx u tx).conv v = none := ext_conv_bits

example : (tBits.cls noRx).set (.str py!"a") = .ok (.obj (.bits [py!"a"])) ∧ (tBits.llCls noRx).conv (.str py!"a") = none := ⟨rfl, rfl⟩

end Pyb
