import Verif.Lemmas.DecDoc
import Verif.Lemmas.DecText
import Verif.Props.LeafCls
import Verif.Spec.JsonTypes

/-! # Leaves of type decimal64, binary and bits: their texts -/

namespace Pyb
open Py Spec

/-- What documents have for the value, as text. -/
def extText : PyObj → Str
  | .bytes b => b64encode b
  | o => o.toStr

theorem quantize_same (fd : Nat) (k : Int) (hk : k.natAbs < 10 ^ 28) : quantize ⟨k, -fd⟩ fd = .ok ⟨k, -fd⟩ := by
  have := C17_representable_unchanged_partial fd k hk 0
  simpa [setDecimal] using this

theorem dec64_digits {k : Int} (h : -2 ^ 63 ≤ k ∧ k < 2 ^ 63) : k.natAbs < 10 ^ 28 := by omega

/-- The names of bits are read in any order. -/
theorem ext_call_bits {allowed : List (Str × Str)} {ns ns' : List Str} (h : ExtValue (.bits allowed) (.bits ns)) (hp : ns'.Perm ns) :
    (ExtTy.bits allowed).call (.str (join py!" " ns')) = .ok (.obj (.bits ns)) := by
  cases h with
  | bits allowed ns h1 h2 h3 =>
    have hn : ns.Nodup := h3.imp fun {a b} ⟨p, q, e1, e2, _, ne⟩ e => by subst e; rw [e1] at e2; exact ne (Option.some.inj e2)
    have hs : bitSort allowed ns' = ns := by
      apply sorted_unique (fun b => (allowed.lookup b).getD []) ((sortBy_perm _ ns').trans hp) (sortBy_sorted _ ns')
      · exact h3.imp fun {a b} ⟨p, q, e1, e2, l, _⟩ => by simp [e1, e2, l]
      · intro a ha b hb e
        have ha' := hp.mem_iff.1 ((sortBy_perm _ ns').mem_iff.1 ha)
        have hb' := hp.mem_iff.1 ((sortBy_perm _ ns').mem_iff.1 hb)
        obtain ⟨i, hi, rfl⟩ := List.getElem_of_mem ha'
        obtain ⟨j, hj, rfl⟩ := List.getElem_of_mem hb'
        rcases Nat.lt_trichotomy i j with hij | rfl | hij
        · obtain ⟨p, q, e1, e2, _, ne⟩ := List.pairwise_iff_getElem.1 h3 i j hi hj hij
          simp only [e1, e2, Option.getD_some] at e
          exact absurd e ne
        · rfl
        · obtain ⟨p, q, e1, e2, _, ne⟩ := List.pairwise_iff_getElem.1 h3 j i hj hi hij
          simp only [e1, e2, Option.getD_some] at e
          exact absurd e.symm ne
    have hw : words (join py!" " ns') = ns' := by
      apply words_join
      intro w hw
      obtain ⟨a, ha, rfl⟩ := List.mem_map.1 (h2 w (hp.mem_iff.1 hw))
      exact h1 a ha
    simp only [ExtTy.call, bitsInit, hw, bitAddAll_ok allowed ns' [] (fun w hw => h2 w (hp.mem_iff.1 hw)) (by simpa using hp.nodup_iff.2 hn),
      List.nil_append, Except.map, hs]

/-- The text of a value is read as the value. -/
theorem ext_call_text {x : ExtTy} {o : PyObj} (h : ExtValue x o) : x.call (.str (extText o)) = .ok (.obj o) := by
  cases h with
  | dec fd k h1 h2 =>
    simp only [ExtTy.call, extText, PyObj.toStr, toDecimal, decOfStr_decStr, bind, Except.bind, quantize_same fd k (dec64_digits h2)]
  | bin b hb =>
    have e := C18_base64_roundtrip b hb
    simp only [dumpBinary] at e
    simp only [ExtTy.call, extText, binArg, e, Except.map]
  | bits allowed ns h1 h2 h3 => exact ext_call_bits (.bits allowed ns h1 h2 h3) (List.Perm.refl ns)

/-- Decimals and octets are stored as they are. -/
theorem ext_call_same {x : ExtTy} {o : PyObj} (h : ExtValue x o) (hb : ∀ a, x ≠ .bits a) : x.call (.obj o) = .ok (.obj o) := by
  cases h with
  | dec fd k h1 h2 => simp only [ExtTy.call, toDecimal, bind, Except.bind, quantize_same fd k (dec64_digits h2)]
  | bin b hb => rfl
  | bits allowed ns => exact absurd rfl (hb _)

theorem ext_set {rx : Str → Str → Bool} {name : Str} {x : ExtTy} {v w : PyVal} {d : Option PyVal} (h : x.call v = .ok w) :
    ((YTy.ext name x).cls rx d).set v = .ok w := by
  show x.build v = .ok w
  simp [ExtTy.build, ExtTy.dyn, h]

theorem ext_conv {rx : Str → Str → Bool} {name : Str} {x : ExtTy} {v w : PyVal} {u : Bool} {tx : List PyVal → Str} (h : x.call v = .ok w)
    (hb : ∀ a, x ≠ .bits a) : ((YTy.ext name x).llCls rx u tx).conv v = some w := by
  simp only [YTy.llCls, YTy.ty, elemConv, List.findSome?]
  cases x with
  | bits a => exact absurd rfl (hb a)
  | dec fd => simp [elemCheck, LeafTy.call, h, Except.toOption]
  | bin => simp [elemCheck, LeafTy.call, h, Except.toOption]

/-- No leaf-list takes anything for `bits`. -/
theorem ext_conv_bits {rx : Str → Str → Bool} {name : Str} {a : List (Str × Str)} {v : PyVal} {u : Bool} {tx : List PyVal → Str} :
    ((YTy.ext name (.bits a)).llCls rx u tx).conv v = none := by
  simp only [YTy.llCls, YTy.ty, elemConv, List.findSome?, elemCheck]

/-- What is written. -/
def extJ (ietf : Bool) : PyObj → J
  | .dec x => if ietf then .str (decStr x) else .float (floatOfDec x)
  | o => .str (extText o)

theorem serDecimal_dec (ietf : Bool) (x : Dec) : serDecimal ietf (.obj (.dec x)) = .ok (extJ ietf (.dec x)) := by
  cases ietf <;> rfl

theorem serMapped_ext {ietf : Bool} {yt name : Str} {x : ExtTy} {o : PyObj} (h : ExtValue x o) :
    serMapped ietf yt (YTy.ext name x).ser (.obj o) = .ok (extJ ietf o) := by
  cases h with
  | dec fd k h1 h2 =>
    have : serMapped ietf yt (YTy.ext name (.dec fd)).ser (.obj (.dec ⟨k, -fd⟩)) = serDecimal ietf (.obj (.dec ⟨k, -fd⟩)) := by
      simp [serMapped, YTy.ser, SerCls.pyc]
    rw [this, serDecimal_dec]
  | bin b hb => simp [serMapped, YTy.ser, SerCls.pyc, serBinary, extJ, extText]
  | bits a ns h1 h2 h3 => simp [serMapped, YTy.ser, SerCls.pyc, extJ, extText, PyVal.toStr]

theorem serVal_ext {ietf : Bool} {mod name : Str} {x : ExtTy} {o : PyObj} (h : ExtValue x o) (ha : TypeArg (extName x) name)
    (ht : name ∉ yangBuiltins → serVal ietf mod name (YTy.ext name x).ser (.obj o) = serMapped ietf name (YTy.ext name x).ser (.obj o)) :
    serVal ietf mod name (YTy.ext name x).ser (.obj o) = .ok (extJ ietf o) := by
  rcases ha with rfl | ha
  · have hm := serMapped_ext (ietf := ietf) (yt := extName x) (name := extName x) h
    cases h with
    | dec fd k h1 h2 => exact serDecimal_dec ietf _
    | bin b hb => rfl
    | bits a ns h1 h2 h3 => rfl
  · rw [ht ha]; exact serMapped_ext h

theorem ext_names {x : ExtTy} {name : Str} (ha : TypeArg (extName x) name) : name ≠ py!"empty" ∧ name ≠ py!"identityref" := by
  rcases ha with rfl | ha
  · cases x <;> simp [extName]
  · constructor <;> (rintro rfl; exact ha (by decide))

/-- No text equals such a value. -/
theorem pyEq_obj_str (o : PyObj) (s : Str) : pyEq (.obj o) (.str s) = false := by
  unfold pyEq
  simp only [PyVal.num?, PyVal.norm]
  cases o.num? <;> simp

/-- The text of a decimal that is not written in scientific notation. -/
theorem decStr_text (fd : Nat) (k : Int) (hs : fd ≤ 6 ∨ fd < 6 + (natStr k.natAbs).length) : DecimalText (decStr ⟨k, -fd⟩) := by
  obtain ⟨ip, fp, pt, ex, n, h1, h2, h3, h4, h5, h6, h7, h8, h9, h10⟩ := decStr_parts ⟨k, -fd⟩
  have hl : 0 < (natStr k.natAbs).length := List.length_pos_iff.2 (natStr_ne_nil _)
  have he : ex = [] := h9 (by simp only; omega) (by simp only; omega)
  have hd : ∀ c, isDigit c = true → '0' ≤ c ∧ c ≤ '9' := by
    intro c hc
    simp only [isDigit, Bool.and_eq_true, decide_eq_true_eq] at hc
    exact ⟨by simpa [Char.le_def, UInt32.le_iff_toNat_le] using hc.1, by simpa [Char.le_def, UInt32.le_iff_toNat_le] using hc.2⟩
  refine ⟨if k < 0 then ['-'] else [], ip, fp, ?_, h3, fun c hc => hd c (h1 c hc), fun c hc => hd c (h2 c hc), ?_⟩
  · split <;> simp
  · rw [h6, he]
    cases pt with
    | false => exact .inl ⟨h4 rfl, by simp⟩
    | true => exact .inr ⟨h10 rfl, by simp⟩

/-- Elements of leaf-lists. -/
theorem serElem_ext {rx : Str → Str → Bool} {ietf : Bool} {mod name : Str} {fd : Nat} {k : Int} {u : Bool} {tx : List PyVal → Str} :
    serElem ietf mod ((YTy.ext name (.dec fd)).llCls rx u tx) (.obj (.dec ⟨k, -fd⟩)) = .ok (extJ ietf (.dec ⟨k, -fd⟩)) := by
  show serVal ietf mod [] _ _ = _
  exact serDecimal_dec ietf _

end Pyb
