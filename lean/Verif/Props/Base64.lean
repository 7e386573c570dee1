import Verif.Spec.Base64
import Verif.Props.Scalar

/-! # C18: the text of binary values -/

namespace Pyb
open Py Spec

theorem rfcChar_eq : ∀ n, n < 64 → rfcChar n = b64Char n := by decide

theorem bits_hi6 : ∀ a, a < 256 → bitsNat [a.testBit 7, a.testBit 6, a.testBit 5, a.testBit 4, a.testBit 3, a.testBit 2] = a / 4 := by
  intro a h
  simp only [bitsNat, List.foldl_cons, List.foldl_nil, Nat.toNat_testBit, Nat.reducePow]
  omega
theorem bits_lo6 : ∀ a, a < 256 → bitsNat [a.testBit 5, a.testBit 4, a.testBit 3, a.testBit 2, a.testBit 1, a.testBit 0] = a % 64 := by
  intro a h
  simp only [bitsNat, List.foldl_cons, List.foldl_nil, Nat.toNat_testBit, Nat.reducePow]
  omega
theorem bits_hi4 : ∀ a, a < 256 → bitsNat [a.testBit 7, a.testBit 6, a.testBit 5, a.testBit 4] = a / 16 := by
  intro a h
  simp only [bitsNat, List.foldl_cons, List.foldl_nil, Nat.toNat_testBit, Nat.reducePow]
  omega
theorem bits_lo4 : ∀ a, a < 256 → bitsNat [a.testBit 3, a.testBit 2, a.testBit 1, a.testBit 0] = a % 16 := by
  intro a h
  simp only [bitsNat, List.foldl_cons, List.foldl_nil, Nat.toNat_testBit, Nat.reducePow]
  omega
theorem bits_hi2 : ∀ a, a < 256 → bitsNat [a.testBit 7, a.testBit 6] = a / 64 := by
  intro a h
  simp only [bitsNat, List.foldl_cons, List.foldl_nil, Nat.toNat_testBit, Nat.reducePow]
  omega
theorem bits_lo2 : ∀ a, a < 256 → bitsNat [a.testBit 1, a.testBit 0] = a % 4 := by
  intro a h
  simp only [bitsNat, List.foldl_cons, List.foldl_nil, Nat.toNat_testBit, Nat.reducePow]
  omega

theorem bits_24 (x y z u v w : Bool) : bitsNat [x, y, z, u, v, w] = bitsNat [x, y] * 16 + bitsNat [z, u, v, w] := by
  cases x <;> cases y <;> cases z <;> cases u <;> cases v <;> cases w <;> rfl
theorem bits_42 (x y z u v w : Bool) : bitsNat [x, y, z, u, v, w] = bitsNat [x, y, z, u] * 4 + bitsNat [v, w] := by
  cases x <;> cases y <;> cases z <;> cases u <;> cases v <;> cases w <;> rfl

/-- The three-octet step. -/
theorem sextets_three {a b c : Nat} (rest : List Bool) (ha : a < 256) (hb : b < 256) (hc : c < 256) :
    sextets (octetBits a ++ (octetBits b ++ (octetBits c ++ rest))) =
      a / 4 :: (a % 4 * 16 + b / 16) :: (b % 16 * 4 + c / 64) :: c % 64 :: sextets rest := by
  simp only [octetBits, List.cons_append, List.nil_append, sextets, bits_hi6 a ha, bits_lo6 c hc, bits_24 (a.testBit 1), bits_42 (b.testBit 3),
    bits_lo2 a ha, bits_hi4 b hb, bits_lo4 b hb, bits_hi2 c hc]

theorem b64_rfc : ∀ bs : List Nat, (∀ b ∈ bs, b < 256) → b64encode bs = rfc4648 bs
  | [], _ => rfl
  | [a], h => by
    have ha := h a (by simp)
    have e : bitsNat [a.testBit 1, a.testBit 0, false, false, false, false] = a % 4 * 16 := by rw [bits_24, bits_lo2 a ha]; rfl
    have e' : sextets ([a].flatMap octetBits) = [a / 4, a % 4 * 16] := by
      simp only [List.flatMap_cons, List.flatMap_nil, octetBits, List.append_nil, sextets, bits_hi6 a ha, ← e]; rfl
    simp only [rfc4648, e', b64encode, List.map_cons, List.map_nil, rfcChar_eq _ (show a / 4 < 64 by omega), rfcChar_eq _ (show a % 4 * 16 < 64 by omega)]
    rfl
  | [a, b], h => by
    have ha := h a (by simp)
    have hb := h b (by simp)
    have e : bitsNat [b.testBit 3, b.testBit 2, b.testBit 1, b.testBit 0, false, false] = b % 16 * 4 := by rw [bits_42, bits_lo4 b hb]; rfl
    have e' : sextets ([a, b].flatMap octetBits) = [a / 4, a % 4 * 16 + b / 16, b % 16 * 4] := by
      simp only [List.flatMap_cons, List.flatMap_nil, octetBits, List.append_nil, List.cons_append, List.nil_append, sextets, bits_hi6 a ha,
        bits_24 (a.testBit 1), bits_lo2 a ha, bits_hi4 b hb, ← e]; rfl
    simp only [rfc4648, e', b64encode, List.map_cons, List.map_nil, rfcChar_eq _ (show a / 4 < 64 by omega),
      rfcChar_eq _ (show a % 4 * 16 + b / 16 < 64 by omega), rfcChar_eq _ (show b % 16 * 4 < 64 by omega)]
    rfl
  | a :: b :: c :: rest, h => by
    have ha := h a (by simp)
    have hb := h b (by simp)
    have hc := h c (by simp)
    have ih := b64_rfc rest fun x hx => h x (by simp [hx])
    simp only [b64encode, ih, rfc4648, List.flatMap_cons, sextets_three _ ha hb hc, List.map_cons, List.length_cons, List.cons_append,
      rfcChar_eq _ (show a / 4 < 64 by omega), rfcChar_eq _ (show a % 4 * 16 + b / 16 < 64 by omega),
      rfcChar_eq _ (show b % 16 * 4 + c / 64 < 64 by omega), rfcChar_eq _ (show c % 64 < 64 by omega)]
    congr 7
    omega

/-- **C18.**  What is written for a binary value is its base 64 encoding as RFC 4648 defines
it. -/
theorem C18_rfc4648 (bs : List Nat) (h : ∀ b ∈ bs, b < 256) : dumpBinary bs = rfc4648 bs := b64_rfc bs h

/-- **C18.**  The text RFC 4648 defines for some octets can be assigned to a binary leaf, which
then has these octets. -/
theorem C18_rfc4648_read (bs : List Nat) (h : ∀ b ∈ bs, b < 256) : yangBinary (.text (rfc4648 bs)) = .ok bs := by
  rw [← C18_rfc4648 bs h]; exact C18_base64_roundtrip bs h

example : rfc4648 [77, 97, 110, 33] = py!"TWFuIQ==" ∧ rfc4648 [251, 255] = py!"+/8=" := by decide

end Pyb
