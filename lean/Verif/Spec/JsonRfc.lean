import Verif.Spec.JsonText

/-! # JSON text, as RFC 8259 has it

The grammar of the RFC, with the document a text stands for. -/

namespace Spec
open Py Pyb

/-- `ws` (RFC 8259, 2). -/
def JsonBlank (s : Str) : Prop := ∀ c ∈ s, c = ' ' ∨ c = '\t' ∨ c = '\n' ∨ c = '\r'

/-- A hexadecimal digit, of either case (RFC 8259, 7), and its value. -/
def HexDigit (c : Char) (n : Nat) : Prop :=
  (n < 10 ∧ c.toNat = 0x30 + n) ∨ (10 ≤ n ∧ n < 16 ∧ (c.toNat = 0x41 + (n - 10) ∨ c.toNat = 0x61 + (n - 10)))

/-- Four of them. -/
def HexFour (s : Str) (n : Nat) : Prop :=
  ∃ a b c d x y z w, s = [a, b, c, d] ∧ HexDigit a x ∧ HexDigit b y ∧ HexDigit c z ∧ HexDigit d w ∧ n = ((x * 16 + y) * 16 + z) * 16 + w

/-- `char` (RFC 8259, 7): the character, and a way to write it in a string. -/
inductive CharText : Char → Str → Prop where
  | plain (c : Char) : c ≠ '"' → c ≠ '\\' → 0x20 ≤ c.toNat → CharText c [c]
  | quote : CharText '"' ['\\', '"']
  | backslash : CharText '\\' ['\\', '\\']
  | slash : CharText '/' ['\\', '/']
  | backspace : CharText (Char.ofNat 0x08) ['\\', 'b']
  | formFeed : CharText (Char.ofNat 0x0c) ['\\', 'f']
  | lineFeed : CharText (Char.ofNat 0x0a) ['\\', 'n']
  | carriage : CharText (Char.ofNat 0x0d) ['\\', 'r']
  | tab : CharText (Char.ofNat 0x09) ['\\', 't']
  | one (c : Char) (s : Str) : HexFour s c.toNat → CharText c ('\\' :: 'u' :: s)
  | two (c : Char) (s t : Str) (hi lo : Nat) : HexFour s hi → HexFour t lo → 0xd800 ≤ hi → hi ≤ 0xdbff → 0xdc00 ≤ lo → lo ≤ 0xdfff →
      c.toNat = 0x10000 + (hi - 0xd800) * 0x400 + (lo - 0xdc00) → CharText c ('\\' :: 'u' :: s ++ '\\' :: 'u' :: t)

inductive CharsText : Str → Str → Prop where
  | nil : CharsText [] []
  | cons (c : Char) (s u v : Str) : CharText c u → CharsText s v → CharsText (c :: s) (u ++ v)

/-- `string`. -/
def StringText (s t : Str) : Prop := ∃ u, CharsText s u ∧ t = '"' :: u ++ ['"']

/-- `number` without fraction and exponent (RFC 8259, 6). -/
def IntegerText (n : Int) (s : Str) : Prop := ∃ m : Nat, (n = m ∧ s = natStr m) ∨ (n = -m ∧ s = '-' :: natStr m)

/-- `number` with a fraction or an exponent. -/
def FloatText (s : Str) : Prop :=
  ∃ sign n f e, s = sign ++ natStr n ++ f ++ e ∧ (sign = [] ∨ sign = ['-']) ∧
    (f = [] ∨ ∃ d, f = '.' :: d ∧ Digits d) ∧
    (e = [] ∨ ∃ x g d, e = x :: g ++ d ∧ (x = 'e' ∨ x = 'E') ∧ (g = [] ∨ g = ['-'] ∨ g = ['+']) ∧ Digits d) ∧
    (f ≠ [] ∨ e ≠ [])

/-- What a text may stand for. -/
inductive JsonPart where
  | value (j : J)
  | elements (xs : List J)
  | members (ms : List (Str × J))

/-- `value`, and what is between the brackets of arrays and objects (RFC 8259, 3-5): the names
of an object are different.  `rf` is the value of a number that is no integer. -/
inductive RfcText (rf : Str → Option (Int × Int)) : JsonPart → Str → Prop where
  | null : RfcText rf (.value .null) py!"null"
  | true : RfcText rf (.value (.bool true)) py!"true"
  | false : RfcText rf (.value (.bool false)) py!"false"
  | integer (n : Int) (s : Str) : IntegerText n s → RfcText rf (.value (.num n)) s
  | float (x : Int × Int) (s : Str) : FloatText s → rf s = some x → RfcText rf (.value (.float x)) s
  | string (s t : Str) : StringText s t → RfcText rf (.value (.str s)) t
  | empty (w : Str) : JsonBlank w → RfcText rf (.value (.arr [])) ('[' :: w ++ [']'])
  | array (xs : List J) (s w w' : Str) : JsonBlank w → JsonBlank w' → RfcText rf (.elements xs) s →
      RfcText rf (.value (.arr xs)) ('[' :: w ++ s ++ w' ++ [']'])
  | none (w : Str) : JsonBlank w → RfcText rf (.value (.obj [])) ('{' :: w ++ ['}'])
  | object (ms : List (Str × J)) (s w w' : Str) : JsonBlank w → JsonBlank w' → RfcText rf (.members ms) s → (ms.map Prod.fst).Nodup →
      RfcText rf (.value (.obj ms)) ('{' :: w ++ s ++ w' ++ ['}'])
  | element (x : J) (s : Str) : RfcText rf (.value x) s → RfcText rf (.elements [x]) s
  | elements (x : J) (xs : List J) (s t w w' : Str) : RfcText rf (.value x) s → JsonBlank w → JsonBlank w' → RfcText rf (.elements xs) t →
      RfcText rf (.elements (x :: xs)) (s ++ w ++ ',' :: w' ++ t)
  | member (k : Str) (x : J) (u s v v' : Str) : StringText k u → JsonBlank v → JsonBlank v' → RfcText rf (.value x) s →
      RfcText rf (.members [(k, x)]) (u ++ v ++ ':' :: v' ++ s)
  | members (k : Str) (x : J) (ms : List (Str × J)) (u s t v v' w w' : Str) : StringText k u → JsonBlank v → JsonBlank v' → RfcText rf (.value x) s →
      JsonBlank w → JsonBlank w' → RfcText rf (.members ms) t →
      RfcText rf (.members ((k, x) :: ms)) (u ++ v ++ ':' :: v' ++ s ++ w ++ ',' :: w' ++ t)

/-- `JSON-text` (RFC 8259, 2). -/
def Rfc8259 (rf : Str → Option (Int × Int)) (j : J) (s : Str) : Prop :=
  ∃ t w w', JsonBlank w ∧ JsonBlank w' ∧ RfcText rf (.value j) t ∧ s = w ++ t ++ w'

end Spec
