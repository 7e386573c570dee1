import Verif.Model.JsonLeaf
import Verif.Spec.Json
import Verif.Spec.Restricted

/-! # Specification vocabulary: the encoding of RFC 7951, and trees ready for it -/

namespace Spec
open Py Pyb

/-- The built-in types of YANG (RFC 6020, 9). -/
def yangBuiltins : List Str :=
  [py!"binary", py!"bits", py!"boolean", py!"decimal64", py!"empty", py!"enumeration", py!"identityref",
   py!"instance-identifier", py!"int8", py!"int16", py!"int32", py!"int64", py!"leafref", py!"string",
   py!"uint8", py!"uint16", py!"uint32", py!"uint64", py!"union"]

/-- The argument of a `type` statement for a type that derives from the built-in type `b`:
its own name, or the name of a typedef, which is not the name of a built-in type
(RFC 6020, 7.3). -/
def TypeArg (b name : Str) : Prop := name = b ∨ name ∉ yangBuiltins

/-- The values of the three types: a decimal of 64 bits with its number of digits (RFC 6020,
9.3), octets, declared bits in the order of the texts of their positions (a bits value is a
set; this stands for it).  The names of bits are identifiers: they have no spaces. -/
inductive ExtValue : ExtTy → PyObj → Prop where
  | dec (fd : Nat) (k : Int) (h1 : 1 ≤ fd ∧ fd ≤ 18) (h2 : -2 ^ 63 ≤ k ∧ k < 2 ^ 63) : ExtValue (.dec fd) (.dec ⟨k, -fd⟩)
  | bin (b : List Nat) (h : ∀ n ∈ b, n < 256) : ExtValue .bin (.bytes b)
  | bits (allowed : List (Str × Str)) (ns : List Str) (h1 : ∀ a ∈ allowed, a.1 ≠ [] ∧ ∀ c ∈ a.1, isSpace c = false)
      (h2 : ∀ b ∈ ns, b ∈ allowed.map Prod.fst)
      (h3 : ns.Pairwise fun a b => ∃ p q, allowed.lookup a = some p ∧ allowed.lookup b = some q ∧ strLe p q = true ∧ p ≠ q) :
      ExtValue (.bits allowed) (.bits ns)

/-- The name of the built-in type. -/
def extName : ExtTy → Str
  | .dec _ => py!"decimal64"
  | .bin => py!"binary"
  | .bits _ => py!"bits"

/-- The values of the types.  An integer is in the range of the built-in type and in all
further ranges (`LegalChain` says they are written correctly); an identity is one of those
the type knows. -/
inductive Value : YTy → PyVal → Prop where
  | int (name : Str) (t : IntTy) (chain : List (List WrittenPart)) (lo hi n : Int)
      (ha : TypeArg t.name name) (hb : builtinBounds t.name = some (lo, hi))
      (hl : LegalChain (chain ++ [[⟨.span (some lo) (some hi), 0, 0, 0, 0⟩]]))
      (hn : InType chain n ∧ lo ≤ n ∧ n ≤ hi) : Value (.int name t (chain.map rangeText)) (.int n)
  | str (name : Str) (T : RTy) (s : Str) (ha : TypeArg py!"string" name ∨ TypeArg py!"enumeration" name) :
      Value (.str name T) (.str s)
  | ident (name : Str) (ids : List (Str × Str)) (s : Str) (ha : TypeArg py!"identityref" name)
      (hs : s ∈ ids.map Prod.fst) (hc : ':' ∉ s) (hm : ∀ q ∈ ids, ':' ∉ q.2) : Value (.ident name ids) (.str s)
  | bool (name : Str) (b : Bool) (ha : TypeArg py!"boolean" name) : Value (.bool name) (.bool b)
  | empty (name : Str) (ha : TypeArg py!"empty" name) : Value (.empty name) (.bool true)
  | ext (name : Str) (x : ExtTy) (o : PyObj) (ha : TypeArg (extName x) name) (h : ExtValue x o) : Value (.ext name x) (.obj o)

/-- A value a leaf of the type stores unchanged.  (Decimals and octets always are; a leaf of
type `bits` takes texts only.) -/
def Stored (rx : Str → Str → Bool) (t : YTy) (v : PyVal) : Prop :=
  Value t v ∧ ((∀ n x, t ≠ .ext n x) → (t.cls rx).set v = .ok v)

/-- The class of the values of the type takes the value. -/
def Accepts (rx : Str → Str → Bool) (t : YTy) (v : PyVal) : Prop := ∃ w, t.ty.call rx v = .ok w

/-- The value `v` of the union `u` is a value of its member `t` (no decimal64, binary or
bits), as it is; the members
before, `pre`, do not take it (RFC 7950, 9.12: the first member that matches). -/
structure MemberValue (rx : Str → Str → Bool) (u : UTy) (pre : List YTy) (t : YTy) (v : PyVal) : Prop where
  name : TypeArg py!"union" u.name
  pos : ∃ post, u.members = pre ++ t :: post
  value : Value t v
  plain : ∀ n x, t ≠ .ext n x
  same : t.ty.call rx v = .ok v
  first : ∀ s ∈ pre, ¬ Accepts rx s v

/-- 64-bit integers without further ranges. -/
def LongInt : YTy → Prop
  | .int _ t rs => t ∈ [IntTy.int64, .uint64] ∧ rs = []
  | _ => False

/-- A leaf of one of the types holds a value of it; or the leaf is of a union, and if the
value is a 64-bit integer the members before do not take its text. -/
def LeafHolds (rx : Str → Str → Bool) (L : LeafCls) (v : PyVal) : Prop :=
  (∃ t d, L = YTy.cls rx t d ∧ Stored rx t v) ∨
  ∃ u d pre t, L = UTy.cls rx u d ∧ MemberValue rx u pre t v ∧ (LongInt t → ∀ s ∈ pre, ¬ Accepts rx s (.str v.toStr))

/-- A value a leaf-list of the type stores unchanged.  There are no leaf-lists of type `empty`
(RFC 6020, 7.7); those of type `binary` are left out. -/
def StoredElem (rx : Str → Str → Bool) (t : YTy) (v : PyVal) : Prop :=
  Value t v ∧ ((∀ n, t ≠ .empty n) ∧ ∀ n, t ≠ .ext n .bin) ∧ (t.llCls rx).conv v = some v

/-- A leaf-list whose type is `t` takes the value. -/
def ElemTakes (rx : Str → Str → Bool) (t : YTy) (v : PyVal) : Prop := ∃ w, (t.llCls rx).conv v = some w

/-- The element `v` of a leaf-list of the union `u` is a value of its member `t` (no
decimal64, binary or bits); the members before, `pre`, take neither the value nor what is
written for it: the text of a 64-bit integer, the number of a boolean. -/
structure ElemMember (rx : Str → Str → Bool) (u : UTy) (pre : List YTy) (t : YTy) (v : PyVal) : Prop where
  name : TypeArg py!"union" u.name
  pos : ∃ post, u.members = pre ++ t :: post
  elem : StoredElem rx t v
  plain : ∀ n x, t ≠ .ext n x
  first : ∀ s ∈ pre, ¬ ElemTakes rx s v
  long : LongInt t → ∀ s ∈ pre, ¬ ElemTakes rx s (.str v.toStr)
  bool : ∀ b, v = .bool b → ∀ s ∈ pre, ¬ ElemTakes rx s (.int (if b then 1 else 0))

/-- The elements of a leaf-list of one of the types are values of it; or it is of a union,
and each is a value of a member. -/
def ElemsHold (rx : Str → Str → Bool) (L : LLCls) (vs : List PyVal) : Prop :=
  (∃ t u tx, L = YTy.llCls rx t u tx ∧ ∀ v ∈ vs, StoredElem rx t v) ∨
  ∃ u b tx, L = UTy.llCls rx u b tx ∧ ∀ v ∈ vs, ∃ pre t, ElemMember rx u pre t v

/-- The value of the leaf at position `i`. -/
def valAt (ns : List Inst) (i : Nat) : PyVal :=
  match ns[i]? with
  | some (.leaf v _) => v
  | _ => .none

/-- Key leaves.  Position `i` holds a leaf of some type (not `empty`, decimal64, binary or
bits), in the namespace of
the list, that is set in every entry; an identityref names an identity of the module of
the leaf. -/
def KeyLeaf (rx : Str → Str → Bool) (ns : Str) (kids : List (Meta × Schema)) (es : List (PyVal × Inst)) (i : Nat) : Prop :=
  ∃ m t d, kids[i]? = some (m, .leaf (t.cls rx d)) ∧ m.ns = ns ∧ ((∀ n, t ≠ .empty n) ∧ ∀ n x, t ≠ .ext n x) ∧
    ∀ q ∈ es, ∃ v, q.2.kids[i]? = some (.leaf v true) ∧ Stored rx t v ∧
      ∀ ids, t = .ident py!"identityref" ids → ids.lookup v.toStr = some m.module_

/-- The entries of a list can be told apart by the values of their key leaves.  One key:
the values differ, and are not the empty string.  Several keys: their texts, joined with
spaces, differ, and the last one is not empty and does not end with a space. -/
def KeysApart (rx : Str → Str → Bool) (ns : Str) (info : ListInfo) (kids : List (Meta × Schema)) (es : List (PyVal × Inst)) : Prop :=
  info.keys.Nodup ∧ (∀ i ∈ info.keys, KeyLeaf rx ns kids es i) ∧
  (∀ i, info.keys = [i] → (∀ q ∈ es, valAt q.2.kids i ≠ .str []) ∧
    es.Pairwise fun a b => pyEq (valAt a.2.kids i) (valAt b.2.kids i) = false) ∧
  (2 ≤ info.keys.length →
    (∀ q ∈ es, ∃ s c, ((info.keys.map (valAt q.2.kids)).map PyVal.toStr).getLastD [] = s ++ [c] ∧ c ≠ ' ') ∧
    es.Pairwise fun a b => keyText (info.keys.map (valAt a.2.kids)) ≠ keyText (info.keys.map (valAt b.2.kids)))

/-- Trees of the types considered, holding values of their types: the conditions on each
object.

* a leaf that was set, and the elements of a leaf-list, hold values of their types
* a leaf-list with values is marked as changed, and has no value twice
* siblings have different names, and at most one case of a choice holds data
* a presence container that is not present holds no data
* the entries of a list can be told apart by their keys -/
def JsonReady (rx : Str → Str → Bool) (m : Meta) : Schema → Inst → Prop
  | .leaf L, .leaf v ch => ch = true → LeafHolds rx L v
  | .leafList L, .leafList vs ch => vs ≠ [] → ch = true ∧ ElemsHold rx L vs ∧
      vs.Pairwise fun a b => pyEq a b = false
  | .cont pres kids, .cont _ pr ns => OneCase kids ns ∧ GoodNames kids ∧
      (pres = true → pr = false → ∀ n ∈ ns, Untouched n)
  | .list info kids, .list _ es => GoodNames kids ∧ (∀ q ∈ es, OneCase kids q.2.kids) ∧ KeysApart rx m.ns info kids es
  | _, _ => False

/-- The conditions of `JsonReady` that are not a consequence of how trees are made: those
on the values, the names and the keys. -/
def ValuesReady (rx : Str → Str → Bool) (m : Meta) : Schema → Inst → Prop
  | .leaf L, .leaf v ch => ch = true → LeafHolds rx L v
  | .leafList L, .leafList vs _ => vs ≠ [] → ElemsHold rx L vs ∧
      vs.Pairwise fun a b => pyEq a b = false
  | .cont _ kids, .cont _ _ _ => GoodNames kids
  | .list info kids, .list _ es => GoodNames kids ∧ KeysApart rx m.ns info kids es
  | _, _ => False

/-- The lexical form of a `decimal64` (RFC 7950, 9.3.1): an optional sign, digits, and
optionally a point with further digits. -/
def DecimalText (s : Str) : Prop :=
  ∃ sg ip fp, (sg = [] ∨ sg = ['-'] ∨ sg = ['+']) ∧ ip ≠ [] ∧ (∀ c ∈ ip, '0' ≤ c ∧ c ≤ '9') ∧ (∀ c ∈ fp, '0' ≤ c ∧ c ≤ '9') ∧
    ((fp = [] ∧ s = sg ++ ip) ∨ (fp ≠ [] ∧ s = sg ++ ip ++ '.' :: fp))

/-- The JSON encoding of a value according to RFC 7951, 6.  `mod` is the module of the
leaf. -/
inductive Rfc7951 (mod : Str) : YTy → PyVal → J → Prop where
  /-- 6.1: 64-bit integers are strings, the others numbers -/
  | small (name t rs) (n : Int) : t ∉ [IntTy.int64, .uint64] → Rfc7951 mod (.int name t rs) (.int n) (.num n)
  | large (name t rs) (n : Int) : t ∈ [IntTy.int64, .uint64] → Rfc7951 mod (.int name t rs) (.int n) (.str (intStr n))
  /-- 6.2, 6.4 -/
  | str (name T s) : Rfc7951 mod (.str name T) (.str s) (.str s)
  /-- 6.3 -/
  | bool (name b) : Rfc7951 mod (.bool name) (.bool b) (.bool b)
  /-- 6.8: the name may be left unqualified only if the identity is defined in the module
  of the leaf -/
  | ident (name ids s m) : ids.lookup s = some m → Rfc7951 mod (.ident name ids) (.str s) (.str (m ++ ':' :: s))
  | identHere (name ids s) : ids.lookup s = some mod → Rfc7951 mod (.ident name ids) (.str s) (.str s)
  /-- 6.9 -/
  | empty (name) : Rfc7951 mod (.empty name) (.bool true) (.arr [.null])
  /-- 6.1: a string with the lexical form of RFC 7950, 9.3.1 -/
  | dec (name fd x s) : DecimalText s → decOfStr s = .ok x → Rfc7951 mod (.ext name (.dec fd)) (.obj (.dec x)) (.str s)
  /-- 6.6: base64 -/
  | bin (name b) : Rfc7951 mod (.ext name .bin) (.obj (.bytes b)) (.str (b64encode b))
  /-- 6.5: the names of the bits, separated by spaces -/
  | bits (name allowed ns ns') : ns'.Perm ns → Rfc7951 mod (.ext name (.bits allowed)) (.obj (.bits ns)) (.str (join [' '] ns'))

/-- The types and values for which the encoding is right: a 64-bit integer has the
built-in type itself or a typedef that adds no range; an identityref has the built-in
type, and the name of the identity does not start with the name of its module; `empty`
is the built-in type; a decimal64 has at most six digits, or its coefficient has more than
the number of digits minus six. -/
def EncodedWell : YTy → PyVal → Prop
  | .int name t rs, _ => t ∈ [IntTy.int64, .uint64] → name = t.name ∨ rs = []
  | .ident name ids, v => name = py!"identityref" ∧ ∀ m, ids.lookup v.toStr = some m → ¬ m <+: v.toStr
  | .empty name, _ => name = py!"empty"
  | .ext _ (.dec fd), .obj (.dec x) => fd ≤ 6 ∨ fd < 6 + (natStr x.coef.natAbs).length
  | _, _ => True

end Spec
