import Verif.Spec.Native
import Verif.Spec.XmlTypes

/-! # Specification vocabulary: unions in documents -/

namespace Spec
open Py Pyb

/-- An integer type whose ranges are written correctly. -/
def IntType (t : YTy) : Prop :=
  ∃ name it chain lo hi, TypeArg (IntTy.name it) name ∧ builtinBounds it.name = some (lo, hi) ∧
    LegalChain (chain ++ [[⟨.span (some lo) (some hi), 0, 0, 0, 0⟩]]) ∧ t = .int name it (chain.map rangeText)

/-- A string type or an enumeration. -/
def StrType (t : YTy) : Prop :=
  ∃ name T, (TypeArg py!"string" name ∨ TypeArg py!"enumeration" name) ∧ T.zero = .str [] ∧ t = .str name T

/-- The types and values for which the encoding of a union's value is right: a 64-bit
integer has no ranges; an identity is of the module of the leaf. -/
def UnionWell (mod : Str) : YTy → PyVal → Prop
  | .int _ t rs, _ => t ∈ [IntTy.int64, .uint64] → rs = []
  | .ident _ ids, v => ids.lookup v.toStr = some mod
  | .empty _, _ => False
  | .ext _ _, _ => False
  | _, _ => True

end Spec
