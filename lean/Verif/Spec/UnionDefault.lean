import Verif.Model.UnionDefault

/-! # Unions in a module -/

namespace Spec
open Py Pyb

/-- A member type of a union: a built-in type as it is, or an integer type or string with
restrictions (`range`, `length`, `pattern`, or the names of an enumeration). -/
inductive MemTy where
  | int (t : IntTy) | string | boolean
  | intR (t : IntTy) (rs : List Restr)
  | stringR (rs : List Restr)

/-- The class that checks values of the member in the generated program (C20). -/
def MemTy.leafTy : MemTy → LeafTy
  | .int t => .restr t.rty
  | .string => .restr (.base .str)
  | .boolean => .bool
  | .intR t rs => .restr (.restr t.rty rs)
  | .stringR rs => .restr (.restr (.base .str) rs)

/-- The built-in type it comes from. -/
def MemTy.ctor : MemTy → Ctor
  | .int t => .int t
  | .string => .string
  | .boolean => .boolean
  | .intR t _ => .int t
  | .stringR _ => .string

/-- What `build_elemtype` makes of it: the entry of the built-in type, or a derived one
(pyangbind/plugin/pybind.py:1253-1295, 1377).  A typedef without default of a type with
restrictions gives the same dictionary (589-597). -/
def MemTy.elem : MemTy → CEnt
  | .int t => (Ctor.int t).entry
  | .string => Ctor.string.entry
  | .boolean => Ctor.boolean.entry
  | .intR t _ => ⟨some false, .one t.name, none, none⟩
  | .stringR _ => ⟨some false, .one py!"string", none, none⟩

/-- `class_map` has the built-in types. -/
def HasBuiltins (cm : Dict CEnt) : Prop := ∀ c : Ctor, cm.get? c.name = some c.entry

/-- The built-in types, as a table. -/
def builtins : Dict CEnt :=
  [Ctor.boolean, .binary, .int .uint8, .bits, .int .uint16, .int .uint32, .int .uint64, .string, .decimal,
    .int .int8, .int .int16, .int .int32, .int .int64].map fun c => (c.name, c.entry)

/-- A type as it is, as a member of a union in a typedef. -/
def plainMem (c : Ctor) : UMem := ⟨c.entry, c.name⟩

/-- The value of the leaf's type that the text of a default means: what assigning the text
to a leaf with these members gives. -/
def Means (rx : Str → Str → Bool) (ms : List MemTy) (v : Str) (x : PyVal) : Prop :=
  setUnion rx (ms.map MemTy.leafTy) (.str v) = .ok x

/-- The restrictions of the member do not refuse `v` if the built-in type takes it. -/
def NoNarrower (rx : Str → Str → Bool) (m : MemTy) (v : Str) : Prop :=
  (m.ctor.call rx v).toBool = true → (m.leafTy.call rx (.str v)).toBool = true

end Spec
