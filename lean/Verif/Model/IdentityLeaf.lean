import Verif.Model.Identity
import Verif.Model.JsonLeaf

/-! # Leaves of type identityref, from the identity statements -/

namespace Pyb
open Py

/-- The type of a leaf with `type identityref { base b; }`: `class_map[b]`,
pyangbind/plugin/pybind.py:1342-1347, with the dictionary `e` of `build_identities`
(440-479) as its restriction; of the information on each identity only `@module` is used
for JSON.  For leaves whose `type` statement is this one, not a typedef. -/
def identTy (e : Dict IdInfo) : YTy := .ident py!"identityref" (e.map fun q => (q.1, q.2.1))

end Pyb
