import Verif.Spec.Reg
import Verif.Model.Shared

/-! # Several bindings: what is done to each of them -/

namespace Spec
open Py Pyb

/-- The operations on the binding with that number, in their order. -/
def opsOf (i : Nat) (evs : List SharedOp) : List (Path × Op) := evs.filterMap fun e => if e.1 = i then some e.2 else none

end Spec
