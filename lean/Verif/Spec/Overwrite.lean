import Verif.Spec.NativeOrder

/-! # Specification vocabulary: loading over existing data -/

namespace Spec
open Py Pyb

/-- The old values followed by the new ones, each once. -/
def union (old new : List PyVal) : List PyVal :=
  new.foldl (fun acc v => if acc.any fun x => pyEq x v then acc else acc ++ [v]) old

end Spec
