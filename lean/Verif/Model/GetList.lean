import Verif.Model.XPath
import Verif.Model.Names

/-! # `get_list` of the path helper -/

namespace Pyb
open Py

/-- `get_list` for a path given as parts, pyangbind/lib/xpathhelper.py:321-333.  `attr o n` is
what the method `n` of the object `o` gives, if it has one; the exception raised is the caller's
choice, here `runtimeError`.  (For the path without parts `get_unique` raises already.) -/
def Helper.getList {α : Type} (h : Helper) (attr : XObj → Str → Option α) (path : List Str) (caller : Option (List Str)) : Except Err α :=
  match h.getUnique path.dropLast caller with
  | .error e => .error e
  | .ok o =>
    match attr o (py!"_get_" ++ safeName (path.getLastD [])) with
    | none => .error .runtimeError
    | some v => .ok v

/-- `get_list` for a text. -/
def Helper.getListStr {α : Type} (h : Helper) (attr : XObj → Str → Option α) (path : Str) (caller : Option (List Str)) : Except Err α :=
  h.getList attr (pathParts path) caller

/-- The methods `_get_...` of the `FakeRoot`, pyangbind/lib/xpathhelper.py:236-241: one for each
path of one part that was registered, under the text of the part. -/
def rootGetters (paths : List (List Str)) : List Str :=
  paths.filterMap fun p => match p with | [s] => some (py!"_get_" ++ safeName s) | _ => none

end Pyb
