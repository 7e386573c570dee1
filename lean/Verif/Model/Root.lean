import Verif.Model.Shared

/-! # The object at `/` -/

namespace Pyb
open Py Spec

/-- The first part of `register`, pyangbind/lib/xpathhelper.py:236-242: an object that is
registered at a path of one step becomes an attribute of the `FakeRoot` (lib/xpathhelper.py:98-104),
and its step is put into the `_pyangbind_elements`, which are what its `get`, its iterator and the
serialisers go by.  The name is what `yang_name()` of the object gives.  `unregister`
(lib/xpathhelper.py:272-293) leaves the `FakeRoot` alone. -/
def rootStep (d : Dict (Str × XObj)) : RegOp → Dict (Str × XObj)
  | .register [s] o => d.set s.text (s.tag, o)
  | _ => d

/-- The attributes of the `FakeRoot` of the helper that bindings are made with and used in turns. -/
def rootAttrs (mods : List (List (Meta × Schema))) (evs : List SharedOp) : Dict (Str × XObj) :=
  (makeAll mods ++ sharedCalls mods (mods.map freshKids) evs).foldl rootStep []

/-- `get()` of the `FakeRoot`, pyangbind/lib/base.py:31-45: each attribute goes under the
`yang_name()` of the object.  (The objects stand for what their `get()` gives.) -/
def rootGet (d : Dict (Str × XObj)) : Dict XObj := d.foldl (fun g x => g.set x.2.1 x.2.2) []

end Pyb
