import Verif.Model.Split

/-! # Names that split bindings work for -/

namespace Spec
open Py Pyb

/-- A name as it is written in Python: `_` for `-` and `.`. -/
def pyName (n : Str) : Str := n.map fun c => if c = '-' ∨ c = '.' then '_' else c

/-- The names every file of a binding imports or sets before its classes. -/
def importedNames : List Str :=
  [py!"attrgetter", py!"xpathhelper", py!"RestrictedPrecisionDecimalType", py!"RestrictedClassType", py!"TypedListType", py!"YANGBool",
   py!"YANGListType", py!"YANGDynClass", py!"ReferenceType", py!"YANGBinary", py!"YANGBitsType", py!"PybindBase", py!"OrderedDict", py!"Decimal",
   py!"__builtin__", py!"long"]

/-- A name that is none of those with a special meaning, and does not end in `_`, `-` or
`.`. -/
structure PlainName (n : Str) : Prop where
  nonempty : n ≠ []
  not_reserved : pyName n ∉ reservedName
  not_header : pyName n ∉ importedNames
  no_tail : (pyName n).getLast? ≠ some '_'

/-- The nodes with a class below a node called `parent`: siblings differ in Python, and from
the node they are in unless they have just its name. -/
inductive SplitOk : Str → Holders → Prop
  | mk {parent : Str} {kids : Holders} (names : ∀ k ∈ kids.toList, PlainName k.name)
      (siblings : kids.toList.Pairwise fun a b => pyName a.name ≠ pyName b.name)
      (up : ∀ k ∈ kids.toList, pyName k.name = pyName parent → k.name = parent)
      (below : ∀ k ∈ kids.toList, SplitOk k.name k.kids) : SplitOk parent kids

def rpcName (m : SplitModule) : Str := pyName m.name ++ py!"_rpc"
def notificationName (m : SplitModule) : Str := pyName m.name ++ py!"_notification"

/-- Modules whose bindings can share a directory. -/
structure ModulesOk (ms : List SplitModule) : Prop where
  names : ∀ m ∈ ms, PlainName m.name
  distinct : ms.Pairwise fun m m' => pyName m.name ≠ pyName m'.name
  data : ∀ m ∈ ms, SplitOk m.name m.data
  rpcs : ∀ m ∈ ms, SplitOk m.name m.rpcs ∧ ∀ k ∈ m.rpcs.toList, k.name ≠ m.name ∧ k.name ≠ rpcName m
  notifications : ∀ m ∈ ms, SplitOk m.name m.notifications ∧ ∀ k ∈ m.notifications.toList, k.name ≠ m.name ∧ k.name ≠ notificationName m
  tops : ms.Pairwise fun m m' => ∀ k ∈ m.data.toList, ∀ k' ∈ m'.data.toList, pyName k.name ≠ pyName k'.name
  others : ∀ m ∈ ms, ∀ m' ∈ ms, ∀ k ∈ m.data.toList, (m.name ≠ m'.name → pyName k.name ≠ pyName m'.name) ∧
    pyName k.name ≠ rpcName m' ∧ pyName k.name ≠ notificationName m'

/-- Following names down the tree. -/
inductive NodeAt : Holders → List Str → Holders → Prop
  | here (ks : Holders) : NodeAt ks [] ks
  | down {ks ks' : Holders} {p : List Str} (k : Holder) (hk : k ∈ ks.toList) (h : NodeAt k.kids p ks') : NodeAt ks (k.name :: p) ks'

end Spec
