import Verif.Model.Dumps
import Verif.Model.Native

/-! # The document written for a tree

`Written` says which JSON document stands for a tree of Python objects, given its class. -/

namespace Spec
open Py Pyb

/-- The two lists have the same length and their elements are related. -/
inductive Pairs {α β : Type} (R : α → β → Prop) : List α → List β → Prop where
  | nil : Pairs R [] []
  | cons {a b as bs} : R a b → Pairs R as bs → Pairs R (a :: as) (b :: bs)

mutual
/-- The value written for a child of the given class; `ietf` is the mode. -/
inductive Written : Bool → Meta → Schema → PTree → J → Prop where
  | leaf (ietf m L v j) : serLeaf ietf (if ietf then m.module_ else []) L v = .ok j → Written ietf m (.leaf L) (.leaf v) j
  | vals (ietf m L vs js) : Pairs (fun v j => serElem ietf (if ietf then m.module_ else []) L v = .ok j) vs js → Written ietf m (.leafList L) (.vals vs) (.arr js)
  | cont (ietf m pres kids items ms) : WrittenItems ietf (some m.ns) kids items ms → Written ietf m (.cont pres kids) (.dict items) (.obj ms)
  /-- A list in IETF mode is an array of its entries. -/
  | array (m info kids xs js) : WrittenArray (some m.ns) kids xs js → Written true m (.list info kids) (.arr xs) (.arr js)
  /-- A list in native mode is an object with the keys as names. -/
  | object (m info kids items ms) : WrittenEntries info.ordered kids 0 items ms → Written false m (.list info kids) (.dict items) (.obj ms)
/-- The members for the children of a container or entry: a member of each item, in order,
with the same name, which is that of a child. -/
inductive WrittenItems : Bool → Option Str → List (Meta × Schema) → List (PyVal × PTree) → List (Str × J) → Prop where
  | nil (ietf pns) : WrittenItems ietf pns [] [] []
  | skip (ietf pns k ks items ms) : WrittenItems ietf pns ks items ms → WrittenItems ietf pns (k :: ks) items ms
  | take (ietf pns k ks name t items j ms) : name = (if ietf then ietfName pns k.1 else k.1.name) → Written ietf k.1 k.2 t j → WrittenItems ietf pns ks items ms →
      WrittenItems ietf pns (k :: ks) ((.str name, t) :: items) ((name, j) :: ms)
/-- The entries of a list in IETF mode. -/
inductive WrittenArray : Option Str → List (Meta × Schema) → List PTree → List J → Prop where
  | nil (pns kids) : WrittenArray pns kids [] []
  | cons (pns kids items ms xs js) : WrittenItems true pns kids items ms → WrittenArray pns kids xs js → WrittenArray pns kids (.dict items :: xs) (.obj ms :: js)
/-- The entries of a list in native mode, from position `i`, which is added in user-ordered lists. -/
inductive WrittenEntries : Bool → List (Meta × Schema) → Nat → List (PyVal × PTree) → List (Str × J) → Prop where
  | nil (ord kids i) : WrittenEntries ord kids i [] []
  | cons (ord kids i k s items ms es js) : jsonKey k = .ok s → WrittenItems false none kids items ms → WrittenEntries ord kids (i + 1) es js →
      WrittenEntries ord kids i ((k, .dict items) :: es) ((s, .obj (ms ++ if ord then [(yangOrder, .num i)] else [])) :: js)
end

end Spec
