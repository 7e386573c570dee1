import Verif.Model.Get
import Verif.Model.Ietf

/-! # `dumps`: skipping subtrees and selecting entries

`pybindJSON.remove_path` and `pybindJSON.dumps` (pyangbind/lib/pybindJSON.py:30-44,
86-157), on the tree of Python objects that is given to `json.dumps` at the end. -/

namespace Pyb
open Py

/-- The tree: leaves, leaf-lists, dicts, and lists of dicts (IETF mode). -/
inductive PTree where
  | leaf (v : PyVal)
  | vals (vs : List PyVal)
  | dict (items : List (PyVal × PTree))
  | arr (xs : List PTree)

mutual
/-- The tree of `obj.get(filter)`, pyangbind/lib/pybindJSON.py:108. -/
def treeOf : DVal → PTree
  | .leaf v => .leaf v
  | .vals vs => .vals vs
  | .dict items => .dict (treeItems items)
  | .odict items => .dict (treeEntries items)
def treeItems : List (Str × DVal) → List (PyVal × PTree)
  | [] => []
  | x :: xs => (.str x.1, treeOf x.2) :: treeItems xs
def treeEntries : List (PyVal × DVal) → List (PyVal × PTree)
  | [] => []
  | x :: xs => (x.1, treeOf x.2) :: treeEntries xs
end

mutual
/-- The tree of `pybindIETFJSONEncoder.generate_element`, pyangbind/lib/serialise.py:392-453,
before the leaves are encoded: for one child. -/
def ietfTree (o : DumpOpt) (m : Meta) : Schema → Inst → Option PTree
  | .leaf L, .leaf v ch => if leafIncluded o L v ch then some (.leaf v) else none
  | .leafList _, .leafList vs ch => if llIncluded o ch then some (.vals vs) else none
  | .cont _ kids, .cont _ pr ns =>
    let items := ietfItems o (some m.ns) kids ns
    if items.isEmpty && !pr then none else some (.dict items)
  | .list _ kids, .list _ es =>
    if es.isEmpty then none else some (.arr (es.map fun q => .dict (ietfItems o (some m.ns) kids q.2.kids)))
  | _, _ => none
/-- For the children of a container or entry. -/
def ietfItems (o : DumpOpt) (pns : Option Str) : List (Meta × Schema) → List Inst → List (PyVal × PTree)
  | k :: ks, n :: ns =>
    match ietfTree o k.1 k.2 n with
    | some t => (.str (ietfName pns k.1), t) :: ietfItems o pns ks ns
    | none => ietfItems o pns ks ns
  | _, _ => []
end

/-- The tree for a list object, pyangbind/lib/serialise.py:409-411: the entries have no
parent namespace. -/
def ietfListTree (o : DumpOpt) (kids : List (Meta × Schema)) (es : List (PyVal × Inst)) : PTree :=
  .arr (es.map fun q => .dict (ietfItems o none kids q.2.kids))

/-! ## `skip_subtrees` -/

/-- `remove_path`, pyangbind/lib/pybindJSON.py:30-44.  Indexing anything but a dict with
a string raises `TypeError`. -/
def removePath : PTree → List Str → Except Err PTree
  | .dict items, [p] =>
    match erase items (.str p) with
    | .ok items => .ok (.dict items)
    | .error _ => .ok (.dict items)
  | .dict items, p :: q :: ps =>
    match items.find? fun x => pyEq x.1 (.str p) with
    | some x => (removePath x.2 (q :: ps)).map fun t => .dict (store items (.str p) t)
    | none => .ok (.dict items)
  | _, [] => .error .indexError
  | _, _ => .error .typeError

/-- The loop that compares a path with that of the object,
pyangbind/lib/pybindJSON.py:113-124: what is left of the path, if it matches. -/
def trimPath : List Str → List Str → Option (List Str)
  | i :: is, j :: js => if (splitOn '[' i).headD [] = j then trimPath is js else none
  | _, js => some js

/-- One path of `skip_subtrees`, pyangbind/lib/pybindJSON.py:109-127. -/
def skipOne (opath : List Str) (t : PTree) (p : Str) : Except Err PTree :=
  match trimPath opath (splitOn '/' p).tail with
  | some (q :: qs) => removePath t (q :: qs)
  | _ => .ok t

/-- All paths. -/
def skipAll (opath : List Str) : PTree → List Str → Except Err PTree
  | t, [] => .ok t
  | t, p :: ps => (skipOne opath t p).bind fun t => skipAll opath t ps

/-! ## `select` -/

/-- `k.split(":")[1]` for keys with a `:`, pyangbind/lib/pybindJSON.py:91-94; for a key
that is not a string `":" in k` raises `TypeError`. -/
def bareKey : PyVal → Except Err Str
  | .str s => .ok (if ':' ∈ s then (splitOn ':' s).tail.headD [] else s)
  | _ => .error .typeError

/-- `unresolved_dict`: later items replace earlier ones. -/
def bareDict : List (PyVal × PTree) → Except Err (List (Str × PTree))
  | [] => .ok []
  | x :: xs => (bareKey x.1).bind fun k => (bareDict xs).map fun r => (k, x.2) :: r

/-- The value for a name in `unresolved_dict`. -/
def bareFind (r : List (Str × PTree)) (k : Str) : Option PTree := (r.reverse.find? fun x => x.1 == k).map Prod.snd

/-- `lookup_subdict`, pyangbind/lib/pybindJSON.py:87-101.  Only dicts have `items`. -/
def lookupSub : PTree → List Str → Except Err PTree
  | _, [] => .error .indexError
  | .dict items, [k] =>
    (bareDict items).bind fun r => match bareFind r k with | some t => .ok t | none => .error .keyError
  | .dict items, k :: k' :: ks =>
    (bareDict items).bind fun r => match bareFind r k with
      | some _ => match items.find? fun x => pyEq x.1 (.str k) with
        | some x => lookupSub x.2 (k' :: ks)
        | none => .error .keyError
      | none => .error .keyError
  | _, _ => .error .attributeError

/-- `str(x)`; `repr` is used for anything but a leaf. -/
def treeStr (repr : PTree → Str) : PTree → Str
  | .leaf v => v.toStr
  | t => repr t

/-- `keep` for an entry, pyangbind/lib/pybindJSON.py:132-142; the values of `select` are
given as text. -/
def keepEntry (repr : PTree → Str) : List (Str × Str) → PTree → Except Err Bool
  | [], _ => .ok true
  | (k, v) :: sel, t =>
    (lookupSub t (splitOn '.' k)).bind fun x => if treeStr repr x = v then keepEntry repr sel t else .ok false

/-- The keys to be deleted from a dict. -/
def dropKeys (repr : PTree → Str) (sel : List (Str × Str)) : List (PyVal × PTree) → Except Err (List PyVal)
  | [] => .ok []
  | x :: xs => (keepEntry repr sel x.2).bind fun b => (dropKeys repr sel xs).map fun r => if b then r else x.1 :: r

/-- `del tree[k]` for each of them. -/
def eraseAll : List (PyVal × PTree) → List PyVal → Except Err (List (PyVal × PTree))
  | items, [] => .ok items
  | items, k :: ks => (erase items k).bind fun items => eraseAll items ks

/-- The elements to be removed from a list. -/
def dropElems (repr : PTree → Str) (sel : List (Str × Str)) : List PTree → Except Err (List PTree)
  | [] => .ok []
  | x :: xs => (keepEntry repr sel x).bind fun b => (dropElems repr sel xs).map fun r => if b then r else x :: r

/-- `tree.remove(i)`: the first element equal to `i`. -/
def removeElem (eq : PTree → PTree → Bool) : List PTree → PTree → Except Err (List PTree)
  | [], _ => .error .valueError
  | x :: xs, i => if eq x i then .ok xs else (removeElem eq xs i).map fun r => x :: r

/-- `tree.remove(i)` for each of them. -/
def removeAll (eq : PTree → PTree → Bool) : List PTree → List PTree → Except Err (List PTree)
  | xs, [] => .ok xs
  | xs, i :: is => (removeElem eq xs i).bind fun xs => removeAll eq xs is

/-- What `dumps` needs to know about Python: `repr`, and `==` of trees. -/
structure PyOps where
  repr : PTree → Str
  eq : PTree → PTree → Bool

/-- The selection, pyangbind/lib/pybindJSON.py:129-150; `ietf` is the mode.  Leaves are
not considered. -/
def selectTree (P : PyOps) (ietf : Bool) (sel : List (Str × Str)) : PTree → Except Err PTree
  | .dict items =>
    (dropKeys P.repr sel items).bind fun ks => if ietf then .ok (.dict items) else (eraseAll items ks).map .dict
  | .arr xs => (dropElems P.repr sel xs).bind fun is => (removeAll P.eq xs is).map .arr
  | _ => .error .typeError

/-- The tree that `dumps(obj, skip_subtrees=skip, select=sel)` gives to `json.dumps`. -/
def dumpTree (P : PyOps) (ietf : Bool) (opath : List Str) (t : PTree) (skip : List Str) (sel : List (Str × Str)) : Except Err PTree :=
  (skipAll opath t skip).bind fun t => if sel = [] then .ok t else selectTree P ietf sel t

end Pyb
