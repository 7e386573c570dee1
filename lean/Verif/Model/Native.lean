import Verif.Model.Ietf

/-! # Native JSON: writing and reading instance trees

`dumps(obj)`: `get(filter=True)` (pyangbind/lib/base.py:31-98) encoded by
`YangDataSerialiser.preprocess_element` (pyangbind/lib/serialise.py:75-97);
`pybindJSONDecoder.load_json` (573-709). -/

namespace Pyb
open Py

/-! ## Writing -/

/-- The name `__yang_order`. -/
def yangOrder : Str := py!"__yang_order"

/-- A dict key in JSON text (`json.dumps`, standard library).  A key that is a `YANGBool`
(only `append` makes such keys) would be written as a number; this is not modelled. -/
def jsonKey : PyVal → Except Err Str
  | .str s => .ok s
  | .int n => .ok (intStr n)
  | .bool b => .ok (if b then py!"true" else py!"false")
  | .none => .ok py!"null"
  | .seq _ _ => .error .typeError
  | .obj (.float _ r) => .ok r
  | .obj _ => .error .typeError

/-- The entries of a list, numbered from `i` in user-ordered lists,
pyangbind/lib/serialise.py:78-94: `x` is what is written for the entry itself.  A child called
`__yang_order`, whose value the position would replace, is not modelled. -/
def nativeEntries (ordered : Bool) : Nat → List (PyVal × Except Err (List (Str × J))) → Except Err (List (Str × J))
  | _, [] => .ok []
  | i, (k, x) :: es =>
    match jsonKey k, x, nativeEntries ordered (i + 1) es with
    | .ok s, .ok ms, .ok rest => .ok ((s, .obj (if ordered then ms ++ [(yangOrder, .num i)] else ms)) :: rest)
    | .error e, _, _ => .error e
    | _, .error e, _ => .error e
    | _, _, .error e => .error e

mutual
/-- The value for one child, if `get(filter=True)` has it. -/
def nativeNode : Schema → Inst → Except Err (Option J)
  | .leaf L, .leaf v ch => if ch then (serLeaf false [] L v).map some else .ok none
  | .leafList L, .leafList vs _ =>
    if vs.isEmpty then .ok none else (vs.mapM (serElem false [] L)).map fun xs => some (.arr xs)
  | .cont pres kids, .cont _ pr ns =>
    match nativeKids kids ns with
    | .ok ms => .ok (if ms.isEmpty && !(pres && pr) then none else some (.obj ms))
    | .error e => .error e
  | .list info kids, .list _ es =>
    if es.isEmpty then .ok none
    else (nativeEntries info.ordered 0 (es.map fun q => (q.1, nativeKids kids q.2.kids))).map fun ms => some (.obj ms)
  | _, _ => .ok none
/-- The members for the children of a container or entry. -/
def nativeKids : List (Meta × Schema) → List Inst → Except Err (List (Str × J))
  | k :: ks, n :: ns =>
    match nativeNode k.2 n, nativeKids ks ns with
    | .ok none, .ok ms => .ok ms
    | .ok (some j), .ok ms => .ok ((k.1.name, j) :: ms)
    | .error e, _ => .error e
    | _, .error e => .error e
  | _, _ => .ok []
end

/-- `dumps(obj)` for the object of a module's class. -/
def nativeDump (kids : List (Meta × Schema)) (ns : List Inst) : Except Err J :=
  (nativeKids kids ns).map .obj

/-! ## Reading -/

/-- `kdict[order] = x`, with the keys of `kdict` sorted, pyangbind/lib/serialise.py:638, 642. -/
def putOrder (o : Int) (x : α) : List (Int × α) → List (Int × α)
  | [] => [(o, x)]
  | p :: ps => if o = p.1 then (o, x) :: ps else if o < p.1 then (o, x) :: p :: ps else p :: putOrder o x ps

/-- The loop that sorts the entries of a user-ordered list,
pyangbind/lib/serialise.py:631-640: those with an order, and those without. -/
def splitOrder : List (Option Int × α) → List (Int × α) → List α → List (Int × α) × List α
  | [], kd, ok => (kd, ok)
  | (some o, x) :: xs, kd, ok => splitOrder xs (putOrder o x kd) ok
  | (none, x) :: xs, kd, ok => splitOrder xs kd (ok ++ [x])

/-- `key_order`, pyangbind/lib/serialise.py:626-646. -/
def keyOrder (ordered : Bool) (xs : List (Option Int × α)) : List α :=
  if ordered then
    let r := splitOrder xs [] []
    r.1.map Prod.snd ++ r.2.reverse
  else xs.map Prod.snd

/-- `v["__yang_order"]` of an entry.  It is an integer: other values are not modelled. -/
def orderOf : J → Option Int
  | .obj ms => match jget ms yangOrder with | some (.num n) => some n | _ => none
  | _ => none

/-- Finding or making the entry for a key, pyangbind/lib/serialise.py:649-651.  On a list
without key `add` ignores its argument. -/
def nativeEntry (uuid : List PyVal → Str) (info : ListInfo) (kids : List (Meta × Schema)) (k : Str) (n : Inst) : Out :=
  match n with
  | .list ch es =>
    if mem es (.str k) then Out.same n
    else if info.keys = [] then nodeOp (.list info kids) none (.list ch es) (.addAnon (uuid (es.map Prod.fst)))
    else nodeOp (.list info kids) none (.list ch es) (.add (.str k))
  | n => fail n .attributeError

/-- The loop over the keys of a list, pyangbind/lib/serialise.py:648-660; each key comes
with what loading its entry does. -/
def nativeLoop (uuid : List PyVal → Str) (info : ListInfo) (kids : List (Meta × Schema)) :
    List (Str × (Inst → Out)) → Inst → Out
  | [], n => Out.same n
  | (k, f) :: xs, n =>
    ((nativeEntry uuid info kids k n).andThen fun n => withEntry n (.str k) f).andThen (nativeLoop uuid info kids xs)

/-- `for child_key in chobj: if child_key not in d[key]: chobj.delete(child_key)`,
pyangbind/lib/serialise.py:662-665: deleting from the dict while iterating over it raises
`RuntimeError`, unless it was the last key. -/
def nativePurge (keys : List Str) : Members Inst → Members Inst × Option Err
  | [] => ([], none)
  | (k, e) :: es =>
    if keys.any fun s => pyEq (.str s) k then
      let r := nativePurge keys es
      ((k, e) :: r.1, r.2)
    else (es, if es.isEmpty then none else some .runtimeError)

/-- The same on the list object. -/
def nativeClear (over : Bool) (keys : List Str) (n : Inst) : Out :=
  match over, n with
  | true, .list ch es => ⟨.list ch (nativePurge keys es).1, [], (nativePurge keys es).2⟩
  | _, n => Out.same n

/-- `for item in d[key]: if item not in list_obj: list_obj.append(item)`,
pyangbind/lib/serialise.py:669-671. -/
def mergeAdd (L : LLCls) (own : Option Choice) : List PyVal → Inst → Out
  | [], n => Out.same n
  | v :: vs, .leafList xs ch =>
    (if pyIn v xs then Out.same (.leafList xs ch) else llApply L own xs ch (.append v)).andThen (mergeAdd L own vs)
  | _, n => fail n .attributeError

/-- `for e in list_copy: if e not in d[key]: list_obj.remove(e)`,
pyangbind/lib/serialise.py:675-677; the first argument is the copy. -/
def mergeDrop (L : LLCls) (own : Option Choice) (items : List PyVal) : List PyVal → Inst → Out
  | [], n => Out.same n
  | e :: es, .leafList xs ch =>
    (if pyIn e items then Out.same (.leafList xs ch) else llApply L own xs ch (.remove e)).andThen (mergeDrop L own items es)
  | _, n => fail n .attributeError

/-- Loading a leaf-list without `overwrite`, pyangbind/lib/serialise.py:667-678.  The value
is an array; iterating over a number, a boolean or `null` raises `TypeError`; strings and
objects are not modelled here. -/
def nativeMerge (L : LLCls) (own : Option Choice) (repr : J → Str) (n : Inst) : J → Out
  | .arr items =>
    (mergeAdd L own (items.map (jPy repr)) n).andThen fun n =>
      match n with
      | .leafList xs ch => mergeDrop L own (items.map (jPy repr)) xs (.leafList xs ch)
      | n => fail n .attributeError
  | _ => fail n .typeError

/-- `_unset_` of every child, pyangbind/lib/serialise.py:611-614. -/
def unsetAll (over : Bool) (kids : List (Meta × Schema)) (n : Inst) : Inst :=
  match over, n with
  | true, .cont ch pr _ => .cont ch pr (freshKids kids)
  | _, n => n

/-- A member that is not in the schema, pyangbind/lib/serialise.py:597-602. -/
def nativeUnknown (skip : Bool) (n : Inst) : Out := if skip then Out.same n else fail n .attributeError

mutual
/-- The loop over the members of an object, pyangbind/lib/serialise.py:597-708.
`ordered` says it is an entry of a user-ordered list: `__yang_order` was removed. -/
def nativeMembers (g : LoadOpt) (over wrapped ordered : Bool) (S : Schema) (own : Option Choice) : Inst → List (Str × J) → Out
  | n, [] => Out.same n
  | n, m :: ms =>
    let o := if ordered && m.1 == yangOrder then Out.same n
      else withKid wrapped S own n m.1 (nativeUnknown g.skip n) fun _ k c => nativeChild g over k.2 k.1.choice c m.2
    o.andThen fun n => nativeMembers g over wrapped ordered S own n ms
/-- One child, pyangbind/lib/serialise.py:603-707.  `overwrite` is not passed on. -/
def nativeChild (g : LoadOpt) (over : Bool) (S : Schema) (own : Option Choice) (c : Inst) : J → Out
  | .obj ms =>
    match S with
    | .cont pres kids =>
      (markPresent S own c).andThen fun c => nativeMembers g false true false (.cont pres kids) own (unsetAll over kids c) ms
    | .list info kids =>
      (nativeLoop g.uuid info kids (keyOrder info.ordered (nativeFns g info.ordered kids ms)) c).andThen fun n =>
      (nativeClear over (ms.map Prod.fst) n).andThen fun n =>
        if ms.isEmpty then jsonSet g.repr S own n (.obj ms) else Out.same n
    | .leafList L => if over then jsonSet g.repr S own c (.obj ms) else nativeMerge L own g.repr c (.obj ms)
    | S => jsonSet g.repr S own c (.obj ms)
  | j =>
    match S with
    | .cont _ kids => (markPresent S own c).andThen fun c => jsonSet g.repr S own (unsetAll over kids c) j
    | .list _ _ => fail c .attributeError
    | .leafList L => if over then jsonSet g.repr S own c j else nativeMerge L own g.repr c j
    | S => jsonSet g.repr S own c j
/-- The keys of a list with their order and what loading the entry does.  The entries are
objects: others are not modelled. -/
def nativeFns (g : LoadOpt) (ordered : Bool) (kids : List (Meta × Schema)) : List (Str × J) → List (Option Int × Str × (Inst → Out))
  | [] => []
  | m :: ms => (orderOf m.2, m.1, fun c => nativeElem g ordered kids c m.2) :: nativeFns g ordered kids ms
/-- Loading an entry. -/
def nativeElem (g : LoadOpt) (ordered : Bool) (kids : List (Meta × Schema)) (c : Inst) : J → Out
  | .obj ms => nativeMembers g false true ordered (.cont false kids) none c ms
  | _ => fail c .typeError
end

/-- `loads(d, ..., obj)`: into the object of a module's class. -/
def nativeLoad (g : LoadOpt) (kids : List (Meta × Schema)) (ns : List Inst) : J → List Inst × Option Err
  | .obj ms =>
    let o := nativeMembers g g.over false false (.cont false kids) none (.cont false false ns) ms
    (o.inst.kids, o.err)
  | _ => (ns, some .attributeError)

end Pyb
