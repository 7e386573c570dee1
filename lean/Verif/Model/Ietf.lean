import Verif.Model.Json

/-! # IETF JSON (RFC 7951): writing and reading instance trees

`make_generate_ietf_tree` (pyangbind/lib/serialise.py:392-453) with the JSON naming
function (296-303) and the serialisation of the values (75-172);
`pybindJSONDecoder.load_ietf_json` (718-876). -/

namespace Pyb
open Py

/-! ## Writing -/

/-- What to include: `flt` is the `filter` argument, `wd` says `with_defaults` is
`WithDefaults.IF_SET`. -/
structure DumpOpt where
  flt : Bool := true
  wd : Bool := false

/-- `yname_ns_func`, pyangbind/lib/serialise.py:296-303. -/
def ietfName (pns : Option Str) (m : Meta) : Str :=
  if some m.ns = pns then m.name else m.module_ ++ py!":" ++ m.name

/-- Is a leaf included?  pyangbind/lib/serialise.py:442-450.  Without default
`_default` is `False`. -/
def leafIncluded (o : DumpOpt) (L : LeafCls) (v : PyVal) (ch : Bool) : Bool :=
  if o.wd then ch || pyEq (L.default.getD (.bool false)) v else !o.flt || ch

/-- The same for a leaf-list: it never equals its `_default`. -/
def llIncluded (o : DumpOpt) (ch : Bool) : Bool :=
  if o.wd then ch else !o.flt || ch

mutual
/-- The value for one child, if it is included, pyangbind/lib/serialise.py:419-450. -/
def ietfNode (o : DumpOpt) (m : Meta) : Schema → Inst → Except Err (Option J)
  | .leaf L, .leaf v ch =>
    if leafIncluded o L v ch then (serLeaf true m.module_ L v).map some else .ok none
  | .leafList L, .leafList vs ch =>
    if llIncluded o ch then (vs.mapM (serElem true m.module_ L)).map fun xs => some (.arr xs) else .ok none
  | .cont _ kids, .cont _ pr ns =>
    match ietfKids o (some m.ns) kids ns with
    | .ok ms => .ok (if ms.isEmpty && !pr then none else some (.obj ms))
    | .error e => .error e
  | .list _ kids, .list _ es =>
    match es.mapM fun q => (ietfKids o (some m.ns) kids q.2.kids).map J.obj with
    | .ok xs => .ok (if xs.isEmpty then none else some (.arr xs))
    | .error e => .error e
  | _, _ => .ok none
/-- The members for the children of a container or entry.  The names of the members
differ (see `DistinctNames`), so nothing is written twice. -/
def ietfKids (o : DumpOpt) (pns : Option Str) : List (Meta × Schema) → List Inst → Except Err (List (Str × J))
  | k :: ks, n :: ns =>
    match ietfNode o k.1 k.2 n, ietfKids o pns ks ns with
    | .ok none, .ok ms => .ok ms
    | .ok (some j), .ok ms => .ok ((ietfName pns k.1, j) :: ms)
    | .error e, _ => .error e
    | _, .error e => .error e
  | _, _ => .ok []
end

/-- `dumps(obj, mode="ietf")` for the object of a module's class. -/
def ietfDump (o : DumpOpt) (kids : List (Meta × Schema)) (ns : List Inst) : Except Err J :=
  (ietfKids o none kids ns).map .obj

/-! ## Reading -/

/-- The parameters of a load: `skip_unknown`, `overwrite`, `repr` (for lists and dicts
turned to text) and `uuid.uuid1()`, as a function of the keys in the list. -/
structure LoadOpt where
  skip : Bool := false
  over : Bool := false
  repr : J → Str
  uuid : List PyVal → Str

/-- An operation after another one, on the same object. -/
def Out.andThen (o : Out) (f : Inst → Out) : Out :=
  match o.err with
  | some _ => o
  | none => ⟨(f o.inst).inst, o.sigs ++ (f o.inst).sigs, (f o.inst).err⟩

/-- Nothing is done. -/
def Out.same (n : Inst) : Out := ⟨n, [], none⟩

/-- An operation on a child of the loaded object.  The object `loads` makes is not
wrapped in `YANGBaseClass` and has no `_set`; all objects below are (`wrapped`). -/
def holdPut (wrapped : Bool) (pres : Bool) (own : Option Choice) (kids : List (Meta × Schema))
    (ch pr : Bool) (ns : List Inst) (i : Nat) (o : Out) : Out :=
  if wrapped then contPut pres own kids ch pr ns i o
  else ⟨.cont ch pr (ns.set i o.inst), [], o.err⟩

/-- The member name without its namespace, pyangbind/lib/serialise.py:750-753. -/
def localKey (key : Str) : Str := if ':' ∈ key then (splitOn ':' key).getLastD [] else key

/-- The child found with `getattr(obj, "_get_" + safe_name(name), None)`. -/
def kidIdx (kids : List (Meta × Schema)) (name : Str) : Option Nat :=
  kids.findIdx? fun k => safeName k.1.name == safeName name

/-- Only objects of the generated classes have `_get_` methods. -/
def Schema.kids : Schema → List (Meta × Schema)
  | .cont _ kids => kids
  | _ => []

/-- `":" in val` for a list looks for the text `":"`. -/
def isColon : J → Bool
  | .str [':'] => true
  | _ => false

/-- The rewriting of a value, pyangbind/lib/serialise.py:853-868; `yt` is `_yang_type`.
`":" in val` raises `TypeError` for anything but a string, list or dict. -/
def ietfVal (yt : Str) (j : J) : Except Err J :=
  if yt = py!"empty" then
    match j with
    | .arr [.null] => .ok (.bool true)
    | _ => .error .valueError
  else if yt = py!"identityref" then
    match j with
    | .str s => .ok (.str (if ':' ∈ s then (s.dropWhile (· ≠ ':')).tail else s))
    | .arr xs => if xs.any isColon then .error .attributeError
      else .ok (.arr xs)
    | .obj ms => .ok (.obj ms)
    | _ => .error .typeError
  else .ok j

/-- `set_method(val)`, for an object of the given class, in the JSON loaders.  Setting a
container to anything but an object with its attributes fails in `__init__`, after
`_set` was called (with `ValueError`; a container all of whose children are named like
attributes of the value is not considered).  Setting a list empties it
(pyangbind/lib/yangtypes.py:550-561). -/
def jsonSet (repr : J → Str) (S : Schema) (own : Option Choice) (c : Inst) (j : J) : Out :=
  match S, c with
  | .leaf L, c => leafSet L own c (jPy repr j)
  | .leafList L, .leafList xs ch => llApply L own xs ch (.assign (jArg repr j))
  | .list _ _, _ => ⟨.list true [], [own, none], none⟩
  | .cont _ _, c => ⟨c, [own], some .valueError⟩
  | _, c => fail c .attributeError

/-- The standard way to set a child, pyangbind/lib/serialise.py:843-875 (without
metadata). -/
def ietfStd (g : LoadOpt) (S : Schema) (own : Option Choice) (isKey : Bool) (c : Inst) (j : J) : Out :=
  if isKey then Out.same c
  else
    let yt := match S with | .leaf L => L.yangType | .leafList L => L.yangType | _ => []
    match ietfVal yt j with
    | .error e => fail c e
    | .ok .null => Out.same c
    | .ok j => jsonSet g.repr S own c j

/-- A member that is not in the schema, pyangbind/lib/serialise.py:769-774, 795-797,
844-848. -/
def ietfUnknown (skip : Bool) (n : Inst) : J → Out
  | .arr [] => Out.same n
  | .arr _ => fail n .attributeError
  | _ => if skip then Out.same n else fail n .attributeError

/-- `_set_present()` if `_presence`, pyangbind/lib/serialise.py:777-779. -/
def markPresent (S : Schema) (own : Option Choice) (n : Inst) : Out :=
  match S, n with
  | .cont true _, .cont _ _ ns => ⟨.cont true true ns, [own], none⟩
  | _, n => Out.same n

/-- `for i in this_attr.keys(): this_attr.delete(i)`, pyangbind/lib/serialise.py:800-803:
deleting from the dict while iterating over it raises `RuntimeError`, unless it was the
last key. -/
def ietfClear : Inst → Out
  | .list ch [] => Out.same (.list ch [])
  | .list ch [_] => Out.same (.list ch [])
  | .list ch (_ :: es) => fail (.list ch es) .runtimeError
  | n => Out.same n

/-- The key values of an entry, `elem[ykv]`, pyangbind/lib/serialise.py:812-821. -/
def elemKeys (names : List Str) (ms : List (Str × J)) : Except Err (List J) :=
  names.mapM fun k => match jget ms k with | some j => .ok j | none => .error .keyError

/-- The names of the key leaves: `_yang_keys`. -/
def keyNames (info : ListInfo) (kids : List (Meta × Schema)) : List Str :=
  info.keys.map fun i => match kids[i]? with | some k => k.1.name | none => []

/-- Finding or making the entry for an element, pyangbind/lib/serialise.py:805-825: the
list with the entry, and the key it is under. -/
def ietfEntry (g : LoadOpt) (info : ListInfo) (kids : List (Meta × Schema)) (ch : Bool) (es : Members Inst)
    (elem : J) : Out × PyVal :=
  match info.keys with
  | [] =>
    let u := g.uuid (es.map Prod.fst)
    (nodeOp (.list info kids) none (.list ch es) (.addAnon u), .str u)
  | _ :: rest =>
    match elem with
    | .obj ms =>
      match elemKeys (keyNames info kids) ms with
      | .error e => (fail (.list ch es) e, .none)
      | .ok js =>
        let raws := js.map (jPy g.repr)
        if rest = [] then
          let k := raws.headD .none
          if !hashable k then (fail (.list ch es) .typeError, .none)
          else if mem es k then (Out.same (.list ch es), k)
          else (nodeOp (.list info kids) none (.list ch es) (.add k), k)
        else
          let k := PyVal.str (rstripBy (· = ' ') ((raws.map fun r => r.toStr ++ [' ']).flatten))
          if mem es k then (Out.same (.list ch es), k)
          else (nodeOp (.list info kids) none (.list ch es) (.addNamed (raws.map some)), namedKey raws)
    | _ => (fail (.list ch es) .typeError, .none)

/-- A change of the entry under a key. -/
def withEntry (n : Inst) (k : PyVal) (f : Inst → Out) : Out :=
  match n with
  | .list ch es =>
    match es.find? fun q => pyEq q.1 k with
    | some q => ⟨.list ch (store es k (f q.2).inst), (f q.2).sigs, (f q.2).err⟩
    | none => fail n .keyError
  | n => fail n .attributeError

/-- A change of a child, found by name; `unknown` otherwise.  (An object always has the
children of its class.) -/
def withKid (wrapped : Bool) (S : Schema) (own : Option Choice) (n : Inst) (name : Str) (unknown : Out)
    (f : Nat → Meta × Schema → Inst → Out) : Out :=
  match S with
  | .cont pres kids =>
    match kidIdx kids name with
    | none => unknown
    | some i =>
      match kids[i]?, n with
      | some k, .cont ch pr ns =>
        match ns[i]? with
        | some c => holdPut wrapped pres own kids ch pr ns i (f i k c)
        | none => fail n .attributeError
      | _, _ => fail n .attributeError
  | _ => unknown

mutual
/-- The loop over the members of an object, pyangbind/lib/serialise.py:748-763.  `keys`
are the positions of the key leaves, if the object is an entry of a list.  Metadata is
skipped here (its values are taken to be objects); `noteMembers` is the loop with it. -/
def ietfMembers (g : LoadOpt) (wrapped : Bool) (S : Schema) (keys : List Nat) (own : Option Choice) :
    Inst → List (Str × J) → Out
  | n, [] => Out.same n
  | n, m :: ms =>
    let o := if '@' ∈ m.1 then Out.same n
      else withKid wrapped S own n (localKey m.1) (ietfUnknown g.skip n m.2) fun i k c =>
        ietfChild g k.2 k.1.choice (keys.contains i) c m.2
    o.andThen fun n => ietfMembers g wrapped S keys own n ms
/-- One child, pyangbind/lib/serialise.py:765-875. -/
def ietfChild (g : LoadOpt) (S : Schema) (own : Option Choice) (isKey : Bool) (c : Inst) : J → Out
  | .obj ms => (markPresent S own c).andThen fun c => ietfMembers g true S [] own c ms
  | .arr xs =>
    match S with
    | .list info kids => ietfElems g info kids c xs
    | S => if xs.isEmpty then Out.same c else ietfStd g S own isKey c (.arr xs)
  | j => ietfStd g S own isKey c j
/-- The loop over the elements of a list, pyangbind/lib/serialise.py:793-836.  The
elements are objects: others are not modelled for lists without key (and raise
`TypeError` for the other lists). -/
def ietfElems (g : LoadOpt) (info : ListInfo) (kids : List (Meta × Schema)) : Inst → List J → Out
  | n, [] => Out.same n
  | n, x :: xs =>
    let o := (if g.over then ietfClear n else Out.same n).andThen fun n =>
      match n with
      | .list ch es =>
        let e := ietfEntry g info kids ch es x
        e.1.andThen fun n => withEntry n e.2 fun c => ietfElem g kids info.keys c x
      | n => fail n .attributeError
    o.andThen fun n => ietfElems g info kids n xs
/-- Loading an entry. -/
def ietfElem (g : LoadOpt) (kids : List (Meta × Schema)) (keys : List Nat) (c : Inst) : J → Out
  | .obj ms => ietfMembers g true (.cont false kids) keys none c ms
  | _ => fail c .typeError
end

/-- `loads_ietf(d, ..., obj)`: into the object of a module's class. -/
def ietfLoad (g : LoadOpt) (kids : List (Meta × Schema)) (ns : List Inst) : J → List Inst × Option Err
  | .obj ms =>
    let o := ietfMembers g false (.cont false kids) [] none (.cont false false ns) ms
    (o.inst.kids, o.err)
  | _ => (ns, some .attributeError)

end Pyb
