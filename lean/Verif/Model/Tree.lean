import Verif.Model.YList

/-! # Instance trees

The objects of a generated binding: containers, lists, leaf-lists and leaves, the
propagation of changes towards the root, and the clearing of competing cases.

Sources: the generated classes (pyangbind/plugin/pybind.py:860-1200), the wrapper
`YANGBaseClass` (pyangbind/lib/yangtypes.py:902-1217) and `YANGListType` (517-871).

A child is addressed by its position in `_pyangbind_elements`.  The path helper and
the extension methods are not modelled here. -/

namespace Pyb
open Py

/-- A case of a choice, as stored in the `choice` argument of a class:
`(choice name, case name)`. -/
structure Choice where
  name : Str
  case_ : Str
  deriving DecidableEq, Repr

/-- What building a leaf from a value comes to (pyangbind/lib/yangtypes.py:1023-1091):
refused before `_set` is called (choosing the member of a union, or `__new__`),
refused after `_set` was called (`__init__` of the base class), or accepted. -/
inductive LeafRes where
  | refused (e : Err)
  | marked (e : Err)
  | ok (w : PyVal)

/-- The class attributes of a value that serialisation looks at
(pyangbind/lib/serialise.py:99-203).

* `gen`: `_pybind_generated_by`, if any
* `base0`: `_restricted_class_base[0]`, the name of the innermost base class
* `baseCls`: `_pybind_base_class`, which only objects made by `YANGDynClass` have
* `intSize`: `_restricted_int_size`
* `idents`: `_enumeration_dict` of an identityref: the `@module` of each identity. -/
structure SerCls where
  gen : Option Str := none
  base0 : Str := []
  baseCls : Option Str := none
  intSize : Option Nat := none
  idents : List (Str × Str) := []

/-- The class of a leaf, as far as the tree is concerned.

* `zero`: the value of a leaf that was never set
* `set`: building a leaf from a value
* `default`: `_default`, if it is truthy (pyangbind/lib/yangtypes.py:1065-1066)
* `yangType`: `_yang_type`
* `ser`: the attributes of the stored object that serialisation looks at (with a union
  they depend on the member chosen; here: on the value). -/
structure LeafCls where
  zero : PyVal
  set : PyVal → LeafRes
  default : Option PyVal := none
  yangType : Str := []
  ser : PyVal → SerCls := fun _ => {}

/-- The class of a leaf-list: see `tlInit` and `llStep`.  `plainStr`: `str` itself is
among `_allowed_type`. -/
structure LLCls where
  conv : PyVal → Option PyVal
  uniq : Bool := true
  «show» : List PyVal → Str
  yangType : Str := []
  ser : PyVal → SerCls := fun _ => {}
  plainStr : Bool := false

/-- The arguments of a child's class that concern the tree: `yang_name`,
`namespace`, `defining_module`, `choice`. -/
structure Meta where
  name : Str
  ns : Str := []
  module_ : Str := []
  choice : Option Choice := none

/-- What `YANGListType` is given: the positions of the key leaves, in the order of the
`key` statement (none: a list without key), and `user_ordered`. -/
structure ListInfo where
  keys : List Nat
  ordered : Bool := false

/-- A generated class with the classes of its children. -/
inductive Schema where
  | leaf (L : LeafCls)
  | leafList (L : LLCls)
  | cont (presence : Bool) (kids : List (Meta × Schema))
  | list (info : ListInfo) (kids : List (Meta × Schema))

/-- The state of an object.  `changed` is `_mchanged`, `present` is `_cpresent`; the
entries of a list are containers. -/
inductive Inst where
  | leaf (val : PyVal) (changed : Bool)
  | leafList (vals : List PyVal) (changed : Bool)
  | cont (changed present : Bool) (kids : List Inst)
  | list (changed : Bool) (entries : List (PyVal × Inst))

mutual
/-- A newly made object: `YANGDynClass(base=..., ...)` without a value. -/
def fresh : Schema → Inst
  | .leaf L => .leaf L.zero false
  | .leafList _ => .leafList [] false
  | .cont _ kids => .cont false false (freshKids kids)
  | .list _ _ => .list false []
/-- The children made by the generated `__init__`, pyangbind/plugin/pybind.py:1058-1061. -/
def freshKids : List (Meta × Schema) → List Inst
  | [] => []
  | k :: ks => fresh k.2 :: freshKids ks
end

/-- The result of an operation on an object: its new state, the calls of `_set` its
holding container receives (with the `choice` argument), and the exception raised. -/
structure Out where
  inst : Inst
  sigs : List (Option Choice)
  err : Option Err

/-- An operation that raises at once. -/
def fail (n : Inst) (e : Err) : Out := ⟨n, [], some e⟩

/-- `case == choice[1]` fails for a child of the same choice. -/
def competes (c : Choice) : Option Choice → Bool
  | some d => d.name == c.name && !(d.case_ == c.case_)
  | none => false

/-- The loop over `__choices__` in `_set`, pyangbind/lib/yangtypes.py:1112-1122: the
children in other cases of the same choice are replaced by new objects. -/
def clearKids (c : Choice) : List (Meta × Schema) → List Inst → List Inst
  | k :: ks, n :: ns => (if competes c k.1.choice then fresh k.2 else n) :: clearKids c ks ns
  | _, ns => ns

/-- `_set(choice)` on a container, pyangbind/lib/yangtypes.py:1111-1130. -/
def recv (pres : Bool) (kids : List (Meta × Schema)) (n : Inst) (sig : Option Choice) : Inst :=
  match n with
  | .cont _ pr ns =>
    .cont true (pr || pres) (match sig with | some c => clearKids c kids ns | none => ns)
  | n => n

/-- `_set` called with each of `sigs` in turn. -/
def recvAll (pres : Bool) (kids : List (Meta × Schema)) (n : Inst) (sigs : List (Option Choice)) : Inst :=
  sigs.foldl (recv pres kids) n

/-- An operation on child `i` of a container, seen from the container: the child's new
state, then the container's `_set` for each call, which passes the choice on to its
own parent, or its own choice if there is none (pyangbind/lib/yangtypes.py:1124-1133).

Setting a leaf calls `_set` before the new leaf is stored: the container the leaf is in
never clears the leaf the call comes from, so the order makes no difference there.
Further up the child the call comes from may be replaced by a new object (if a choice
above has the same name); then what happens later to the old object does not matter
either. -/
def contPut (pres : Bool) (own : Option Choice) (kids : List (Meta × Schema))
    (ch pr : Bool) (ns : List Inst) (i : Nat) (o : Out) : Out :=
  ⟨recvAll pres kids (.cont ch pr (ns.set i o.inst)) o.sigs, o.sigs.map (·.or own), o.err⟩

/-- The generated setter of a leaf, pyangbind/plugin/pybind.py:1142-1172.  On success
the leaf's `_set` is called (with the leaf's choice), and then that of the container
(without choice). -/
def leafSet (L : LeafCls) (own : Option Choice) (old : Inst) (v : PyVal) : Out :=
  match L.set v with
  | .refused e => ⟨old, [], some e⟩
  | .marked e => ⟨old, [own], some e⟩
  | .ok w => ⟨.leaf w true, [own, none], none⟩

/-- `_changed()`. -/
def Inst.changed : Inst → Bool
  | .leaf _ c => c
  | .leafList _ c => c
  | .cont c _ _ => c
  | .list c _ => c

mutual
/-- The generated setter of any child, given an object `v` of the class of the child
(as in `c.x = d.x`, or while copying a container).

* a leaf-list object is not a `list`: `TypedList.__init__` treats it as one value
  (pyangbind/lib/yangtypes.py:418-427)
* `YANGList.__init__` ignores its argument (550-561)
* a container: see `copyKids`; anything else has not its attributes, which is noticed after
  `_set` (pyangbind/plugin/pybind.py:1067-1075, pyangbind/lib/yangtypes.py:1052-1068)

`v` is a separate object: what happens when it is part of the same tree and is cleared
while being copied is not modelled. -/
def copyNode : Schema → Option Choice → Inst → Inst → Out
  | .leaf L, own, old, .leaf v _ => leafSet L own old v
  | .leafList L, own, old, .leafList vs _ =>
    match tlInit L.conv L.uniq (.one (.seq (L.show vs) vs.length)) with
    | .ok ys => ⟨.leafList ys true, [own, none], none⟩
    | .error e => ⟨old, [own], some e⟩
  | .list _ _, own, _, .list _ _ => ⟨.list true [], [own, none], none⟩
  | .cont pres kids, own, old, .cont _ _ ns =>
    let o := copyKids pres own kids kids ns 0 ⟨.cont true pres (freshKids kids), [own], none⟩
    match o.err with
    | none => ⟨o.inst, o.sigs ++ [none], none⟩
    | some e => ⟨old, o.sigs, some e⟩
  | .cont _ _, own, old, _ => ⟨old, [own], some .valueError⟩
  | _, _, old, _ => fail old .valueError
/-- The loop of the generated `__init__` with an argument,
pyangbind/plugin/pybind.py:1076-1084: every changed child of the argument is assigned.
`all` are the children of the class, the next arguments those still to do and their
position, the last one the new object so far. -/
def copyKids (pres : Bool) (own : Option Choice) (all : List (Meta × Schema)) :
    List (Meta × Schema) → List Inst → Nat → Out → Out
  | k :: ks, v :: vs, i, o =>
    if v.changed then
      match o.inst with
      | .cont ch pr ns =>
        let c := copyNode k.2 k.1.choice (fresh k.2) v
        let p := contPut pres own all ch pr ns i c
        match c.err with
        | some e => ⟨p.inst, o.sigs ++ p.sigs, some e⟩
        | none => copyKids pres own all ks vs (i + 1) ⟨p.inst, o.sigs ++ p.sigs, none⟩
      | _ => o
    else copyKids pres own all ks vs (i + 1) o
  | _, _, _, o => o
end

/-- Setting the key leaf at position `j` of an entry (`load=True`). -/
def keySet (kids : List (Meta × Schema)) (e : Inst) (j : Nat) (v : PyVal) : Out :=
  match kids[j]?, e with
  | some (m, .leaf L), .cont ch pr ns => contPut false none kids ch pr ns j (leafSet L m.choice (ns.getD j (fresh (.leaf L))) v)
  | _, e => fail e .attributeError

/-- The result of an operation without the calls it makes. -/
def Out.toExcept (o : Out) : Except Err Inst :=
  match o.err with
  | none => .ok o.inst
  | some e => .error e

/-- An entry copied from another one: `YANGDynClass(v, base=self._contained_class,
load=True, ...)`, pyangbind/lib/yangtypes.py:699-710. -/
def copyEntry (kids : List (Meta × Schema)) : Inst → Out
  | .cont _ _ ns => copyKids false none kids kids ns 0 ⟨.cont true false (freshKids kids), [none], none⟩
  | n => fail n .valueError

/-- The contained class of a list, for the model of `YANGListType`. -/
def entryCls (info : ListInfo) (kids : List (Meta × Schema)) : EntryCls Inst where
  fresh := .cont false false (freshKids kids)
  copy v := (copyEntry kids v).toExcept
  setKey e i v :=
    match info.keys[i]? with
    | some j => (keySet kids e j v).toExcept
    | none => .error .attributeError
  getKey e i :=
    match info.keys[i]?, e with
    | some j, .cont _ _ ns => match ns[j]? with | some (.leaf v _) => v | _ => .none
    | _, _ => .none

/-- The calls of `_set` made on the holding container while the key leaves of a new
entry are set (pyangbind/lib/yangtypes.py:712-715): an entry's own `_choice` is
`False`, so it passes the calls on unchanged. -/
def keySigs (kids : List (Meta × Schema)) : Inst → List (Nat × PyVal) → List (Option Choice)
  | _, [] => []
  | e, (j, r) :: rs =>
    let o := keySet kids e j r
    match o.err with
    | none => o.sigs ++ keySigs kids o.inst rs
    | some _ => o.sigs

/-- The calls made by `__set` with a positional key, including those of copying the
given entry. -/
def setPosSigs (info : ListInfo) (kids : List (Meta × Schema)) (ms : Members Inst) (k : PyVal) (v : Option Inst) :
    List (Option Choice) :=
  if k = .none then []
  else if !hashable k then []
  else match keyParts info.keys.length k with
    | .error _ => []
    | .ok raws =>
      match v with
      | none => if mem ms k then [] else keySigs kids (.cont false false (freshKids kids)) (info.keys.zip raws)
      | some v =>
        let c := copyEntry kids v
        match c.err with
        | some _ => c.sigs
        | none => c.sigs ++ keySigs kids c.inst (info.keys.zip raws)

/-- The calls made by `add(k)`. -/
def addSigs (info : ListInfo) (kids : List (Meta × Schema)) (ms : Members Inst) (k : PyVal) : List (Option Choice) :=
  if !hashable k then [] else if mem ms k then [] else setPosSigs info kids ms k none

/-- The calls made by `add(**keywords)`. -/
def addNamedSigs (info : ListInfo) (kids : List (Meta × Schema)) (ms : Members Inst) (raws : List (Option PyVal)) :
    List (Option Choice) :=
  match allGiven raws with
  | .error _ => []
  | .ok raws =>
    if mem ms (namedKey raws) then []
    else keySigs kids (.cont false false (freshKids kids)) (info.keys.zip raws)

/-- What users do to an object.

* `set v load`: `_set_<leaf>(v, load=...)`; assigning an attribute has `load = False`
* `assign v`: the same with an object of the child's own class
* `ll op`: an operation on a leaf-list
* `unset`: `_unset_<child>()`
* `present b`: `_set_present(b)`
* the operations of a list; `addAnon u` is `add()` on a list without key, where `u` is
  the key made by `uuid.uuid1()`. -/
inductive Op where
  | set (v : PyVal) (load : Bool)
  | assign (v : Inst)
  | ll (op : LLOp)
  | unset
  | present (b : Bool)
  | add (k : PyVal)
  | addNamed (raws : List (Option PyVal))
  | addAnon (u : Str)
  | append (v : Inst)
  | setitem (k : PyVal) (v : Inst)
  | delete (k : PyVal)

/-- Does the operation on a leaf-list call `_set` on it?  The wrappers of
pyangbind/lib/yangtypes.py:1145-1181 do; `del x[i]` has none; `reverse` assigns
items, if there are at least two; `clear` calls `pop`. -/
def llMarks (xs : List PyVal) : LLOp → Bool
  | .delitem _ => false
  | .reverse => decide (2 ≤ xs.length)
  | _ => true

/-- An operation on a leaf-list.  `assign` and `x += vs` go through the generated
setter, which on success also calls `_set` on the container.  (`extend` calls `_set`
once per value as well: repeated calls have no further effect.) -/
def llApply (L : LLCls) (own : Option Choice) (xs : List PyVal) (ch : Bool) (op : LLOp) : Out :=
  let r := llStep L.conv L.uniq L.show xs op
  match op with
  | .assign _ =>
    match r.2 with
    | none => ⟨.leafList r.1 true, [own, none], none⟩
    | some e => ⟨.leafList xs ch, [own], some e⟩
  | .iadd _ =>
    match r.2 with
    | none => ⟨.leafList r.1 true, [own, none], none⟩
    | some e => ⟨.leafList r.1 true, [own], some e⟩
  | _ =>
    if llMarks xs op then ⟨.leafList r.1 true, [own], r.2⟩
    else ⟨.leafList r.1 ch, [], r.2⟩

/-- The result of an operation on a list object. -/
def listOut (ch : Bool) (es : Members Inst) (sigs : List (Option Choice)) : Except Err (Members Inst) → Out
  | .ok es' => ⟨.list ch es', sigs, none⟩
  | .error e => ⟨.list ch es, sigs, some e⟩

/-- An operation on the object itself; `own` is its `_choice`.

* `append` and item assignment: the wrappers call `_set` on the list object first
  (pyangbind/lib/yangtypes.py:1145-1153)
* `add` has no wrapper
* on a list without key, item assignment ignores the given entry and stores a new one
  (724-733), and `add` with an argument (which ignores it) is not modelled. -/
def nodeOp : Schema → Option Choice → Inst → Op → Out
  | S, _, _, .unset => ⟨fresh S, [], none⟩
  | S, own, n, .assign v => copyNode S own n v
  | .leaf L, own, n, .set v _ => leafSet L own n v
  | .leafList L, own, .leafList xs ch, .ll op => llApply L own xs ch op
  | .cont _ _, own, .cont _ _ ns, .present true => ⟨.cont true true ns, [own], none⟩
  | .cont _ _, _, .cont _ _ ns, .present false => ⟨.cont false false ns, [], none⟩
  | .list info kids, _, .list ch es, .add k =>
    if info.keys = [] then fail (.list ch es) .attributeError
    else listOut ch es (addSigs info kids es k) (ylAdd (entryCls info kids) info.keys.length es k)
  | .list info kids, _, .list ch es, .addNamed raws =>
    if info.keys = [] ∨ raws.length ≠ info.keys.length then fail (.list ch es) .attributeError
    else listOut ch es (addNamedSigs info kids es raws) (ylAddNamed (entryCls info kids) es raws none)
  | .list info kids, _, .list ch es, .addAnon u =>
    if info.keys = [] then ⟨.list ch (store es (.str u) (.cont false false (freshKids kids))), [], none⟩
    else fail (.list ch es) .keyError
  | .list info kids, own, .list _ es, .append v =>
    if info.keys = [] then ⟨.list true es, [own], some .attributeError⟩
    else
      let k := extractKey (entryCls info kids) info.keys.length v
      listOut true es (own :: setPosSigs info kids es k (some v))
        (ylSetPos (entryCls info kids) info.keys.length es k (some v))
  | .list info kids, own, .list _ es, .setitem k v =>
    if info.keys = [] then
      if hashable k then ⟨.list true (store es k (.cont false false (freshKids kids))), [own], none⟩
      else ⟨.list true es, [own], some .typeError⟩
    else listOut true es (own :: setPosSigs info kids es k (some v))
      (ylSetPos (entryCls info kids) info.keys.length es k (some v))
  | .list _ _, _, .list ch es, .delete k => listOut ch es [] (ylDelete es k)
  | _, _, n, _ => fail n .attributeError

/-- A step from an object to one it holds. -/
inductive Step where
  | field (i : Nat)
  | key (k : PyVal)
  deriving DecidableEq, Repr

abbrev Path := List Step

/-- The guard of the setter of a key leaf, pyangbind/plugin/pybind.py:1129-1136.  (An
entry in a list always has a `_parent`.) -/
def keyGuard (info : ListInfo) : Path → Op → Bool
  | [.field j], .set _ false => info.keys.contains j
  | [.field j], .assign _ => info.keys.contains j
  | _, _ => false

/-- An operation on the object at a path below `n`, in a tree of class `S`.  Operations
on a list entry as a whole are operations of the list. -/
def run : Schema → Option Choice → Inst → Path → Op → Out
  | S, own, n, [], op => nodeOp S own n op
  | .cont pres kids, own, .cont ch pr ns, .field i :: p, op =>
    match kids[i]?, ns[i]? with
    | some k, some c => contPut pres own kids ch pr ns i (run k.2 k.1.choice c p op)
    | _, _ => fail (.cont ch pr ns) .attributeError
  | .list info kids, _, .list ch es, .key k :: p, op =>
    if !hashable k then fail (.list ch es) .typeError
    else match es.find? fun q => pyEq q.1 k with
      | none => fail (.list ch es) .keyError
      | some q =>
        if p = [] then fail (.list ch es) .attributeError
        else if keyGuard info p op then fail (.list ch es) .attributeError
        else
          let o := run (.cont false kids) none q.2 p op
          ⟨.list ch (store es k o.inst), o.sigs, o.err⟩
  | _, _, n, _ :: _, _ => fail n .attributeError

/-- An operation on a whole binding: the object of the module's class is not wrapped in
`YANGBaseClass`, has no `_set`, and so ignores the calls. -/
def runRoot (kids : List (Meta × Schema)) (ns : List Inst) (p : Path) (op : Op) : List Inst × Option Err :=
  match p with
  | .field i :: p =>
    match kids[i]?, ns[i]? with
    | some k, some c =>
      let o := run k.2 k.1.choice c p op
      (ns.set i o.inst, o.err)
    | _, _ => (ns, some .attributeError)
  | _ => (ns, some .attributeError)

/-- A history of operations on a binding; exceptions are caught by the caller. -/
def history (kids : List (Meta × Schema)) : List Inst → List (Path × Op) → List Inst
  | ns, [] => ns
  | ns, (p, op) :: ops => history kids (runRoot kids ns p op).1 ops

end Pyb
