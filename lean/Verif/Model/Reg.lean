import Verif.Model.Tree
import Verif.Model.XPath

/-! # What a binding tells its path helper

Objects made with a `path_helper` register themselves when they are made, and list entries
are unregistered when they are deleted (pyangbind/lib/yangtypes.py:1070-1079, 685-710,
822-842).  `run` of `Verif.Model.Tree` says what an operation does to the objects; here it is
followed again, noting the calls of the helper and of `_set` in the order in which they are
made.

The path of an object is that of its parent with its own name
(pyangbind/lib/yangtypes.py:1183-1189, pyangbind/plugin/pybind.py:1087-1097); an entry is given
its own when it is made.  Copying objects (`assign`, `append`, item assignment) and lists
without key are not followed here. -/

namespace Pyb
open Py
open Spec (PStep RegOp)

/-- What happens: a call of `_set` of the holding container, or a call of the helper. -/
inductive Ev where
  | sig (c : Option Choice)
  | call (r : RegOp)

/-- What is registered.  Instead of the object's identity `ref` says what it is: 0 a
container or list entry, 1 a leaf, 2 a leaf-list, 3 an object whose making failed later on.
The text is that of a leaf. -/
def contObj : XObj := ⟨0, []⟩
def leafObj (v : PyVal) : XObj := ⟨1, v.toStr⟩
def llObj : XObj := ⟨2, []⟩
def lostObj : XObj := ⟨3, []⟩

mutual
/-- A newly made object at a path, as `fresh`: `YANGBaseClass.__init__` registers it, then the
base's `__init__` makes the children (pyangbind/lib/yangtypes.py:1070-1091).  "lists themselves
do not register". -/
def regNew (loc : List PStep) : Schema → List RegOp
  | .leaf L => [.register loc (leafObj L.zero)]
  | .leafList _ => [.register loc llObj]
  | .cont _ kids => .register loc contObj :: regKids loc kids
  | .list _ _ => []
/-- The children made by the generated `__init__`, pyangbind/plugin/pybind.py:1058-1061. -/
def regKids (loc : List PStep) : List (Meta × Schema) → List RegOp
  | [] => []
  | k :: ks => regNew (loc ++ [⟨k.1.name, []⟩]) k.2 ++ regKids loc ks
end

/-- As `clearKids`, pyangbind/lib/yangtypes.py:1112-1122. -/
def regClear (loc : List PStep) (c : Choice) : List (Meta × Schema) → List RegOp
  | [] => []
  | k :: ks => (if competes c k.1.choice then regNew (loc ++ [⟨k.1.name, []⟩]) k.2 else []) ++ regClear loc c ks

/-- As `contPut`: the calls of `_set` clear competing children and are passed on. -/
def passUp (loc : List PStep) (own : Option Choice) (kids : List (Meta × Schema)) : List Ev → List Ev
  | [] => []
  | .call r :: es => .call r :: passUp loc own kids es
  | .sig none :: es => .sig own :: passUp loc own kids es
  | .sig (some c) :: es => (regClear loc c kids).map .call ++ .sig (some c) :: passUp loc own kids es

/-- As `leafSet`: the new leaf calls `_set`, registers, and then takes its value
(pyangbind/lib/yangtypes.py:1067-1091); after that the setter calls the container's `_set`. -/
def leafEvs (loc : List PStep) (L : LeafCls) (own : Option Choice) (v : PyVal) : List Ev :=
  match L.set v with
  | .refused _ => []
  | .marked _ => [.sig own, .call (.register loc lostObj)]
  | .ok w => [.sig own, .call (.register loc (leafObj w)), .sig none]

/-- As `llApply`: assignment and `x += vs` make a new object. -/
def llEvs (loc : List PStep) (L : LLCls) (own : Option Choice) (xs : List PyVal) (op : LLOp) : List Ev :=
  let r := llStep L.conv L.uniq L.show xs op
  match op with
  | .assign _ =>
    match r.2 with
    | none => [.sig own, .call (.register loc llObj), .sig none]
    | some _ => [.sig own, .call (.register loc lostObj)]
  | .iadd _ =>
    match r.2 with
    | none => [.sig own, .call (.register loc llObj), .sig none]
    | some _ => [.sig own, .call (.register loc lostObj)]
  | _ => if llMarks xs op then [.sig own] else []

/-- The names of the key leaves. -/
def entryKeyNames (info : ListInfo) (kids : List (Meta × Schema)) : List Str := info.keys.map fun j => (kids[j]?.map (·.1.name)).getD []

/-- The texts of the key values in a key, see `keyParts`. -/
def entryTexts (n : Nat) (k : PyVal) : List Str := if n = 1 then [k.toStr] else splitOn ' ' k.toStr

/-- The step of an entry, pyangbind/lib/yangtypes.py:655-682: made of the key values as they were
given.  Here it is read off the key the entry is stored under, which for keywords is the
same as long as there are no spaces in the values. -/
def entryStep (name : Str) (info : ListInfo) (kids : List (Meta × Schema)) (k : PyVal) : PStep :=
  ⟨name, (entryKeyNames info kids).zip (entryTexts info.keys.length k)⟩

/-- As `keySet` and `keySigs`, in an entry at `loc`. -/
def keyEvs (loc : List PStep) (kids : List (Meta × Schema)) : Inst → List (Nat × PyVal) → List Ev
  | _, [] => []
  | e, (j, r) :: rs =>
    (match kids[j]? with
      | some (m, .leaf L) => passUp loc none kids (leafEvs (loc ++ [⟨m.name, []⟩]) L m.choice r)
      | _ => []) ++
    (match (keySet kids e j r).err with
      | none => keyEvs loc kids (keySet kids e j r).inst rs
      | some _ => [])

/-- The making of a new entry, pyangbind/lib/yangtypes.py:685-715: it registers with its
children, then its key leaves are set. -/
def entryEvs (loc : List PStep) (info : ListInfo) (kids : List (Meta × Schema)) (raws : List PyVal) : List Ev :=
  .call (.register loc contObj) :: (regKids loc kids).map .call ++
    keyEvs loc kids (.cont false false (freshKids kids)) (info.keys.zip raws)

/-- As `addSigs`. -/
def addEvs (up : List PStep) (name : Str) (info : ListInfo) (kids : List (Meta × Schema)) (ms : Members Inst) (k : PyVal) : List Ev :=
  if k = .none then []
  else if !hashable k then []
  else if mem ms k then []
  else match keyParts info.keys.length k with
    | .error _ => []
    | .ok raws => entryEvs (up ++ [entryStep name info kids k]) info kids raws

/-- As `addNamedSigs`. -/
def addNamedEvs (up : List PStep) (name : Str) (info : ListInfo) (kids : List (Meta × Schema)) (ms : Members Inst)
    (raws : List (Option PyVal)) : List Ev :=
  match allGiven raws with
  | .error _ => []
  | .ok raws =>
    if mem ms (namedKey raws) then [] else entryEvs (up ++ [entryStep name info kids (namedKey raws)]) info kids raws

/-- `delete`, pyangbind/lib/yangtypes.py:819-844: an entry that is there is unregistered. -/
def deleteEvs (up : List PStep) (name : Str) (info : ListInfo) (kids : List (Meta × Schema)) (ms : Members Inst) (k : PyVal) : List Ev :=
  match ylDelete ms k with
  | .ok _ => [.call (.unregister (up ++ [entryStep name info kids k]))]
  | .error _ => []

/-- As `nodeOp`, for the object called `name` in the object at `up`. -/
def nodeEvs (up : List PStep) (name : Str) : Schema → Option Choice → Inst → Op → List Ev
  | S, _, _, .unset => (regNew (up ++ [⟨name, []⟩]) S).map .call
  | .leaf L, own, _, .set v _ => leafEvs (up ++ [⟨name, []⟩]) L own v
  | .leafList L, own, .leafList xs _, .ll op => llEvs (up ++ [⟨name, []⟩]) L own xs op
  | .cont _ _, own, .cont _ _ _, .present true => [.sig own]
  | .list info kids, _, .list _ es, .add k => if info.keys = [] then [] else addEvs up name info kids es k
  | .list info kids, _, .list _ es, .addNamed raws =>
    if info.keys = [] ∨ raws.length ≠ info.keys.length then [] else addNamedEvs up name info kids es raws
  | .list info kids, _, .list _ es, .delete k => deleteEvs up name info kids es k
  | _, _, _, _ => []

/-- As `run`. -/
def runEvs (up : List PStep) (name : Str) : Schema → Option Choice → Inst → Path → Op → List Ev
  | S, own, n, [], op => nodeEvs up name S own n op
  | .cont _ kids, own, .cont _ _ ns, .field i :: p, op =>
    match kids[i]?, ns[i]? with
    | some k, some c =>
      passUp (up ++ [⟨name, []⟩]) own kids (runEvs (up ++ [⟨name, []⟩]) k.1.name k.2 k.1.choice c p op)
    | _, _ => []
  | .list info kids, _, .list _ es, .key k :: .field i :: p, op =>
    if !hashable k then []
    else match es.find? fun q => pyEq q.1 k with
      | some (k', .cont _ _ ns) =>
        if keyGuard info (.field i :: p) op then []
        else match kids[i]?, ns[i]? with
          | some k, some c =>
            passUp (up ++ [entryStep name info kids k']) none kids
              (runEvs (up ++ [entryStep name info kids k']) k.1.name k.2 k.1.choice c p op)
          | _, _ => []
      | _ => []
  | _, _, _, _ :: _, _ => []

/-- The calls of the helper. -/
def callsOf : List Ev → List RegOp
  | [] => []
  | .call r :: es => r :: callsOf es
  | .sig _ :: es => callsOf es

/-- The calls of `_set`. -/
def sigsOf : List Ev → List (Option Choice)
  | [] => []
  | .call _ :: es => sigsOf es
  | .sig c :: es => c :: sigsOf es

/-- As `runRoot`: the path of the module's object is empty. -/
def rootCalls (kids : List (Meta × Schema)) (ns : List Inst) (p : Path) (op : Op) : List RegOp :=
  match p with
  | .field i :: p =>
    match kids[i]?, ns[i]? with
    | some k, some c => callsOf (runEvs [] k.1.name k.2 k.1.choice c p op)
    | _, _ => []
  | _ => []

/-- The calls made over a history. -/
def historyCalls (kids : List (Meta × Schema)) : List Inst → List (Path × Op) → List RegOp
  | _, [] => []
  | ns, (p, op) :: ops => rootCalls kids ns p op ++ historyCalls kids (runRoot kids ns p op).1 ops

/-- The text of the last step when an entry is deleted, pyangbind/lib/yangtypes.py:822-837.
(Entries have keys here.) -/
def delText (s : PStep) : Str := if s.keys = [] then s.tag else s.tag ++ keyStringDel s.keys

/-- A call of the helper with the texts of the path's steps. -/
def doCall (eqv : XObj → XObj → Bool) (h : Helper) : RegOp → Helper × Except Err Unit
  | .register p o => h.register eqv (p.map PStep.text) o
  | .unregister p => h.unregister (p.dropLast.map PStep.text ++ (p.getLast?.map delText).toList)

/-- A binding made with a new path helper, and used: the helper. -/
def helperAfter (eqv : XObj → XObj → Bool) (kids : List (Meta × Schema)) (ops : List (Path × Op)) : Helper :=
  (regKids [] kids ++ historyCalls kids (freshKids kids) ops).foldl (fun h c => (doCall eqv h c).1) Helper.new

end Pyb
