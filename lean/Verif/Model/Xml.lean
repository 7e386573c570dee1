import Verif.Model.Ietf
import Verif.Model.XPath

/-! # XML: writing and reading instance trees

`make_generate_ietf_tree` (pyangbind/lib/serialise.py:392-453) with the XML naming
function (364-375), the serialisation of the values by `XmlYangDataSerialiser` (253-264),
and `generate_xml_tree` (329-362); `pybindIETFXMLDecoder.load_xml` (456-570).

A document is the tree of elements; an element written with the empty text has no text when
it is read.  The text of documents is in `Model/XmlText`. -/

namespace Pyb
open Py

/-- An element: its namespace, local name, the prefixes it declares (besides the default
namespace), its text and its children.  Attributes are not used. -/
inductive Xml where
  | elem (ns name : Str) (decls : List (Str × Str)) (text : Option Str) (kids : List Xml)

def Xml.ns : Xml → Str | .elem ns _ _ _ _ => ns
def Xml.name : Xml → Str | .elem _ n _ _ _ => n
def Xml.decls : Xml → List (Str × Str) | .elem _ _ d _ _ => d
def Xml.text : Xml → Option Str | .elem _ _ _ t _ => t
def Xml.kids : Xml → List Xml | .elem _ _ _ _ ks => ks

/-! ## Writing -/

/-- `E(k, text)`: lxml refuses characters XML does not allow. -/
def xmlText (s : Str) : Except Err (Option Str) :=
  if s.all xmlChar then .ok (if s = [] then none else some s) else .error .valueError

/-- The serialised value of a leaf: that of the IETF serialiser, but `None` for `empty`
(pyangbind/lib/serialise.py:263-264), whatever its value. -/
def xmlVal (mod : Str) (L : LeafCls) (v : PyVal) : Except Err J :=
  if L.yangType = py!"empty" then .ok .null else serLeaf true mod L v

/-- The text of a leaf, pyangbind/lib/serialise.py:351-359.  (Other serialised values are
no scalars: they do not occur for leaves.) -/
def scalarText : J → Except Err (Option Str)
  | .null => .ok none
  | .bool b => xmlText (if b then py!"true" else py!"false")
  | .num n => xmlText (intStr n)
  | .str s => xmlText s
  | _ => .error .typeError

/-- The text of an element of a leaf-list, `str(i)`, pyangbind/lib/serialise.py:339-343. -/
def elemText : J → Except Err (Option Str)
  | .null => xmlText py!"None"
  | .bool b => xmlText (if b then py!"True" else py!"False")
  | .num n => xmlText (intStr n)
  | .str s => xmlText s
  | _ => .error .typeError

/-- The prefixes declared for a leaf, `yname_ns_func`, pyangbind/lib/serialise.py:364-375:
for an identityref that was set, the name of the module of the identity.  `nsOf` gives
the namespace of a module (`@namespace`). -/
def xmlDecls (nsOf : Str → Str) (L : LeafCls) (v : PyVal) (ch : Bool) : Except Err (List (Str × Str)) :=
  if L.yangType = py!"identityref" ∧ ch = true then
    match (L.ser v).idents.lookup v.toStr with
    | some m => .ok [(m, nsOf m)]
    | none => .error .keyError
  else .ok []

/-- The same function for a leaf-list: it has no `_enumeration_dict`. -/
def xmlLLDecls (L : LLCls) (ch : Bool) : Except Err Unit :=
  if L.yangType = py!"identityref" ∧ ch = true then .error .attributeError else .ok ()

/-- The element of a leaf. -/
def xmlLeaf (nsOf : Str → Str) (m : Meta) (L : LeafCls) (v : PyVal) (ch : Bool) : Except Err Xml := do
  let d ← xmlDecls nsOf L v ch
  let j ← xmlVal m.module_ L v
  let t ← scalarText j
  pure (.elem m.ns m.name d t [])

/-- The elements of a leaf-list, one for each value. -/
def xmlLeafList (m : Meta) (L : LLCls) (vs : List PyVal) : Except Err (List Xml) :=
  vs.mapM fun v => do
    let j ← serElem true m.module_ L v
    let t ← elemText j
    pure (.elem m.ns m.name [] t [])

mutual
/-- The elements for one child, if the child is part of the intermediate dict,
pyangbind/lib/serialise.py:419-450, 333-359; `flt` is the argument `filter`.  The naming
function is applied to children that are left out as well.  If several steps raise, it is
not modelled which exception is the first. -/
def xmlNode (nsOf : Str → Str) (flt : Bool) (m : Meta) : Schema → Inst → Except Err (Option (List Xml))
  | .leaf L, .leaf v ch =>
    if !flt || ch then (xmlLeaf nsOf m L v ch).map fun x => some [x] else .ok none
  | .leafList L, .leafList vs ch => do
    xmlLLDecls L ch
    if !flt || ch then (xmlLeafList m L vs).map some else .ok none
  | .cont _ kids, .cont _ pr ns =>
    match xmlKids nsOf flt kids ns with
    | .ok xs => .ok (if xs.isEmpty && !pr then none else some [.elem m.ns m.name [] none xs.flatten])
    | .error e => .error e
  | .list _ kids, .list _ es =>
    match es.mapM fun q => (xmlKids nsOf flt kids q.2.kids).map fun xs => Xml.elem m.ns m.name [] none xs.flatten with
    | .ok xs => .ok (if xs.isEmpty then none else some xs)
    | .error e => .error e
  | _, _ => .ok none
/-- The elements for the children of a container or entry, a list for each child
included. -/
def xmlKids (nsOf : Str → Str) (flt : Bool) : List (Meta × Schema) → List Inst → Except Err (List (List Xml))
  | k :: ks, n :: ns =>
    match xmlNode nsOf flt k.1 k.2 n, xmlKids nsOf flt ks ns with
    | .ok none, .ok xs => .ok xs
    | .ok (some x), .ok xs => .ok (x :: xs)
    | .error e, _ => .error e
    | _, .error e => .error e
  | _, _ => .ok []
end

/-- `pybindIETFXMLEncoder.serialise(obj)` for the object of a module's class, and parsing
the result; `name` and `ns` are those of the module. -/
def xmlDump (nsOf : Str → Str) (flt : Bool) (name ns : Str) (kids : List (Meta × Schema)) (insts : List Inst) :
    Except Err Xml :=
  (xmlKids nsOf flt kids insts).map fun xs => .elem ns name [] none xs.flatten

/-! ## Reading -/

/-- `child.pyval` of an element without children: lxml.objectify looks whether the text is
that of a number or a boolean; `infer` says what it finds.  An element without text is an
empty string. -/
def pyval (infer : Str → PyVal) : Option Str → PyVal
  | none => .str []
  | some s => infer s

/-- Appending to a leaf-list, pyangbind/lib/serialise.py:533-546. -/
def xmlAppend (infer : Str → PyVal) (L : LLCls) (own : Option Choice) (xs : List PyVal) (ch : Bool) (t : Option Str) : Out :=
  let v := pyval infer t
  let o := llApply L own xs ch (.append v)
  if o.err = some .valueError ∧ L.plainStr then
    let o' := llApply L own xs true (.append (.str v.toStr))
    ⟨o'.inst, o.sigs ++ o'.sigs, o'.err⟩
  else o

/-- Setting a leaf, pyangbind/lib/serialise.py:548-568. -/
def xmlSet (L : LeafCls) (own : Option Choice) (isKey : Bool) (c : Inst) (t : Option Str) : Out :=
  if isKey then Out.same c
  else if L.yangType = py!"empty" then
    match t with
    | none => leafSet L own c (.bool true)
    | some _ => fail c .valueError
  else if L.yangType = py!"identityref" then
    match t with
    | none => fail c .typeError
    | some s => leafSet L own c (.str (if ':' ∈ s then (s.dropWhile (· ≠ ':')).tail else s))
  else
    match t with
    | none => Out.same c
    | some s => leafSet L own c (.str s)

/-- `child[ykv]`: the first child of that name, in the namespace of the element. -/
def xmlFind (ns name : Str) (xs : List Xml) : Except Err Xml :=
  match xs.find? fun x => x.ns == ns && x.name == name with
  | some x => .ok x
  | none => .error .attributeError

/-- The key values of an entry, pyangbind/lib/serialise.py:517-522.  The objects of lxml
are taken to be the values they stand for.  (Restricted types test `str()` of them, but
for `length` they use `len()`, which is not that of the text if it looks like a number:
this is not modelled.) -/
def xmlKeys (infer : Str → PyVal) (ns : Str) (names : List Str) (xs : List Xml) : Except Err (List PyVal) :=
  names.mapM fun k => (xmlFind ns k xs).map fun x => pyval infer x.text

/-- Finding or making an entry, pyangbind/lib/serialise.py:512-526.  `NotImplementedError`
is a `RuntimeError`. -/
def xmlEntry (infer : Str → PyVal) (info : ListInfo) (kids : List (Meta × Schema)) (ch : Bool) (es : Members Inst)
    (ns : Str) (xs : List Xml) : Out × PyVal :=
  if info.keys = [] then (fail (.list ch es) .runtimeError, .none)
  else match xmlKeys infer ns (keyNames info kids) xs with
    | .error e => (fail (.list ch es) e, .none)
    | .ok raws =>
      if mem es (namedKey raws) then (Out.same (.list ch es), namedKey raws)
      else (nodeOp (.list info kids) none (.list ch es) (.addNamed (raws.map some)), namedKey raws)

mutual
/-- The loop over the children of an element, pyangbind/lib/serialise.py:491-501: the
namespace is not looked at.  `keys` are the positions of the key leaves, if the object is
an entry of a list. -/
def xmlMembers (infer : Str → PyVal) (wrapped : Bool) (S : Schema) (keys : List Nat) (own : Option Choice) :
    Inst → List Xml → Out
  | n, [] => Out.same n
  | n, x :: xs =>
    (withKid wrapped S own n x.name (fail n .attributeError) fun i k c =>
      xmlChild infer k.2 k.1.choice (keys.contains i) c x).andThen fun n => xmlMembers infer wrapped S keys own n xs
/-- One child, pyangbind/lib/serialise.py:503-568.  An element with children has no
`pyval`; that one of them may have this very name is left out. -/
def xmlChild (infer : Str → PyVal) (S : Schema) (own : Option Choice) (isKey : Bool) (c : Inst) : Xml → Out
  | .elem ns _ _ t xs =>
    match S, c with
    | .cont pres kids, c => (markPresent (.cont pres kids) own c).andThen fun c => xmlMembers infer true (.cont pres kids) [] own c xs
    | .list info kids, .list ch es =>
      let e := xmlEntry infer info kids ch es ns xs
      e.1.andThen fun n => withEntry n e.2 fun c => xmlMembers infer true (.cont false kids) info.keys none c xs
    | .leafList L, .leafList vs ch =>
      if xs.isEmpty then xmlAppend infer L own vs ch t else fail (.leafList vs ch) .attributeError
    | .leaf L, c => xmlSet L own isKey c t
    | _, c => fail c .attributeError
end

/-- `load_xml(doc, ..., obj)`: into the object of a module's class.  The name of the
document element is not looked at. -/
def xmlLoad (infer : Str → PyVal) (kids : List (Meta × Schema)) (ns : List Inst) (doc : Xml) : List Inst × Option Err :=
  let o := xmlMembers infer false (.cont false kids) [] none (.cont false false ns) doc.kids
  (o.inst.kids, o.err)

end Pyb
