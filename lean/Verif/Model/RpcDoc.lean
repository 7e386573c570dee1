import Verif.Model.Xml

/-! # Documents of rpcs

The object of an rpc has the children `input` and `output`, that of the class `<module>_rpc` the
rpcs.  The serialisers and `load_json` see by `_pybind_generated_by` that these are containers
(pyangbind/lib/serialise.py:100, 427-428, 618-619; pyangbind/plugin/pybind.py:1014), and
`load_ietf_json` that the document has an object there (serialise.py:768): to them they are the
containers of the tree model.  `load_xml`
looks at `_yang_type` instead, which is the keyword (pyangbind/plugin/pybind.py:1002, 1504):
`input`, `output` or `rpc`. -/

namespace Pyb
open Py

/-- The classes of the children of an rpc, pyangbind/plugin/pybind.py:415-437. -/
def rpcKids (ns module_ : Str) (input output : List (Meta × Schema)) : List (Meta × Schema) :=
  [({ name := py!"input", ns, module_ }, .cont false input), ({ name := py!"output", ns, module_ }, .cont false output)]

/-- One child in `load_xml`, pyangbind/lib/serialise.py:503-568: it is none of "container", "list" and
a leaf-list, so it is taken for a leaf, which is set to the element's text if it has one.  The setter
refuses a text, which has not the attributes of the class (pyangbind/plugin/pybind.py:1064-1075;
children with the names of the methods of `str` are not considered). -/
def rpcXmlChild (c : Inst) (x : Xml) : Out :=
  match x.text with
  | none => Out.same c
  | some _ => fail c .valueError

/-- The loop over the elements, pyangbind/lib/serialise.py:491-501, as `xmlMembers`. -/
def rpcXmlMembers (kids : List (Meta × Schema)) : Inst → List Xml → Out
  | n, [] => Out.same n
  | n, x :: xs =>
    (withKid false (.cont false kids) none n x.name (fail n .attributeError) fun _ _ c => rpcXmlChild c x).andThen fun n => rpcXmlMembers kids n xs

/-- `load_xml(doc, ..., obj)` into the object of an rpc, or of the class with the rpcs of a module. -/
def rpcXmlLoad (kids : List (Meta × Schema)) (ns : List Inst) (doc : Xml) : List Inst × Option Err :=
  let o := rpcXmlMembers kids (.cont false false ns) doc.kids
  (o.inst.kids, o.err)

end Pyb
