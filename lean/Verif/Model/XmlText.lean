import Verif.Model.Xml
import Verif.Model.JsonText

/-! # XML: documents as text

`pybindIETFXMLEncoder.serialise` (pyangbind/lib/serialise.py:384-389) writes the tree of
elements with `etree.tostring`; `pybindIETFXMLDecoder.decode` (461-467) reads a text with a
parser that drops comments and blank text.  Both are done by lxml and libxml2: the
functions here are a model of what these libraries do for the documents concerned. -/

namespace Pyb
open Py

/-! ## Writing -/

/-- The text of a character: `&`, `<`, `>` and carriage return are escaped, and so is
everything outside ASCII, the encoding of `etree.tostring` if none is given. -/
def xmlEsc (c : Char) : Str :=
  if c = '&' then py!"&amp;"
  else if c = '<' then py!"&lt;"
  else if c = '>' then py!"&gt;"
  else if c = '\r' then py!"&#13;"
  else if c.toNat < 128 then [c]
  else py!"&#" ++ natStr c.toNat ++ [';']

/-- A namespace declaration.  (Special characters in namespaces are not considered.) -/
def xmlnsText (p : Option Str) (uri : Str) : Str :=
  py!"xmlns" ++ (match p with | none => [] | some p => ':' :: p) ++ py!"=\"" ++ uri ++ ['"']

/-- The line break and indentation of `pretty_print`. -/
def xmlLine (pretty : Bool) (lvl : Nat) : Str := if pretty then '\n' :: List.replicate (2 * lvl) ' ' else []

/-- The declarations of an element when it has been appended to its parent: lxml removes
the declarations of the namespaces that are known there, whatever the prefix.  `inh` is the
default namespace of the parent.  (Only leaves have declarations besides that of the default
namespace, so no other namespaces are known.)  The default namespace is the last,
pyangbind/lib/serialise.py:320-327, 368-375. -/
def xmlOwnDecls (inh ns : Str) (decls : List (Str × Str)) : List (Option Str × Str) :=
  ((decls.map fun d : Str × Str => (some d.1, d.2)) ++ [(none, ns)]).filter fun d : Option Str × Str => d.2 ≠ inh

mutual
/-- The text of an element.  There are no line breaks inside an element that has text. -/
def Xml.write (pretty : Bool) (lvl : Nat) (inh : Str) : Xml → Str
  | .elem ns name decls text kids =>
    '<' :: name ++ ((xmlOwnDecls inh ns decls).flatMap fun d => ' ' :: xmlnsText d.1 d.2) ++
      if text.isNone && kids.isEmpty then py!"/>"
      else '>' :: (text.getD []).flatMap xmlEsc ++ Xml.writeAll (pretty && text.isNone) (lvl + 1) ns kids ++
        (if kids.isEmpty then [] else xmlLine (pretty && text.isNone) lvl) ++ py!"</" ++ name ++ ['>']
def Xml.writeAll (pretty : Bool) (lvl : Nat) (inh : Str) : List Xml → Str
  | [] => []
  | x :: xs => xmlLine pretty lvl ++ x.write pretty lvl inh ++ Xml.writeAll pretty lvl inh xs
end

/-- `etree.tostring(doc, pretty_print=pretty_print)`, pyangbind/lib/serialise.py:389. -/
def writeXml (pretty : Bool) (x : Xml) : Str := x.write pretty 0 [] ++ (if pretty then ['\n'] else [])

/-! ## Reading

`none` stands for texts that are not well-formed, and for those that are not considered:
with an XML declaration, a document type, processing instructions, CDATA sections,
attributes besides the declarations of namespaces, prefixes in the names of elements,
references or white space in namespaces, white space around `=`, names that are not ASCII,
carriage returns that are not written as references. -/

def isXmlBlank (c : Char) : Bool := c = ' ' || c = '\t' || c = '\n'

/-- The characters of namespaces. -/
def uriChar (c : Char) : Bool := 32 < c.toNat && c.toNat < 127 && c ≠ '"' && c ≠ '\'' && c ≠ '&' && c ≠ '<'

/-- The value of the digits of a reference. -/
def refDigits (b : Nat) : Nat → Str → Option Nat
  | n, [] => some n
  | n, c :: cs =>
    match hexValue c with
    | some d => if d < b then refDigits b (b * n + d) cs else none
    | none => none

/-- A reference to a character, between `&` and `;`. -/
def refChar : Str → Option Char
  | '#' :: 'x' :: ds => if ds = [] then none else (refDigits 16 0 ds).map Char.ofNat
  | '#' :: ds => if ds = [] then none else (refDigits 10 0 ds).map Char.ofNat
  | s => [(py!"amp", '&'), (py!"lt", '<'), (py!"gt", '>'), (py!"quot", '"'), (py!"apos", '\'')].lookup s

/-- A reference, after `&`. -/
def readRef (s : Str) : Option (Char × Str) :=
  match refChar (s.takeWhile (· ≠ ';')), s.dropWhile (· ≠ ';') with
  | some c, _ :: r => if xmlChar c then some (c, r) else none
  | _, _ => none

/-- What follows a comment; `s` is what follows `<!--`. -/
def skipComment : Str → Option Str
  | [] => none
  | c :: s => if c = '-' ∧ s.head? = some '-' then (if s.tail.head? = some '>' then some s.tail.tail else none) else skipComment s

/-- A namespace declaration: its prefix and namespace, and what follows. -/
def readXmlns (s : Str) : Option ((Option Str × Str) × Str) :=
  if py!"xmlns" <+: s then
    let r := s.drop 5
    let p := if r.head? = some ':' then some (r.tail.takeWhile nameChar) else none
    match (if r.head? = some ':' then r.tail.dropWhile nameChar else r) with
    | '=' :: q :: r =>
      let uri := r.takeWhile (· ≠ q)
      if (q = '"' ∨ q = '\'') ∧ (p.all validName && uri ≠ [] && uri.all uriChar && (r.dropWhile (· ≠ q) ≠ [])) = true then
        some ((p, uri), (r.dropWhile (· ≠ q)).tail)
      else none
    | _ => none
  else none

/-- The declarations of a tag, and what follows: `>` or `/>`. -/
def readDecls : Nat → Str → Option (List (Option Str × Str) × Str)
  | 0, _ => none
  | n + 1, s =>
    let r := s.dropWhile isXmlBlank
    if r.head? = some '>' ∨ r.head? = some '/' then some ([], r)
    else if s.head?.any isXmlBlank then
      match readXmlns r with
      | some (d, r) => (readDecls n r).map fun p => (d :: p.1, p.2)
      | none => none
    else none

/-- The text `]]>`, which must not occur in an element. -/
def cdataEnd : Str → Bool
  | [] => false
  | c :: s => (c == ']' && s.head? == some ']' && s.tail.head? == some '>') || cdataEnd s

/-- A piece of text without references is dropped if it is blank and nothing but an
element or comment follows, or the end of an element that has children; but not if there is
text before, in the element or after its last child. -/
def dropsBlank (lead : Option Str) (kids : List Xml) (tail : Bool) (t r : Str) : Bool :=
  t.all isXmlBlank && r.head? == some '<' && !(lead.isNone && kids.isEmpty && r.tail.head? == some '/') && !tail && lead.isNone

mutual
/-- An element, after `<`, and what follows it.  `inh` is the default namespace. -/
def readElem : Nat → Str → Str → Option (Xml × Str)
  | 0, _, _ => none
  | n + 1, inh, s =>
    let name := s.takeWhile nameChar
    match readDecls (s.length + 1) (s.dropWhile nameChar) with
    | none => none
    | some (ds, r) =>
      if validName name && (ds.map (·.1)).Nodup then
        let ns := (ds.lookup none).getD inh
        let decls := ds.filterMap fun d => d.1.map fun p => (p, d.2)
        match r with
        | '/' :: '>' :: r => some (.elem ns name decls none [], r)
        | '>' :: r =>
          match readContent n ns none [] false r with
          | some (t, ks, r) =>
            if name <+: r then
              match (r.drop name.length).dropWhile isXmlBlank with
              | '>' :: r => some (.elem ns name decls t ks, r)
              | _ => none
            else none
          | none => none
        | _ => none
      else none
/-- The content of an element, and what follows `</`.  `lead` is the text before the first
child, `kids` the children, `tail` says if there is text after the last of them. -/
def readContent : Nat → Str → Option Str → List Xml → Bool → Str → Option (Option Str × List Xml × Str)
  | 0, _, _, _, _, _ => none
  | n + 1, ns, lead, kids, tail, s =>
    match s with
    | [] => none
    | '<' :: '/' :: r => some (lead, kids, r)
    | '<' :: '!' :: '-' :: '-' :: r =>
      match skipComment r with
      | some r => readContent n ns lead kids tail r
      | none => none
    | '<' :: r =>
      match readElem n ns r with
      | some (x, r) => readContent n ns lead (kids ++ [x]) false r
      | none => none
    | '&' :: r =>
      match readRef r with
      | some (c, r) =>
        if kids.isEmpty then readContent n ns (some (lead.getD [] ++ [c])) kids false r
        else readContent n ns lead kids true r
      | none => none
    | c :: s =>
      let t := (c :: s).takeWhile fun c => c ≠ '<' && c ≠ '&'
      let r := (c :: s).dropWhile fun c => c ≠ '<' && c ≠ '&'
      if t.all (fun c => xmlChar c && c ≠ '\r') && !cdataEnd t then
        if dropsBlank lead kids tail t r then readContent n ns lead kids tail r
        else if kids.isEmpty then readContent n ns (some (lead.getD [] ++ t)) kids false r
        else readContent n ns lead kids true r
      else none
end

/-- Blanks and comments around the document element. -/
def skipMisc : Nat → Str → Option Str
  | 0, _ => none
  | n + 1, s =>
    match s.dropWhile isXmlBlank with
    | '<' :: '!' :: '-' :: '-' :: r =>
      match skipComment r with
      | some r => skipMisc n r
      | none => none
    | r => some r

/-- `objectify.fromstring(xml, parser)`, pyangbind/lib/serialise.py:463-466. -/
def readXml (s : Str) : Option Xml :=
  match skipMisc (s.length + 1) s with
  | some ('<' :: r) =>
    match readElem r.length [] r with
    | some (x, r) => if skipMisc (r.length + 1) r = some [] then some x else none
    | none => none
  | _ => none

end Pyb
