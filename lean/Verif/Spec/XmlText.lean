import Verif.Model.Xml
import Verif.Spec.XPath

/-! # Specification vocabulary: the texts of an XML document

`XmlDoc x w`: the text `w` is one of the texts of the document `x`.  It says nothing about
how texts are read. -/

namespace Spec
open Py Pyb

def Blank (c : Char) : Prop := c = ' ' ∨ c = '\t' ∨ c = '\n'

def Blanks (s : Str) : Prop := ∀ c ∈ s, Blank c

/-- A comment: two hyphens are not allowed in it. -/
def Comment (s : Str) : Prop := ∃ b, s = py!"<!--" ++ b ++ py!"-->" ∧ ¬ Contains (b ++ ['-']) py!"--"

/-- What may be between elements: blanks and comments. -/
inductive Gap : Str → Prop where
  | nil : Gap []
  | blank {c g} : Blank c → Gap g → Gap (c :: g)
  | comment {b g} : Comment b → Gap g → Gap (b ++ g)

/-- A namespace, without characters that are special in XML. -/
def Uri (u : Str) : Prop := u ≠ [] ∧ ∀ c ∈ u, 32 < c.toNat ∧ c.toNat < 127 ∧ c ≠ '"' ∧ c ≠ '\'' ∧ c ≠ '&' ∧ c ≠ '<'

def digitOf (c : Char) : Nat := if c.toNat ≤ 57 then c.toNat - 48 else if c.toNat ≤ 70 then c.toNat - 55 else c.toNat - 87

/-- A numeral with digits `0-9`, `A-F`, `a-f`, in base `b`. -/
def Numeral (b : Nat) (ds : Str) (n : Nat) : Prop :=
  ds ≠ [] ∧ (∀ c ∈ ds, (48 ≤ c.toNat ∧ c.toNat ≤ 57 ∨ 65 ≤ c.toNat ∧ c.toNat ≤ 70 ∨ 97 ≤ c.toNat ∧ c.toNat ≤ 102) ∧ digitOf c < b) ∧
  ds.foldl (fun n c => b * n + digitOf c) 0 = n

/-- The references to a character: those of the five special ones, and numbers. -/
inductive RefTo : Char → Str → Prop where
  | amp : RefTo '&' py!"&amp;"
  | lt : RefTo '<' py!"&lt;"
  | gt : RefTo '>' py!"&gt;"
  | quot : RefTo '"' py!"&quot;"
  | apos : RefTo '\'' py!"&apos;"
  | dec {c ds} : Numeral 10 ds c.toNat → RefTo c (py!"&#" ++ ds ++ py!";")
  | hex {c ds} : Numeral 16 ds c.toNat → RefTo c (py!"&#x" ++ ds ++ py!";")

/-- What of the text of an element has been seen: nothing (but comments), only blanks, or
more. -/
inductive Before where
  | nothing | blanks | text
deriving DecidableEq

/-- The texts of a string.  Characters are written as they are or as references.  There may
be comments, but not after blanks at the start, as these would then not be text. -/
inductive TextOf : Before → Str → Str → Prop where
  | nil {b} : TextOf b [] []
  | blank {b c s v} : Blank c → TextOf (if b = .text then .text else .blanks) s v → TextOf b (c :: s) (c :: v)
  | char {b c s v} : ¬ Blank c → c ≠ '<' → c ≠ '&' → c ≠ '>' → c ≠ '\r' → TextOf .text s v → TextOf b (c :: s) (c :: v)
  | ref {b c w s v} : RefTo c w → TextOf .text s v → TextOf b (c :: s) (w ++ v)
  | comment {b w s v} : b ≠ .blanks → Comment w → TextOf b s v → TextOf b s (w ++ v)

/-- A declaration of a namespace, in quotes `q`. -/
def declText (p : Option Str) (uri : Str) (q : Char) : Str :=
  py!"xmlns" ++ (match p with | none => [] | some p => ':' :: p) ++ '=' :: q :: uri ++ [q]

/-- The texts of a start tag up to `>` or `/>`: `decls` are the prefixes it declares, and
`ns` is the default namespace in it if `inh` is that around it. -/
def StartTag (inh ns name : Str) (decls : List (Str × Str)) (w : Str) : Prop :=
  Identifier name ∧ ∃ (as : List ((Option Str × Str) × Str × Char)) (sp : Str),
    w = '<' :: name ++ as.flatMap (fun a => a.2.1 ++ declText a.1.1 a.1.2 a.2.2) ++ sp ∧ Blanks sp ∧
    (∀ a ∈ as, Blanks a.2.1 ∧ a.2.1 ≠ [] ∧ (a.2.2 = '"' ∨ a.2.2 = '\'') ∧ (∀ p, a.1.1 = some p → Identifier p) ∧ Uri a.1.2) ∧
    (as.map (·.1.1)).Nodup ∧ decls = as.filterMap (fun a => a.1.1.map fun p => (p, a.1.2)) ∧
    ns = ((as.map (·.1)).lookup none).getD inh

def EndTag (name w : Str) : Prop := ∃ sp, w = py!"</" ++ name ++ sp ++ py!">" ∧ Blanks sp

/-- The texts of an element where `inh` is the default namespace: an empty element in
either form, one with text, one with children. -/
inductive Renders : Str → Xml → Str → Prop where
  | empty {inh ns name decls w} : StartTag inh ns name decls w → Renders inh (.elem ns name decls none []) (w ++ py!"/>")
  | text {inh ns name decls w s v e} : StartTag inh ns name decls w → TextOf .nothing s v → s.all xmlChar = true → EndTag name e →
      Renders inh (.elem ns name decls (if s = [] then none else some s) []) (w ++ '>' :: v ++ e)
  | kids {inh ns name decls w g e} (ps : List (Str × Xml × Str)) : StartTag inh ns name decls w → ps ≠ [] →
      (∀ p ∈ ps, Gap p.1) → (∀ p ∈ ps, Renders ns p.2.1 p.2.2) → Gap g → EndTag name e →
      Renders inh (.elem ns name decls none (ps.map (·.2.1))) (w ++ '>' :: ps.flatMap (fun p => p.1 ++ p.2.2) ++ g ++ e)

/-- The texts of a document. -/
def XmlDoc (x : Xml) (w : Str) : Prop := ∃ g b g', w = g ++ b ++ g' ∧ Gap g ∧ Renders [] x b ∧ Gap g'

mutual
/-- A document as it is written by pyangbind: names of YANG, namespaces without special
characters, characters of XML; only elements without children have text or declare
prefixes. -/
def Writable : Xml → Prop
  | .elem ns name decls text kids => Identifier name ∧ Uri ns ∧ (decls.map (·.1)).Nodup ∧ (∀ d ∈ decls, Identifier d.1 ∧ Uri d.2) ∧
      (∀ s, text = some s → s ≠ [] ∧ s.all xmlChar = true) ∧ (kids ≠ [] → text = none ∧ decls = []) ∧ WritableAll kids
def WritableAll : List Xml → Prop
  | [] => True
  | x :: xs => Writable x ∧ WritableAll xs
end

mutual
/-- The document without the declarations of prefixes for the default namespace around
their element. -/
def asWritten (inh : Str) : Xml → Xml
  | .elem ns name decls text kids => .elem ns name (decls.filter fun d => d.2 ≠ inh) text (asWrittenAll ns kids)
def asWrittenAll (inh : Str) : List Xml → List Xml
  | [] => []
  | x :: xs => asWritten inh x :: asWrittenAll inh xs
end

mutual
/-- The names of a schema can be written as XML: those of the nodes, and those of the
modules of identities. -/
def XmlNames (nsOf : Str → Str) (m : Meta) : Schema → Prop
  | .leaf L => Identifier m.name ∧ Uri m.ns ∧ ∀ v y i, (L.ser v).idents.lookup y = some i → Identifier i ∧ Uri (nsOf i)
  | .leafList _ => Identifier m.name ∧ Uri m.ns
  | .cont _ kids => Identifier m.name ∧ Uri m.ns ∧ XmlNamesAll nsOf kids
  | .list _ kids => Identifier m.name ∧ Uri m.ns ∧ XmlNamesAll nsOf kids
def XmlNamesAll (nsOf : Str → Str) : List (Meta × Schema) → Prop
  | [] => True
  | k :: ks => XmlNames nsOf k.1 k.2 ∧ XmlNamesAll nsOf ks
end

end Spec
