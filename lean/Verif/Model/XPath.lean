import Verif.Py.Dict

/-! # The path helper

`YANGPathHelper`, pyangbind/lib/xpathhelper.py, and the paths lists give it. -/

namespace Pyb
open Py

/-! ## Text -/

/-- The loop of `_path_parts`, pyangbind/lib/xpathhelper.py:124-149: `buf`, `in_qstr` and
`in_attr` are its variables. -/
def pathPartsGo (buf : Str) (q a : Bool) : Str → List Str
  | [] => [buf]
  | c :: cs =>
    if c = '/' ∧ q = false ∧ a = false then buf :: pathPartsGo [] q a cs
    else if c = '"' ∧ q = true then pathPartsGo (buf ++ [c]) false a cs
    else if c = '"' then pathPartsGo (buf ++ [c]) true a cs
    else if c = '[' then pathPartsGo (buf ++ [c]) q true cs
    else if c = ']' then pathPartsGo (buf ++ [c]) q false cs
    else pathPartsGo (buf ++ [c]) q a cs

/-- `_path_parts`. -/
def pathParts (s : Str) : List Str := pathPartsGo [] false false s

/-- `s.split("||")` (Python built-in). -/
def splitBars : Str → List Str
  | [] => [[]]
  | [c] => [[c]]
  | c :: d :: cs =>
    if c = '|' ∧ d = '|' then [] :: splitBars cs
    else match splitBars (d :: cs) with
      | [] => [[c]]
      | p :: ps => (c :: p) :: ps

/-- The rest of `_attr_re` from the first `[` on, pyangbind/lib/xpathhelper.py:108:
`(\[[^\]]+\])+$`.  The number is 0 between groups, 1 after `[`, 2 further inside.  What
is returned is the text of `args`; `$` also matches before a line feed at the end. -/
def attrTail : Nat → Str → Option Str
  | 0, [] => some []
  | 0, c :: cs =>
    if c = '[' then (attrTail 1 cs).map (c :: ·)
    else if c = '\n' ∧ cs = [] then some []
    else none
  | 1, c :: cs => if c = ']' then none else (attrTail 2 cs).map (c :: ·)
  | _ + 2, c :: cs => if c = ']' then (attrTail 0 cs).map (c :: ·) else (attrTail 2 cs).map (c :: ·)
  | _ + 1, [] => none

/-- `_attr_re`, pyangbind/lib/xpathhelper.py:108: `tagname`, `args` and what is left over. -/
def attrRe (tag : Str) : Option (Str × Str × Str) :=
  if tag.takeWhile (· ≠ '[') = [] ∨ tag.dropWhile (· ≠ '[') = [] then none
  else (attrTail 0 (tag.dropWhile (· ≠ '['))).map fun args =>
    (tag.takeWhile (· ≠ '['), args, (tag.dropWhile (· ≠ '[')).drop args.length)

/-- The characters of `cmd`: `[a-zA-Z0-9\-\_:]`. -/
def cmdChar (c : Char) : Bool :=
  (97 ≤ c.toNat && c.toNat ≤ 122) || (65 ≤ c.toNat && c.toNat ≤ 90) || isDigit c || c = '-' || c = '_' || c = ':'

/-- The characters of `arg`: `[^ ^'^\"]`. -/
def argChar (c : Char) : Bool := c ≠ ' ' && c ≠ '^' && c ≠ '\'' && c ≠ '"'

def isQuote (c : Char) : Bool := c = '\'' || c = '"'

/-- An optional character. -/
def dropOne (p : Char → Bool) : Str → Str
  | [] => []
  | c :: cs => if p c then cs else c :: cs

/-- `_arg_re` from `arg` on, pyangbind/lib/xpathhelper.py:111-112. -/
def argValue (s : Str) : Option (Str × Str) :=
  if s.takeWhile argChar = [] then none
  else some (s.takeWhile argChar, (dropOne isQuote (s.dropWhile argChar)).dropWhile (· = ' '))

/-- `_arg_re` after `and`, `or`, pyangbind/lib/xpathhelper.py:110-112: `cmd`, `arg`, and the
rest of the text (`remainder` and, after a line feed, what the pattern does not reach). -/
def argCore (s : Str) : Option (Str × Str × Str) :=
  if (dropOne (· = '@') s).takeWhile cmdChar = [] then none
  else
    match ((dropOne (· = '@') s).dropWhile cmdChar).dropWhile (· = ' ') with
    | '=' :: cs =>
      (argValue (dropOne isQuote (cs.dropWhile (· = ' ')))).map fun r => ((dropOne (· = '@') s).takeWhile cmdChar, r.1, r.2)
    | _ => none

/-- `_arg_re`, pyangbind/lib/xpathhelper.py:109-113.  The group `and `, `or ` is tried first. -/
def argRe (s : Str) : Option (Str × Str × Str) :=
  if startsWith s py!"and " then (argCore (s.drop 4)).or (argCore s)
  else if startsWith s py!"or " then (argCore (s.drop 3)).or (argCore s)
  else argCore s

/-- The name without its prefix, pyangbind/lib/xpathhelper.py:169-170, 214-215. -/
def localName (c : Str) : Str := if ':' ∈ c then (splitOn ':' c).getD 1 [] else c

/-- The inner loop of `_tagname_attributes`, pyangbind/lib/xpathhelper.py:210-223.  Each turn
takes away at least one character, so that the number of turns (one more than there are
characters) is not reached. -/
def argLoop : Nat → Dict Str → Str → Except Err (Dict Str)
  | _, d, [] => .ok d
  | 0, _, _ :: _ => .error .runtimeError
  | f + 1, d, s =>
    match argRe s with
    | none => .error .xpathError
    | some m =>
      match splitBars (m.1 ++ py!"||" ++ m.2.1 ++ py!"||" ++ m.2.2) with
      | [c, a, r] => argLoop f (d.set (localName c) a) r
      | _ => .error .valueError

/-- The loop over `arg_parts`, pyangbind/lib/xpathhelper.py:208. -/
def argParts : Dict Str → List Str → Except Err (Dict Str)
  | d, [] => .ok d
  | d, p :: ps =>
    match argLoop (p.length + 1) d p with
    | .error e => .error e
    | .ok d => argParts d ps

/-- `s.strip("[")`. -/
def stripBracket (s : Str) : Str := rstripBy (· = '[') (lstripBy (· = '[') s)

/-- `_tagname_attributes`, pyangbind/lib/xpathhelper.py:202-224. -/
def tagAttrs (tag : Str) : Except Err (Str × Option (Dict Str)) :=
  match attrRe tag with
  | none => .ok (tag, none)
  | some m =>
    match splitBars (m.1 ++ py!"||" ++ m.2.1 ++ m.2.2) with
    | [t, args] => (argParts [] ((splitOn ']' args).map stripBracket)).map fun d => (t, some d)
    | _ => .error .valueError

/-- `_relative_path_re.match`. -/
def isRelative (s : Str) : Bool := startsWith s py!"."

/-- `"@%s='%s' and "` for each attribute, pyangbind/lib/xpathhelper.py:190-192 (`mode` is
always `search`). -/
def attrText : Dict Str → Str
  | [] => []
  | p :: ps => '@' :: p.1 ++ py!"='" ++ p.2 ++ py!"' and " ++ attrText ps

/-- One turn of the loop of `_encode_path`, pyangbind/lib/xpathhelper.py:168-198, for the
attributes with `current()` replaced. -/
def encodeStep (epath tag : Str) : Option (Dict Str) → Str
  | none => epath ++ localName tag ++ ['/']
  | some attrs =>
    rstripBy (· = ' ') (rstripBy (fun c => c = 'a' || c = 'n' || c = 'd' || c = ' ') (epath ++ localName tag ++ '[' :: attrText attrs)) ++ py!"]/"

/-- Does the text have `current()` in it? -/
def hasCurrent : Str → Bool
  | [] => false
  | c :: cs => startsWith (c :: cs) py!"current()" || hasCurrent cs

/-- `regex.sub("current\(\)(?P<remaining>.*)", r"\g<remaining>", v)`: the first `current()`
goes (a text with line feeds is not considered). -/
def dropCurrent : Str → Str
  | [] => []
  | c :: cs => if startsWith (c :: cs) py!"current()" then (c :: cs).drop 9 else c :: dropCurrent cs

/-- The path asked for in place of `current()`, pyangbind/lib/xpathhelper.py:177-183; the
caller `False` cannot be sliced or added to. -/
def currentPath (caller : Option (List Str)) (v : Str) : Except Err (List Str) :=
  match splitOn '/' (dropCurrent v) with
  | _ :: p :: ps =>
    match caller with
    | none => .error .typeError
    | some c => .ok (if p = py!".." then c.dropLast ++ ps else c ++ p :: ps)
  | _ => .error .indexError

/-- The attributes with `current()` replaced, pyangbind/lib/xpathhelper.py:174-190.  `look` is
`self.get`, giving the texts of the objects. -/
def resolveAttrs (look : List Str → Except Err (List Str)) (caller : Option (List Str)) : Dict Str → Except Err (Dict Str)
  | [] => .ok []
  | p :: ps =>
    if hasCurrent p.2 then
      match currentPath caller p.2 with
      | .error e => .error e
      | .ok l =>
        match look l with
        | .error e => .error e
        | .ok [v] => (resolveAttrs look caller ps).map ((p.1, v) :: ·)
        | .ok _ => .error .xpathError
    else (resolveAttrs look caller ps).map (p :: ·)

/-- The loop of `_encode_path`. -/
def encodeGo (look : List Str → Except Err (List Str)) (caller : Option (List Str)) (epath : Str) : List Str → Except Err Str
  | [] => .ok epath
  | p :: ps =>
    match tagAttrs p with
    | .error e => .error e
    | .ok (tag, none) => encodeGo look caller (encodeStep epath tag none) ps
    | .ok (tag, some attrs) =>
      match resolveAttrs look caller attrs with
      | .error e => .error e
      | .ok attrs => encodeGo look caller (encodeStep epath tag (some attrs)) ps

/-- `_encode_path`, pyangbind/lib/xpathhelper.py:151-200, with the defaults `mode="search"`,
`find_parent=False`, which are the only ones used. -/
def encodePath (look : List Str → Except Err (List Str)) (caller : Option (List Str)) (parts : List Str) : Except Err Str :=
  match parts with
  | [] => .ok py!"/"
  | p :: ps =>
    (encodeGo look caller (if isRelative p then [] else py!"/") (if p = [] then ps else p :: ps)).map (rstripBy (· = '/'))

/-! ## The XPath expressions that are made -/

/-- A step: `..`, `.`, or a child with attributes. -/
inductive XStep where
  | parent
  | self
  | child (tag : Str) (attrs : List (Str × Str))
  deriving DecidableEq

/-- Split at `/` outside of `'...'`. -/
def splitSteps (q : Bool) : Str → List Str
  | [] => [[]]
  | c :: cs =>
    if c = '/' ∧ q = false then [] :: splitSteps q cs
    else match splitSteps (if c = '\'' then !q else q) cs with
      | [] => [[c]]
      | p :: ps => (c :: p) :: ps

/-- `@k='v' and @l='w'...]`, the number bounds the attributes. -/
def parseAttrs : Nat → Str → Option (List (Str × Str))
  | 0, _ => none
  | f + 1, s =>
    match s with
    | '@' :: s =>
      match s.dropWhile (· ≠ '=') with
      | '=' :: '\'' :: r =>
        match r.dropWhile (· ≠ '\'') with
        | ['\'', ']'] => some [(s.takeWhile (· ≠ '='), r.takeWhile (· ≠ '\''))]
        | '\'' :: r' =>
          if startsWith r' py!" and " then
            (parseAttrs f (r'.drop 5)).map ((s.takeWhile (· ≠ '='), r.takeWhile (· ≠ '\'')) :: ·)
          else none
        | _ => none
      | _ => none
    | _ => none

/-- A letter, digit, `-`, `_` or `.`, but none of the last or a digit first: the names
of YANG, and in ASCII those XML allows for tags and attributes. -/
def nameChar (c : Char) : Bool := (cmdChar c && c ≠ ':') || c = '.'

def validName : Str → Bool
  | [] => false
  | c :: cs => (nameChar c && !isDigit c && c ≠ '-' && c ≠ '.') && cs.all nameChar

def parseStep (s : Str) : Option XStep :=
  if s = py!".." then some .parent
  else if s = py!"." then some .self
  else
    if validName (s.takeWhile (· ≠ '[')) then
      match s.dropWhile (· ≠ '[') with
      | [] => some (.child s [])
      | _ :: r => (parseAttrs (r.length + 1) r).map (.child (s.takeWhile (· ≠ '[')))
    else none

def parseStepList : List Str → Option (List XStep)
  | [] => some []
  | s :: ss =>
    match parseStep s with
    | none => none
    | some x => (parseStepList ss).map (x :: ·)

/-- How lxml reads the expressions that are made: steps along `child`, `parent` and
`self`, with attribute comparisons.  Other expressions (the descendant axis `//`, names
such as `*`, functions, numbers) are not modelled and count as invalid here. -/
def parseXPath (s : Str) : Option (List XStep) := parseStepList (splitSteps false s)

/-! ## The tree and the library -/

/-- What is registered: the object's identity, and `str()` of it. -/
structure XObj where
  ref : Nat
  text : Str
  deriving DecidableEq

/-- An element of the lxml tree. -/
structure XElem where
  id : Nat
  parent : Option Nat
  tag : Str
  attrs : Dict Str
  deriving DecidableEq

/-- The helper: the tree as a list of elements in the order they were made, and
`_library`.  An element whose parent is no longer in the list is one of a subtree that
was cut off.  `next` makes up new identifiers: `uuid.uuid1()` is taken to never give the
same one twice, nor `"root"`.  The `FakeRoot` object is not modelled beyond its place in
the library. -/
structure Helper where
  elems : List XElem
  lib : Dict XObj
  next : Nat
  deriving DecidableEq

def uuidStr (n : Nat) : Str := 'u' :: natStr n

def rootElem : XElem := { id := 0, parent := none, tag := py!"root", attrs := [(py!"obj_ptr", py!"root")] }

/-- `YANGPathHelper()`, pyangbind/lib/xpathhelper.py:116-122. -/
def Helper.new : Helper := { elems := [rootElem], lib := [(py!"root", ⟨0, []⟩)], next := 1 }

/-- `.get("obj_ptr")`. -/
def XElem.ptr (e : XElem) : Str := (e.attrs.get? py!"obj_ptr").getD []

/-- Does the element fit the step?  (XPath 1.0, 2.4 and 3.4) -/
def fits (e : XElem) (tag : Str) (attrs : List (Str × Str)) : Bool :=
  e.tag = tag && attrs.all fun a => e.attrs.get? a.1 = some a.2

/-- One step, from a set of nodes to the next (XPath 1.0, 2.1).  The nodes of a set are all
at the same depth, so that parents come in document order as well. -/
def evalStep (es : List XElem) (ns : List XElem) : XStep → List XElem
  | .self => ns
  | .parent => (ns.filterMap fun n => es.find? fun e => n.parent = some e.id).eraseDups
  | .child tag attrs => ns.flatMap fun n => es.filter fun e => e.parent = some n.id && fits e tag attrs

/-- `self._root.xpath(q)`.  The expression `/` gives no elements. -/
def Helper.xpath (h : Helper) (q : Str) : Except Err (List XElem) :=
  if q = py!"/" then .ok []
  else match parseXPath q with
    | none => .error .xpathError
    | some steps => .ok (steps.foldl (evalStep h.elems) (h.elems.take 1))

/-- `_get_etree`, pyangbind/lib/xpathhelper.py:295-305.  A caller that is `[]` is as `False`. -/
def Helper.getEtree (h : Helper) (look : List Str → Except Err (List Str)) (path : List Str) (caller : Option (List Str)) :
    Except Err (List XElem) :=
  match encodePath look caller path with
  | .error e => .error e
  | .ok fx =>
    if isRelative fx ∧ caller.getD [] ≠ [] then
      match encodePath look none (caller.getD []) with
      | .error e => .error e
      | .ok cx => h.xpath ('.' :: cx ++ '/' :: fx)
    else if fx = py!"/" then h.xpath fx
    else h.xpath ('.' :: fx)

/-- The objects of the elements, `_library[...]`. -/
def libObjs (lib : Dict XObj) : List XElem → Except Err (List XObj)
  | [] => .ok []
  | e :: es =>
    match lib.get? e.ptr with
    | none => .error .keyError
    | some o => (libObjs lib es).map (o :: ·)

/-- `get` without a caller, as used for `current()`: there `current()` cannot be used
again, see `currentPath`. -/
def Helper.getPlain (h : Helper) (path : List Str) : Except Err (List XObj) :=
  match h.getEtree (fun _ => .ok []) path none with
  | .error e => .error e
  | .ok es => libObjs h.lib es

def Helper.look (h : Helper) (path : List Str) : Except Err (List Str) := (h.getPlain path).map (List.map XObj.text)

/-- `get` for a path given as parts, pyangbind/lib/xpathhelper.py:307-311. -/
def Helper.get (h : Helper) (path : List Str) (caller : Option (List Str)) : Except Err (List XObj) :=
  match h.getEtree h.look path caller with
  | .error e => .error e
  | .ok es => libObjs h.lib es

/-- `get` for a text. -/
def Helper.getStr (h : Helper) (path : Str) (caller : Option (List Str)) : Except Err (List XObj) := h.get (pathParts path) caller

/-- `get_unique`, pyangbind/lib/xpathhelper.py:313-319; the exception raised is the caller's
choice, here `runtimeError`. -/
def Helper.getUnique (h : Helper) (path : List Str) (caller : Option (List Str)) : Except Err XObj :=
  match h.get path caller with
  | .error e => .error e
  | .ok [] => .error .runtimeError
  | .ok [o] => .ok o
  | .ok _ => .error .runtimeError

/-- `.set(k, v)` for one attribute: lxml refuses names and values that XML does not allow. -/
def xmlChar (c : Char) : Bool :=
  (32 ≤ c.toNat && c.toNat ≠ 0xFFFE && c.toNat ≠ 0xFFFF) || c = '\t' || c = '\n' || c = '\r'

/-- The loop that sets attributes, pyangbind/lib/xpathhelper.py:276-278, on the new element:
the attributes set, and whether all went well. -/
def setAttrs (d : Dict Str) : Dict Str → Dict Str × Except Err Unit
  | [] => (d, .ok ())
  | p :: ps => if validName p.1 && p.2.all xmlChar then setAttrs (d.set p.1 p.2) ps else (d, .error .valueError)

/-- `etree.SubElement` and the attributes, pyangbind/lib/xpathhelper.py:275-278. -/
def Helper.addElem (h : Helper) (par : XElem) (tag : Str) (attrs : Option (Dict Str)) (uuid : Str) : Helper × Except Err Unit :=
  if validName tag then
    ({ h with elems := h.elems ++ [{ id := h.next, parent := some par.id, tag := tag,
                                     attrs := (setAttrs [(py!"obj_ptr", uuid)] (attrs.getD [])).1 }], next := h.next + 1 },
     (setAttrs [(py!"obj_ptr", uuid)] (attrs.getD [])).2)
  else (h, .error .valueError)

/-- `del d[k]`. -/
def dictDel {α : Type} (d : Dict α) (k : Str) : Dict α := d.filter fun p => p.1 ≠ k

/-- A new object at a path where there is one, pyangbind/lib/xpathhelper.py:246-254. -/
def Helper.replace (h : Helper) (eqv : XObj → XObj → Bool) (e : XElem) (o : XObj) : Helper × Except Err Unit :=
  match h.lib.get? e.ptr with
  | none => (h, .error .keyError)
  | some old =>
    if eqv old o then (h, .ok ())
    else
      ({ elems := h.elems.map fun x => if x.id = e.id then { x with attrs := x.attrs.set py!"obj_ptr" (uuidStr h.next) } else x,
         lib := (dictDel h.lib e.ptr).set (uuidStr h.next) o, next := h.next + 1 }, .ok ())

/-- The parent of a new element, pyangbind/lib/xpathhelper.py:261-273.  With several parents
the making of the message is itself an error. -/
def Helper.parentOf (h : Helper) (path : List Str) : Except Err XElem :=
  if path.length = 1 then
    match h.elems with
    | [] => .error .runtimeError
    | r :: _ => .ok r
  else match h.getEtree h.look path.dropLast none with
    | .error e => .error e
    | .ok [] => .error .xpathError
    | .ok [e] => .ok e
    | .ok _ => .error .typeError

/-- A new element, pyangbind/lib/xpathhelper.py:256-278. -/
def Helper.create (h : Helper) (path : List Str) (o : XObj) : Helper × Except Err Unit :=
  let h := { h with lib := h.lib.set (uuidStr h.next) o, next := h.next + 1 }
  match tagAttrs (path.getLastD []) with
  | .error e => (h, .error e)
  | .ok (tag, attrs) =>
    match h.parentOf path with
    | .error e => (h, .error e)
    | .ok par => h.addElem par tag attrs (uuidStr (h.next - 1))

/-- `register`, pyangbind/lib/xpathhelper.py:226-278.  `eqv` is Python's `==` on the objects
registered.  What is noted at `FakeRoot` for paths of length one is not modelled. -/
def Helper.register (eqv : XObj → XObj → Bool) (h : Helper) (path : List Str) (o : XObj) : Helper × Except Err Unit :=
  match path with
  | [] => (h, .error .indexError)
  | p :: _ =>
    if startsWith p py!".." then (h, .error .xpathError)
    else match h.getEtree h.look path none with
      | .error e => (h, .error e)
      | .ok [] => h.create path o
      | .ok [e] => h.replace eqv e o
      | .ok _ => (h, .error .xpathError)

/-- The loop of `unregister`, pyangbind/lib/xpathhelper.py:290-293.  The root has no parent to
be removed from. -/
def removeElems (h : Helper) : List XElem → Helper × Except Err Unit
  | [] => (h, .ok ())
  | e :: es =>
    if (h.lib.get? e.ptr).isNone then (h, .error .keyError)
    else if e.parent = none then ({ h with lib := dictDel h.lib e.ptr }, .error .attributeError)
    else removeElems { h with lib := dictDel h.lib e.ptr, elems := h.elems.filter fun x => x.id ≠ e.id } es

/-- `unregister`, pyangbind/lib/xpathhelper.py:280-293. -/
def Helper.unregister (h : Helper) (path : List Str) : Helper × Except Err Unit :=
  match path with
  | [] => (h, .error .indexError)
  | p :: _ =>
    if startsWith p py!"." || startsWith p py!"/" then (h, .error .xpathError)
    else match h.getEtree h.look path none with
      | .error e => (h, .error e)
      | .ok [] => (h, .error .xpathError)
      | .ok es => removeElems h es

/-! ## The paths of list entries -/

/-- `"%s='%s' "` for each key, pyangbind/lib/yangtypes.py:678-680. -/
def keyText : List (Str × Str) → Str
  | [] => []
  | p :: ps => p.1 ++ py!"='" ++ p.2 ++ py!"' " ++ keyText ps

/-- `path_keystring`, pyangbind/lib/yangtypes.py:675-682: the names and texts of the keys.  (The
text made at 672 for a single key is made again here.) -/
def keyString (ks : List (Str × Str)) : Str := '[' :: (keyText ks).dropLast ++ [']']

/-- `"%s=%s "` for each key, pyangbind/lib/yangtypes.py:826-828. -/
def keyTextDel : List (Str × Str) → Str
  | [] => []
  | p :: ps => p.1 ++ '=' :: p.2 ++ ' ' :: keyTextDel ps

/-- `key_string` in `delete`, pyangbind/lib/yangtypes.py:822-835. -/
def keyStringDel (ks : List (Str × Str)) : Str :=
  match ks with
  | [p] => py!"[@" ++ p.1 ++ '=' :: p.2 ++ [']']
  | _ => '[' :: rstripBy (· = ' ') (keyTextDel ks) ++ [']']

end Pyb

/-! ## Data paths -/

namespace Spec
open Py Pyb

/-- A step of a data path: the node's name and, for a list entry, its keys. -/
structure PStep where
  tag : Str
  keys : List (Str × Str)
  deriving DecidableEq

/-- The text given to the helper for a step: the name, and the keys as lists write them. -/
def PStep.text (s : PStep) : Str := if s.keys = [] then s.tag else s.tag ++ keyString s.keys

/-- What is done to a helper. -/
inductive RegOp where
  | register (p : List PStep) (o : XObj)
  | unregister (p : List PStep)

def RegOp.path : RegOp → List PStep
  | .register p _ => p
  | .unregister p => p

end Spec
