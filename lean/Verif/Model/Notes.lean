import Verif.Model.Ietf

/-! # Metadata annotations in IETF JSON (RFC 7952)

`check_metadata_add` and the members named `@` in `load_ietf_json`
(pyangbind/lib/serialise.py:711-716, 755-763, 781, 836, 875), `_add_metadata`
(pyangbind/lib/yangtypes.py:1049, 1135-1136).

`Model/Ietf.lean` leaves annotations out; here is the loader with them.  Which objects have
which annotations is told by a list of events: an annotation is added to the object at a
path, or the objects at and below a path are replaced by new ones, which have none. -/

namespace Pyb
open Py

inductive NoteEv where
  | note (p : Path) (name : Str) (v : J)
  | gone (p : Path)

/-- The event seen from the object above. -/
def NoteEv.under (s : Step) : NoteEv → NoteEv
  | .note p n v => .note (s :: p) n v
  | .gone p => .gone (s :: p)

/-- The result of loading with annotations. -/
structure NOut where
  out : Out
  evs : List NoteEv

def NOut.same (n : Inst) : NOut := ⟨Out.same n, []⟩

def NOut.andThen (o : NOut) (f : Inst → NOut) : NOut :=
  match o.out.err with
  | some _ => o
  | none => ⟨o.out.andThen fun n => (f n).out, o.evs ++ (f o.out.inst).evs⟩

/-- `for k, v in x.items(): obj._add_metadata(k, v)`, pyangbind/lib/serialise.py:715-716,
757-758: only a dict has `items`, and the object `loads` makes has no `_add_metadata`
(`wrapped`, see `holdPut`). -/
def addNotes (wrapped : Bool) (n : Inst) : J → NOut
  | .obj ms => if wrapped || ms.isEmpty then ⟨Out.same n, ms.map fun m => .note [] m.1 m.2⟩ else ⟨fail n .attributeError, []⟩
  | _ => ⟨fail n .attributeError, []⟩

/-- `check_metadata_add`, pyangbind/lib/serialise.py:711-716; `all` are the members of the
object the child is in. -/
def checkNotes (all : List (Str × J)) (key : Str) (n : Inst) : NOut :=
  match jget all ('@' :: key) with
  | some j => addNotes true n j
  | none => NOut.same n

/-- The children replaced by new objects because `_set` was called for another case: see
`clearKids`. -/
def goneKids (kids : List (Meta × Schema)) (sigs : List (Option Choice)) : List NoteEv :=
  (List.range kids.length).filterMap fun j =>
    match kids[j]? with
    | some k => if sigs.any fun s => s.any fun c => competes c k.1.choice then some (.gone [.field j]) else none
    | none => none

/-- See `withKid`. -/
def withKidN (wrapped : Bool) (S : Schema) (own : Option Choice) (n : Inst) (name : Str) (unknown : Out)
    (f : Nat → Meta × Schema → Inst → NOut) : NOut :=
  match S with
  | .cont pres kids =>
    match kidIdx kids name with
    | none => ⟨unknown, []⟩
    | some i =>
      match kids[i]?, n with
      | some k, .cont ch pr ns =>
        match ns[i]? with
        | some c =>
          let o := f i k c
          ⟨holdPut wrapped pres own kids ch pr ns i o.out,
            o.evs.map (NoteEv.under (.field i)) ++ (if wrapped then goneKids kids o.out.sigs else [])⟩
        | none => ⟨fail n .attributeError, []⟩
      | _, _ => ⟨fail n .attributeError, []⟩
  | _ => ⟨unknown, []⟩

/-- See `withEntry`. -/
def withEntryN (n : Inst) (k : PyVal) (f : Inst → NOut) : NOut :=
  match n with
  | .list ch es =>
    match es.find? fun q => pyEq q.1 k with
    | some q =>
      let o := f q.2
      ⟨⟨.list ch (store es k o.out.inst), o.out.sigs, o.out.err⟩, o.evs.map (NoteEv.under (.key k))⟩
    | none => ⟨fail n .keyError, []⟩
  | n => ⟨fail n .attributeError, []⟩

/-- See `ietfStd`: a set leaf, leaf-list or list is a new object; then
pyangbind/lib/serialise.py:875. -/
def stdNotes (g : LoadOpt) (S : Schema) (own : Option Choice) (isKey : Bool) (all : List (Str × J)) (key : Str) (c : Inst) (j : J) : NOut :=
  let o := ietfStd g S own isKey c j
  NOut.andThen ⟨o, if o.err.isNone && !o.sigs.isEmpty then [.gone []] else []⟩ (checkNotes all key)

/-- See `ietfClear`. -/
def clearNotes (n : Inst) : NOut :=
  ⟨ietfClear n, match n with | .list _ (q :: _) => [.gone [.key q.1]] | _ => []⟩

mutual
/-- See `ietfMembers`; pyangbind/lib/serialise.py:755-763.  `all` are all the members of the
object. -/
def noteMembers (g : LoadOpt) (wrapped : Bool) (S : Schema) (keys : List Nat) (own : Option Choice) (all : List (Str × J)) :
    Inst → List (Str × J) → NOut
  | n, [] => NOut.same n
  | n, m :: ms =>
    let o := if m.1 = ['@'] then addNotes wrapped n m.2
      else if '@' ∈ m.1 then NOut.same n
      else withKidN wrapped S own n (localKey m.1) (ietfUnknown g.skip n m.2) fun i k c =>
        noteChild g k.2 k.1.choice (keys.contains i) all m.1 c m.2
    o.andThen fun n => noteMembers g wrapped S keys own all n ms
/-- See `ietfChild`. -/
def noteChild (g : LoadOpt) (S : Schema) (own : Option Choice) (isKey : Bool) (all : List (Str × J)) (key : Str) (c : Inst) : J → NOut
  | .obj ms => (NOut.andThen ⟨markPresent S own c, []⟩ (checkNotes all key)).andThen fun c => noteMembers g true S [] own ms c ms
  | .arr xs =>
    match S with
    | .list info kids => noteElems g info kids all key c xs
    | S => if xs.isEmpty then NOut.same c else stdNotes g S own isKey all key c (.arr xs)
  | j => stdNotes g S own isKey all key c j
/-- See `ietfElems`; pyangbind/lib/serialise.py:836. -/
def noteElems (g : LoadOpt) (info : ListInfo) (kids : List (Meta × Schema)) (all : List (Str × J)) (key : Str) : Inst → List J → NOut
  | n, [] => NOut.same n
  | n, x :: xs =>
    let o := (if g.over then clearNotes n else NOut.same n).andThen fun n =>
      match n with
      | .list ch es =>
        let e := ietfEntry g info kids ch es x
        NOut.andThen ⟨e.1, []⟩ fun n => withEntryN n e.2 fun c =>
          (noteElem g kids info.keys c x).andThen (checkNotes all key)
      | n => ⟨fail n .attributeError, []⟩
    o.andThen fun n => noteElems g info kids all key n xs
/-- See `ietfElem`. -/
def noteElem (g : LoadOpt) (kids : List (Meta × Schema)) (keys : List Nat) (c : Inst) : J → NOut
  | .obj ms => noteMembers g true (.cont false kids) keys none ms c ms
  | _ => ⟨fail c .typeError, []⟩
end

/-- `loads_ietf` with annotations. -/
def noteLoad (g : LoadOpt) (kids : List (Meta × Schema)) (ns : List Inst) : J → (List Inst × Option Err) × List NoteEv
  | .obj ms =>
    let o := noteMembers g false (.cont false kids) [] none ms (.cont false false ns) ms
    ((o.out.inst.kids, o.out.err), o.evs)
  | _ => ((ns, some .attributeError), [])

/-- Two names of the same object: keys of lists are compared with `==`. -/
def Step.same : Step → Step → Bool
  | .field i, .field j => i == j
  | .key k, .key l => pyEq k l
  | _, _ => false

def samePath : Path → Path → Bool
  | [], [] => true
  | s :: p, t :: q => s.same t && samePath p q
  | _, _ => false

/-- The first path leads to the object the second one leads to, or to one above it. -/
def atOrAbove : Path → Path → Bool
  | [], _ => true
  | s :: p, t :: q => s.same t && atOrAbove p q
  | _ :: _, [] => false

/-- The annotation of that name of the object at `p`: `_metadata[name]`.  `old` is what it
was. -/
def noteAt (p : Path) (name : Str) (old : Option J) : List NoteEv → Option J
  | [] => old
  | .note q n v :: es => noteAt p name (if samePath q p && n == name then some v else old) es
  | .gone q :: es => noteAt p name (if atOrAbove q p then none else old) es

end Pyb
