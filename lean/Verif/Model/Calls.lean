import Verif.Model.Native
import Verif.Model.Xml

/-! # The calls of the API a loader makes

`pybindJSONDecoder.load_ietf_json`, `load_json` and `pybindIETFXMLDecoder.load_xml`
(pyangbind/lib/serialise.py:472-876) change a binding only by calling the methods users
call: the generated setters, `add()`, `append()`, `remove()` and `_set_present()`.  Here
these calls are listed, in the order in which they are made, each with the path of the
object it is made on.  `Verif.Model.Ietf`, `Native` and `Xml` say what loading does to the
objects; what they say about a part of a document is used here only for the state the rest of
the document meets.

Loading with `overwrite` is left out, and so is what happens after an exception. -/

namespace Pyb
open Py

/-- A call: the path of the object and the operation. -/
abbrev ApiCall := Path × Op

/-- Calls on what is below a step. -/
def callsAt (s : Step) (cs : List ApiCall) : List ApiCall := cs.map fun c => (s :: c.1, c.2)

/-- Calls made after a step, unless it raised. -/
def thenCalls (o : Out) (cs : List ApiCall) : List ApiCall :=
  match o.err with
  | none => cs
  | some _ => []

/-- As `withKid`: `child = getattr(obj, "_get_...")`, pyangbind/lib/serialise.py:491-501, 597-603,
765-775. -/
def kidCalls (S : Schema) (n : Inst) (name : Str) (f : Nat → Meta × Schema → Inst → List ApiCall) : List ApiCall :=
  match S with
  | .cont _ kids =>
    match kidIdx kids name with
    | none => []
    | some i =>
      match kids[i]?, n with
      | some k, .cont _ _ ns =>
        match ns[i]? with
        | some c => callsAt (.field i) (f i k c)
        | none => []
      | _, _ => []
  | _ => []

/-- As `withEntry`: `chobj[key]`, pyangbind/lib/serialise.py:523-531, 651-660, 805-836. -/
def entryCalls (n : Inst) (k : PyVal) (f : Inst → List ApiCall) : List ApiCall :=
  match n with
  | .list _ es =>
    match es.find? fun q => pyEq q.1 k with
    | some q => callsAt (.key k) (f q.2)
    | none => []
  | _ => []

/-- As `jsonSet`: `set_method(val)`, pyangbind/lib/serialise.py:706-707, 870-875; `load` is its
`load` argument.  Setting a list makes a new one, whatever it is set to.  Setting a container
to something that is none raises. -/
def setCalls (repr : J → Str) (load : Bool) (S : Schema) (j : J) : List ApiCall :=
  match S with
  | .leaf _ => [([], .set (jPy repr j) load)]
  | .leafList _ => [([], .ll (.assign (jArg repr j)))]
  | .list _ _ => [([], .assign (.list false []))]
  | .cont _ _ => [([], .assign (.leaf .none false))]

/-- As `markPresent`: `_set_present()`, pyangbind/lib/serialise.py:504-506, 605-607, 777-779. -/
def markCalls (S : Schema) (n : Inst) : List ApiCall :=
  match S, n with
  | .cont true _, .cont _ _ _ => [([], .present true)]
  | _, _ => []

/-! ## IETF JSON -/

/-- As `ietfStd`, pyangbind/lib/serialise.py:843-875: key leaves, and `null`, are passed over. -/
def stdCalls (g : LoadOpt) (S : Schema) (isKey : Bool) (j : J) : List ApiCall :=
  if isKey then []
  else
    let yt := match S with | .leaf L => L.yangType | .leafList L => L.yangType | _ => []
    match ietfVal yt j with
    | .error _ => []
    | .ok .null => []
    | .ok j => setCalls g.repr false S j

/-- As `ietfEntry`, pyangbind/lib/serialise.py:805-825. -/
def ietfAddCalls (g : LoadOpt) (info : ListInfo) (kids : List (Meta × Schema)) (es : Members Inst) (elem : J) : List ApiCall :=
  match info.keys with
  | [] => [([], .addAnon (g.uuid (es.map Prod.fst)))]
  | _ :: rest =>
    match elem with
    | .obj ms =>
      match elemKeys (keyNames info kids) ms with
      | .error _ => []
      | .ok js =>
        let raws := js.map (jPy g.repr)
        if rest = [] then
          let k := raws.headD .none
          if !hashable k then []
          else if mem es k then [] else [([], .add k)]
        else
          let k := PyVal.str (rstripBy (· = ' ') ((raws.map fun r => r.toStr ++ [' ']).flatten))
          if mem es k then [] else [([], .addNamed (raws.map some))]
    | _ => []

mutual
/-- As `ietfMembers`, pyangbind/lib/serialise.py:748-763. -/
def ietfMembersCalls (g : LoadOpt) (wrapped : Bool) (S : Schema) (keys : List Nat) (own : Option Choice) :
    Inst → List (Str × J) → List ApiCall
  | _, [] => []
  | n, m :: ms =>
    if '@' ∈ m.1 then ietfMembersCalls g wrapped S keys own n ms
    else
      (kidCalls S n (localKey m.1) fun i k c => ietfChildCalls g k.2 k.1.choice (keys.contains i) c m.2) ++
      thenCalls (withKid wrapped S own n (localKey m.1) (ietfUnknown g.skip n m.2) fun i k c =>
          ietfChild g k.2 k.1.choice (keys.contains i) c m.2)
        (ietfMembersCalls g wrapped S keys own
          (withKid wrapped S own n (localKey m.1) (ietfUnknown g.skip n m.2) fun i k c =>
            ietfChild g k.2 k.1.choice (keys.contains i) c m.2).inst ms)
/-- As `ietfChild`, pyangbind/lib/serialise.py:765-875. -/
def ietfChildCalls (g : LoadOpt) (S : Schema) (own : Option Choice) (isKey : Bool) (c : Inst) : J → List ApiCall
  | .obj ms => markCalls S c ++ ietfMembersCalls g true S [] own (markPresent S own c).inst ms
  | .arr xs =>
    match S with
    | .list info kids => ietfElemsCalls g info kids c xs
    | S => if xs.isEmpty then [] else stdCalls g S isKey (.arr xs)
  | j => stdCalls g S isKey j
/-- As `ietfElems`, pyangbind/lib/serialise.py:793-836. -/
def ietfElemsCalls (g : LoadOpt) (info : ListInfo) (kids : List (Meta × Schema)) : Inst → List J → List ApiCall
  | _, [] => []
  | n, x :: xs =>
    match n with
    | .list ch es =>
      ietfAddCalls g info kids es x ++
      thenCalls (ietfEntry g info kids ch es x).1
        (entryCalls (ietfEntry g info kids ch es x).1.inst (ietfEntry g info kids ch es x).2 (fun c => ietfElemCalls g kids info.keys c x)) ++
      thenCalls ((ietfEntry g info kids ch es x).1.andThen fun n => withEntry n (ietfEntry g info kids ch es x).2
          fun c => ietfElem g kids info.keys c x)
        (ietfElemsCalls g info kids ((ietfEntry g info kids ch es x).1.andThen fun n => withEntry n (ietfEntry g info kids ch es x).2
          fun c => ietfElem g kids info.keys c x).inst xs)
    | _ => []
/-- As `ietfElem`. -/
def ietfElemCalls (g : LoadOpt) (kids : List (Meta × Schema)) (keys : List Nat) (c : Inst) : J → List ApiCall
  | .obj ms => ietfMembersCalls g true (.cont false kids) keys none c ms
  | _ => []
end

/-- The calls of `loads_ietf(d, ..., obj)`. -/
def ietfCalls (g : LoadOpt) (kids : List (Meta × Schema)) (ns : List Inst) : J → List ApiCall
  | .obj ms => ietfMembersCalls g false (.cont false kids) [] none (.cont false false ns) ms
  | _ => []

/-! ## XML -/

/-- As `xmlAppend`, pyangbind/lib/serialise.py:533-546: after a `ValueError` the text is
appended. -/
def appendCalls (infer : Str → PyVal) (L : LLCls) (own : Option Choice) (xs : List PyVal) (ch : Bool) (t : Option Str) : List ApiCall :=
  ([], .ll (.append (pyval infer t))) ::
    (if (llApply L own xs ch (.append (pyval infer t))).err = some .valueError ∧ L.plainStr then
      [([], .ll (.append (.str (pyval infer t).toStr)))] else [])

/-- As `xmlSet`, pyangbind/lib/serialise.py:548-568. -/
def xmlSetCalls (L : LeafCls) (isKey : Bool) (t : Option Str) : List ApiCall :=
  if isKey then []
  else if L.yangType = py!"empty" then
    match t with
    | none => [([], .set (.bool true) false)]
    | some _ => []
  else if L.yangType = py!"identityref" then
    match t with
    | none => []
    | some s => [([], .set (.str (if ':' ∈ s then (s.dropWhile (· ≠ ':')).tail else s)) false)]
  else
    match t with
    | none => []
    | some s => [([], .set (.str s) false)]

/-- As `xmlEntry`, pyangbind/lib/serialise.py:512-526. -/
def xmlAddCalls (infer : Str → PyVal) (info : ListInfo) (kids : List (Meta × Schema)) (es : Members Inst)
    (ns : Str) (xs : List Xml) : List ApiCall :=
  if info.keys = [] then []
  else match xmlKeys infer ns (keyNames info kids) xs with
  | .error _ => []
  | .ok raws => if mem es (namedKey raws) then [] else [([], .addNamed (raws.map some))]

mutual
/-- As `xmlMembers`, pyangbind/lib/serialise.py:491-501. -/
def xmlMembersCalls (infer : Str → PyVal) (wrapped : Bool) (S : Schema) (keys : List Nat) (own : Option Choice) :
    Inst → List Xml → List ApiCall
  | _, [] => []
  | n, x :: xs =>
    (kidCalls S n x.name fun i k c => xmlChildCalls infer k.2 k.1.choice (keys.contains i) c x) ++
    thenCalls (withKid wrapped S own n x.name (fail n .attributeError) fun i k c =>
        xmlChild infer k.2 k.1.choice (keys.contains i) c x)
      (xmlMembersCalls infer wrapped S keys own
        (withKid wrapped S own n x.name (fail n .attributeError) fun i k c =>
          xmlChild infer k.2 k.1.choice (keys.contains i) c x).inst xs)
/-- As `xmlChild`, pyangbind/lib/serialise.py:503-568. -/
def xmlChildCalls (infer : Str → PyVal) (S : Schema) (own : Option Choice) (isKey : Bool) (c : Inst) : Xml → List ApiCall
  | .elem ns _ _ t xs =>
    match S, c with
    | .cont pres kids, c => markCalls (.cont pres kids) c ++
        xmlMembersCalls infer true (.cont pres kids) [] own (markPresent (.cont pres kids) own c).inst xs
    | .list info kids, .list ch es =>
      xmlAddCalls infer info kids es ns xs ++
      thenCalls (xmlEntry infer info kids ch es ns xs).1
        (entryCalls (xmlEntry infer info kids ch es ns xs).1.inst (xmlEntry infer info kids ch es ns xs).2 fun c =>
          xmlMembersCalls infer true (.cont false kids) info.keys none c xs)
    | .leafList L, .leafList vs ch => if xs.isEmpty then appendCalls infer L own vs ch t else []
    | .leaf L, _ => xmlSetCalls L isKey t
    | _, _ => []
end

/-- The calls of `load_xml(doc, ..., obj)`. -/
def xmlCalls (infer : Str → PyVal) (kids : List (Meta × Schema)) (ns : List Inst) (doc : Xml) : List ApiCall :=
  xmlMembersCalls infer false (.cont false kids) [] none (.cont false false ns) doc.kids

/-! ## Native JSON -/

/-- As `nativeEntry`, pyangbind/lib/serialise.py:649-651. -/
def nativeAddCalls (uuid : List PyVal → Str) (info : ListInfo) (k : Str) : Inst → List ApiCall
  | .list _ es =>
    if mem es (.str k) then []
    else if info.keys = [] then [([], .addAnon (uuid (es.map Prod.fst)))]
    else [([], .add (.str k))]
  | _ => []

/-- As `nativeLoop`, pyangbind/lib/serialise.py:648-660: each key comes with what loading its
entry does and the calls it makes. -/
def nativeLoopCalls (uuid : List PyVal → Str) (info : ListInfo) (kids : List (Meta × Schema)) :
    List (Str × (Inst → Out) × (Inst → List ApiCall)) → Inst → List ApiCall
  | [], _ => []
  | x :: xs, n =>
    nativeAddCalls uuid info x.1 n ++
      thenCalls (nativeEntry uuid info kids x.1 n) (entryCalls (nativeEntry uuid info kids x.1 n).inst (.str x.1) x.2.2) ++
      thenCalls ((nativeEntry uuid info kids x.1 n).andThen fun n => withEntry n (.str x.1) x.2.1)
        (nativeLoopCalls uuid info kids xs ((nativeEntry uuid info kids x.1 n).andThen fun n => withEntry n (.str x.1) x.2.1).inst)

/-- As `mergeAdd`, pyangbind/lib/serialise.py:669-671. -/
def mergeAddCalls (L : LLCls) (own : Option Choice) : List PyVal → Inst → List ApiCall
  | [], _ => []
  | v :: vs, .leafList xs ch =>
    if pyIn v xs then mergeAddCalls L own vs (.leafList xs ch)
    else ([], .ll (.append v)) :: thenCalls (llApply L own xs ch (.append v)) (mergeAddCalls L own vs (llApply L own xs ch (.append v)).inst)
  | _, _ => []

/-- As `mergeDrop`, pyangbind/lib/serialise.py:675-677. -/
def mergeDropCalls (L : LLCls) (own : Option Choice) (items : List PyVal) : List PyVal → Inst → List ApiCall
  | [], _ => []
  | e :: es, .leafList xs ch =>
    if pyIn e items then mergeDropCalls L own items es (.leafList xs ch)
    else ([], .ll (.remove e)) :: thenCalls (llApply L own xs ch (.remove e)) (mergeDropCalls L own items es (llApply L own xs ch (.remove e)).inst)
  | _, _ => []

/-- As `nativeMerge`, pyangbind/lib/serialise.py:667-678. -/
def mergeCalls (L : LLCls) (own : Option Choice) (repr : J → Str) (n : Inst) : J → List ApiCall
  | .arr items =>
    mergeAddCalls L own (items.map (jPy repr)) n ++
    thenCalls (mergeAdd L own (items.map (jPy repr)) n)
      (match (mergeAdd L own (items.map (jPy repr)) n).inst with
      | .leafList xs ch => mergeDropCalls L own (items.map (jPy repr)) xs (.leafList xs ch)
      | _ => [])
  | _ => []

mutual
/-- As `nativeMembers`, pyangbind/lib/serialise.py:597-708. -/
def nativeMembersCalls (g : LoadOpt) (wrapped ordered : Bool) (S : Schema) (own : Option Choice) : Inst → List (Str × J) → List ApiCall
  | _, [] => []
  | n, m :: ms =>
    if ordered && m.1 == yangOrder then nativeMembersCalls g wrapped ordered S own n ms
    else
      (kidCalls S n m.1 fun _ k c => nativeChildCalls g k.2 k.1.choice c m.2) ++
      thenCalls (withKid wrapped S own n m.1 (nativeUnknown g.skip n) fun _ k c => nativeChild g false k.2 k.1.choice c m.2)
        (nativeMembersCalls g wrapped ordered S own
          (withKid wrapped S own n m.1 (nativeUnknown g.skip n) fun _ k c => nativeChild g false k.2 k.1.choice c m.2).inst ms)
/-- As `nativeChild`, pyangbind/lib/serialise.py:603-707. -/
def nativeChildCalls (g : LoadOpt) (S : Schema) (own : Option Choice) (c : Inst) : J → List ApiCall
  | .obj ms =>
    match S with
    | .cont pres kids => markCalls S c ++ nativeMembersCalls g true false (.cont pres kids) own (markPresent S own c).inst ms
    | .list info kids =>
      nativeLoopCalls g.uuid info kids (keyOrder info.ordered (nativeFnsCalls g info.ordered kids ms)) c ++
        thenCalls (nativeLoop g.uuid info kids (keyOrder info.ordered (nativeFns g info.ordered kids ms)) c)
          (if ms.isEmpty then setCalls g.repr true S (.obj ms) else [])
    | .leafList L => mergeCalls L own g.repr c (.obj ms)
    | S => setCalls g.repr true S (.obj ms)
  | j =>
    match S with
    | .cont _ _ => markCalls S c ++ setCalls g.repr true S j
    | .list _ _ => []
    | .leafList L => mergeCalls L own g.repr c j
    | S => setCalls g.repr true S j
/-- As `nativeFns`, with the calls. -/
def nativeFnsCalls (g : LoadOpt) (ordered : Bool) (kids : List (Meta × Schema)) :
    List (Str × J) → List (Option Int × Str × (Inst → Out) × (Inst → List ApiCall))
  | [] => []
  | m :: ms =>
    (orderOf m.2, m.1, (fun c => nativeElem g ordered kids c m.2), fun c => nativeElemCalls g ordered kids c m.2) ::
      nativeFnsCalls g ordered kids ms
/-- As `nativeElem`. -/
def nativeElemCalls (g : LoadOpt) (ordered : Bool) (kids : List (Meta × Schema)) (c : Inst) : J → List ApiCall
  | .obj ms => nativeMembersCalls g true ordered (.cont false kids) none c ms
  | _ => []
end

/-- The calls of `loads(d, ..., obj)`. -/
def nativeCalls (g : LoadOpt) (kids : List (Meta × Schema)) (ns : List Inst) : J → List ApiCall
  | .obj ms => nativeMembersCalls g false false (.cont false kids) none (.cont false false ns) ms
  | _ => []

end Pyb
