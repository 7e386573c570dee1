import Verif.Model.Scalar

/-! # Leaf-lists: `TypedListType`

pyangbind/lib/yangtypes.py:400-514, with the methods of `abc.MutableSequence` it
inherits and the wrappers of `YANGBaseClass` (1145-1181), whose effect on the
surrounding tree is modelled in `Verif.Model.Tree`. -/

namespace Pyb
open Py

/-- One turn of the loop of `check` (pyangbind/lib/yangtypes.py:436-473) for one
allowed type: `some` converted value, or `none` if the loop goes on (for `bits` it always
does: none of the branches is for the name `YANGBits`).  The values
considered are never instances of the generated classes, so `isinstance(v, i)`
holds only for the built-in `str` and `int`. -/
def elemCheck (rx : Str → Str → Bool) : LeafTy → PyVal → Option PyVal
  | .restr (.base .str), .str s => some (.str s)
  | .restr (.base .str), _ => none
  | .restr (.base .int), .int n => some (.int n)
  | .restr (.base .int), .bool b => some (.bool b)
  | .ext (.bits _), _ => none
  | t, v => (t.call rx v).toOption

/-- The loop of `check` over the allowed types. -/
def elemConv (rx : Str → Str → Bool) (ts : List LeafTy) (v : PyVal) : Option PyVal :=
  ts.findSome? fun t => elemCheck rx t v

/-- `check`, pyangbind/lib/yangtypes.py:429-477.  `conv` is the loop over the
allowed types, `uniq` the attribute `_unique`, `xs` the attribute `_list`. -/
def tlCheck (conv : PyVal → Option PyVal) (uniq : Bool) (xs : List PyVal) (v : PyVal) :
    Except Err PyVal :=
  if uniq && pyIn v xs then .error .valueError
  else match conv v with
    | some w => .ok w
    | none => .error .valueError

/-- The argument of an assignment: a Python `list`, or any other object. -/
inductive LLArg where
  | seq (vs : List PyVal)
  | one (v : PyVal)

/-- The loop of `__init__`, pyangbind/lib/yangtypes.py:420-423; `tmp` is the list
built so far, and `self._list` is still empty. -/
def tlInitLoop (conv : PyVal → Option PyVal) (uniq : Bool) :
    List PyVal → List PyVal → Except Err (List PyVal)
  | tmp, [] => .ok tmp
  | tmp, v :: vs =>
    if !uniq || !pyIn v tmp then
      match tlCheck conv uniq [] v with
      | .ok w => tlInitLoop conv uniq (tmp ++ [w]) vs
      | .error e => .error e
    else tlInitLoop conv uniq tmp vs

/-- `__init__` with an argument, pyangbind/lib/yangtypes.py:414-427. -/
def tlInit (conv : PyVal → Option PyVal) (uniq : Bool) : LLArg → Except Err (List PyVal)
  | .seq vs => tlInitLoop conv uniq [] vs
  | .one v => (tlCheck conv uniq [] v).map fun w => [w]

/-- `list.insert(i, v)` (Python built-in): negative indices count from the end,
out-of-range ones are clamped. -/
def pyInsert (xs : List PyVal) (i : Int) (v : PyVal) : List PyVal :=
  let j := if i < 0 then (i + xs.length).toNat else i.toNat
  xs.take j ++ v :: xs.drop j

/-- The position an index denotes (Python built-in). -/
def pyIndex (n : Nat) (i : Int) : Except Err Nat :=
  let j := if i < 0 then i + n else i
  if 0 ≤ j ∧ j < n then .ok j.toNat else .error .indexError

/-- `del xs[i]`. -/
def pyDel (xs : List PyVal) (i : Int) : Except Err (List PyVal) :=
  (pyIndex xs.length i).map fun j => xs.eraseIdx j

/-- What users do to a leaf-list (slices excluded). -/
inductive LLOp where
  | assign (a : LLArg)
  | append (v : PyVal)
  | insert (i : Int) (v : PyVal)
  | setitem (i : Int) (v : PyVal)
  | delitem (i : Int)
  | pop (i : Int)
  | remove (v : PyVal)
  | extend (vs : List PyVal)
  | reverse
  | clear
  | iadd (vs : List PyVal)

/-- `append`, pyangbind/lib/yangtypes.py:495-498. -/
def tlAppend (conv : PyVal → Option PyVal) (uniq : Bool) (xs : List PyVal) (v : PyVal) :
    List PyVal × Option Err :=
  if !uniq || !pyIn v xs then
    match tlCheck conv uniq xs v with
    | .ok w => (xs ++ [w], none)
    | .error e => (xs, some e)
  else (xs, none)

/-- `insert`, pyangbind/lib/yangtypes.py:491-493. -/
def tlInsert (conv : PyVal → Option PyVal) (uniq : Bool) (xs : List PyVal) (i : Int) (v : PyVal) :
    List PyVal × Option Err :=
  match tlCheck conv uniq xs v with
  | .ok w => (pyInsert xs i w, none)
  | .error e => (xs, some e)

/-- `extend` of `abc.MutableSequence`: `for v in values: self.append(v)`. -/
def tlExtend (conv : PyVal → Option PyVal) (uniq : Bool) :
    List PyVal → List PyVal → List PyVal × Option Err
  | xs, [] => (xs, none)
  | xs, v :: vs =>
    match tlAppend conv uniq xs v with
    | (xs, none) => tlExtend conv uniq xs vs
    | r => r

/-- `reverse` of `abc.MutableSequence`: for `i` in `range(n // 2)`,
`self[i], self[n-i-1] = self[n-i-1], self[i]`; each of the two item assignments
is an `insert`.  The third number is how many turns are left. -/
def tlReverse (conv : PyVal → Option PyVal) (uniq : Bool) (n i : Nat) :
    Nat → List PyVal → List PyVal × Option Err
  | 0, xs => (xs, none)
  | k + 1, xs =>
    match xs[n - i - 1]?, xs[i]? with
    | some a, some b =>
      match tlInsert conv uniq xs i a with
      | (xs, some e) => (xs, some e)
      | (xs, none) =>
        match tlInsert conv uniq xs ((n - i - 1 : Nat) : Int) b with
        | (xs, some e) => (xs, some e)
        | (xs, none) => tlReverse conv uniq n (i + 1) k xs
    | _, _ => (xs, some .indexError)

/-- One operation: the new list and the exception raised, if any.  `show` is
`str()` of the list (only used when the leaf-list object itself is assigned).

* `assign`: the setter builds a new object, and stores it if that succeeds.
* `setitem`: pyangbind/lib/yangtypes.py:488-489 calls `insert`.
* `pop`, `remove`, `reverse`, `clear` are those of `abc.MutableSequence`.
* `iadd`: `c.x += vs` extends the object in place and then assigns the object
  itself (not a `list`) to the attribute. -/
def llStep (conv : PyVal → Option PyVal) (uniq : Bool) («show» : List PyVal → Str)
    (xs : List PyVal) : LLOp → List PyVal × Option Err
  | .assign a =>
    match tlInit conv uniq a with
    | .ok ys => (ys, none)
    | .error e => (xs, some e)
  | .append v => tlAppend conv uniq xs v
  | .insert i v => tlInsert conv uniq xs i v
  | .setitem i v => tlInsert conv uniq xs i v
  | .delitem i =>
    match pyDel xs i with
    | .ok ys => (ys, none)
    | .error e => (xs, some e)
  | .pop i =>
    match pyDel xs i with
    | .ok ys => (ys, none)
    | .error e => (xs, some e)
  | .remove v =>
    match xs.findIdx? fun x => pyEq x v with
    | some j => (xs.eraseIdx j, none)
    | none => (xs, some .valueError)
  | .extend vs => tlExtend conv uniq xs vs
  | .reverse =>
    tlReverse conv uniq xs.length 0 (xs.length / 2) xs
  | .clear => ([], none)
  | .iadd vs =>
    match tlExtend conv uniq xs vs with
    | (ys, some e) => (ys, some e)
    | (ys, none) =>
      match tlInit conv uniq (.one (.seq («show» ys) ys.length)) with
      | .ok zs => (zs, none)
      | .error e => (ys, some e)

/-- A history; exceptions are caught by the caller and the history goes on. -/
def llRun (conv : PyVal → Option PyVal) (uniq : Bool) («show» : List PyVal → Str) :
    List PyVal → List LLOp → List PyVal
  | xs, [] => xs
  | xs, op :: ops => llRun conv uniq «show» (llStep conv uniq «show» xs op).1 ops

end Pyb
