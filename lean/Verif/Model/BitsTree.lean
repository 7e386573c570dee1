import Verif.Model.Tree
import Verif.Model.Scalar

/-! # Bits leaves changed in place

The value of a leaf of type `bits` is a set, and its methods change it where it is, without
the generated setter. -/

namespace Pyb
open Py

/-- A call of a method of the value of a bits leaf.  `pop` takes out some bit: here the given
one.  `update` is the method of Python's `set`, which `YANGBits` does not replace. -/
inductive BitCall where
  | add (bit : Str)
  | discard (bit : Str)
  | clear
  | remove (bit : Str)
  | pop (bit : Str)
  | update (bits : List Str)

/-- A new value that was made by a method of `YANGBits`, which marks it as changed. -/
def bitsOut (allowed : List (Str × Str)) (sigs : List (Option Choice)) (old : Inst) : Except Err BitSet → Out
  | .ok s => ⟨.leaf (.obj (.bits (bitSort allowed s))) true, sigs, none⟩
  | .error e => ⟨old, sigs, some e⟩

/-- The call on the object of the leaf; `own` is its `_choice`, `helper`: there is a path
helper.

* `add`, `discard` and `clear` are those of `YANGBits`
  (pyangbind/lib/yangtypes.py:1417-1432): the leaf is marked, no `_set` is called
* `pop` and `remove` are those of the class around it, which call `_set` first (1155-1170);
  with a path helper `remove` then asks for the `index` of the bit, which sets do not have
* `update` does not check the bits and marks nothing. -/
def bitsCall (allowed : List (Str × Str)) (helper : Bool) (c : BitCall) (own : Option Choice) : Inst → Out
  | .leaf (.obj (.bits s)) ch =>
    match c with
    | .add b => bitsOut allowed [] (.leaf (.obj (.bits s)) ch) (bitStep allowed s (.add b))
    | .discard b => bitsOut allowed [] (.leaf (.obj (.bits s)) ch) (bitStep allowed s (.discard b))
    | .clear => bitsOut allowed [] (.leaf (.obj (.bits s)) ch) (bitStep allowed s .clear)
    | .remove b =>
      if helper then ⟨.leaf (.obj (.bits s)) true, [own], some .attributeError⟩
      else bitsOut allowed [own] (.leaf (.obj (.bits s)) true) (bitStep allowed s (.remove b))
    | .pop b => bitsOut allowed [own] (.leaf (.obj (.bits s)) true) (bitStep allowed s (.pop b))
    | .update bs => ⟨.leaf (.obj (.bits (bitSort allowed (s ++ (bs.filter fun b => !s.contains b).eraseDups)))) ch, [], none⟩
  | n => fail n .attributeError

/-- A method call `f` on the object at a path below `n`, reached through attributes and list
items (`obj.c.l["k"].flags.add("x")`): there is no setter in the way, and so no guard of key
leaves. -/
def through (f : Option Choice → Inst → Out) : Schema → Option Choice → Inst → Path → Out
  | _, own, n, [] => f own n
  | .cont pres kids, own, .cont ch pr ns, .field i :: p =>
    match kids[i]?, ns[i]? with
    | some k, some c => contPut pres own kids ch pr ns i (through f k.2 k.1.choice c p)
    | _, _ => fail (.cont ch pr ns) .attributeError
  | .list _ kids, _, .list ch es, .key k :: p =>
    if !hashable k then fail (.list ch es) .typeError
    else match es.find? fun q => pyEq q.1 k with
      | none => fail (.list ch es) .keyError
      | some q =>
        let o := through f (.cont false kids) none q.2 p
        ⟨.list ch (store es k o.inst), o.sigs, o.err⟩
  | _, _, n, _ :: _ => fail n .attributeError

/-- The call on a leaf of a whole binding. -/
def bitsRoot (kids : List (Meta × Schema)) (allowed : List (Str × Str)) (helper : Bool) (ns : List Inst) (p : Path) (c : BitCall) :
    List Inst × Option Err :=
  match p with
  | .field i :: p =>
    match kids[i]?, ns[i]? with
    | some k, some n =>
      let o := through (bitsCall allowed helper c) k.2 k.1.choice n p
      (ns.set i o.inst, o.err)
    | _, _ => (ns, some .attributeError)
  | _ => (ns, some .attributeError)

/-- `str` of a bits value, pyangbind/lib/yangtypes.py:1442-1445: looking up the position of an
undeclared bit raises `KeyError`. -/
def bitStr (allowed : List (Str × Str)) (s : List Str) : Except Err Str :=
  if s.all fun b => (allowed.map Prod.fst).contains b then .ok (bitText allowed s) else .error .keyError

end Pyb
