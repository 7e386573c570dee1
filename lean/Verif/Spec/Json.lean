import Verif.Model.Ietf
import Verif.Spec.Get

/-! # Specification vocabulary for serialisation

`SameData` compares trees; the other definitions are the conditions under which a tree
can be written and read back. -/

namespace Spec
open Py Pyb

mutual
/-- The same set data: the same leaves are set, with the same values; leaf-lists have the
same values in the same order; lists have entries with the same data in the same order;
the same presence containers are present. -/
def SameData : Schema → Inst → Inst → Prop
  | .leaf _, .leaf v c, .leaf w d => c = d ∧ (c = true → v = w)
  | .leafList _, .leafList vs _, .leafList ws _ => vs = ws
  | .cont pres kids, .cont _ p ns, .cont _ q ms => (pres = true → p = q) ∧ SameKids kids ns ms
  | .list _ kids, .list _ es, .list _ fs => es.length = fs.length ∧
      ∀ (i : Nat) x y, es[i]? = some x → fs[i]? = some y → SameKids kids x.2.kids y.2.kids
  | _, _, _ => False
/-- The same data in corresponding children. -/
def SameKids : List (Meta × Schema) → List Inst → List Inst → Prop
  | [], [], [] => True
  | k :: ks, n :: ns, m :: ms => SameData k.2 n m ∧ SameKids ks ns ms
  | _, _, _ => False
end

mutual
/-- `F` holds of every object of the tree; it is given what the class of the object was
told (`Meta`) and the class. -/
def Every (F : Meta → Schema → Inst → Prop) (m : Meta) : Schema → Inst → Prop
  | .cont pres kids, .cont ch pr ns => F m (.cont pres kids) (.cont ch pr ns) ∧ EveryKids F kids ns
  | .list info kids, .list ch es => F m (.list info kids) (.list ch es) ∧ ∀ q ∈ es, EveryKids F kids q.2.kids
  | S, n => F m S n
def EveryKids (F : Meta → Schema → Inst → Prop) : List (Meta × Schema) → List Inst → Prop
  | [], [] => True
  | k :: ks, n :: ns => Every F k.1 k.2 n ∧ EveryKids F ks ns
  | _, _ => False
end

/-- Siblings: their names are YANG identifiers (no `:` or `@`), and their attributes have
different names. -/
def GoodNames (kids : List (Meta × Schema)) : Prop :=
  (∀ k ∈ kids, ':' ∉ k.1.name ∧ '@' ∉ k.1.name ∧ '@' ∉ k.1.module_) ∧
  (kids.map fun k => safeName k.1.name).Nodup

/-- At most one case of a choice holds data. -/
def OneCase (kids : List (Meta × Schema)) (ns : List Inst) : Prop :=
  ∀ (i j : Nat) a b x y, kids[i]? = some a → kids[j]? = some b → ns[i]? = some x → ns[j]? = some y →
    Rivals a.1 b.1 → ¬ (HasData x ∧ HasData y)

/-- Nothing was ever done below the object: no leaf or leaf-list is changed, no list has
an entry, no container is present. -/
def Untouched (n : Inst) : Prop :=
  ∀ m, Within m n → match m with
    | .leaf _ ch => ch = false
    | .leafList vs ch => vs = [] ∧ ch = false
    | .cont _ pr _ => pr = false
    | .list _ es => es = []

/-- A leaf value is written as `j`, and reading it gives the value again. -/
def LeafBack (repr : J → Str) (mod : Str) (L : LeafCls) (v : PyVal) : Prop :=
  ∃ j j', serLeaf true mod L v = .ok j ∧ j ≠ .arr [] ∧ (∀ ms, j ≠ .obj ms) ∧ ietfVal L.yangType j = .ok j' ∧
    j' ≠ .null ∧ L.set (jPy repr j') = .ok v

/-- The same for the values of a leaf-list, which are assigned as a whole. -/
def LeafListBack (repr : J → Str) (mod : Str) (L : LLCls) (vs : List PyVal) : Prop :=
  ∃ xs, vs.mapM (serElem true mod L) = .ok xs ∧ ietfVal L.yangType (.arr xs) = .ok (.arr xs) ∧
    tlInit L.conv L.uniq (.seq (xs.map (jPy repr))) = .ok vs

/-- What is read for the key leaf at position `i` of an entry. -/
def keyRaw (repr : J → Str) (kids : List (Meta × Schema)) (ns : List Inst) (i : Nat) : PyVal :=
  match kids[i]?, ns[i]? with
  | some (m, .leaf L), some (.leaf v _) =>
    match serLeaf true m.module_ L v with
    | .ok j => jPy repr j
    | .error _ => .none
  | _, _ => .none

/-- A key leaf: it is set, in the namespace of the list, and what is read for it sets the
same value. -/
def KeyBack (repr : J → Str) (ns : Str) (kids : List (Meta × Schema)) (e : List Inst) (i : Nat) : Prop :=
  ∃ m L v, kids[i]? = some (m, .leaf L) ∧ e[i]? = some (.leaf v true) ∧ m.ns = ns ∧
    L.set (keyRaw repr kids e i) = .ok v

/-- The texts of the key values, joined with spaces. -/
def keyText (raws : List PyVal) : Str := join py!" " (raws.map PyVal.toStr)

/-- The entries of a list can be told apart by what is read for their keys.  A list with
one key: it is not empty.  With several: the values are joined with spaces, so the last one
must not be empty or end with a space. -/
def GoodKeys (repr : J → Str) (ns : Str) (info : ListInfo) (kids : List (Meta × Schema)) (es : List (PyVal × Inst)) : Prop :=
  info.keys.Nodup ∧
  (∀ q ∈ es, ∀ i ∈ info.keys, KeyBack repr ns kids q.2.kids i) ∧
  (∀ i, info.keys = [i] → (∀ q ∈ es, keyRaw repr kids q.2.kids i ≠ .none ∧ keyRaw repr kids q.2.kids i ≠ .str [] ∧
      hashable (keyRaw repr kids q.2.kids i) = true) ∧
    es.Pairwise fun a b => pyEq (keyRaw repr kids a.2.kids i) (keyRaw repr kids b.2.kids i) = false) ∧
  (2 ≤ info.keys.length →
    (∀ q ∈ es, ∃ s c, ((info.keys.map (keyRaw repr kids q.2.kids)).map PyVal.toStr).getLastD [] = s ++ [c] ∧ c ≠ ' ') ∧
    es.Pairwise fun a b => keyText (info.keys.map (keyRaw repr kids a.2.kids)) ≠
      keyText (info.keys.map (keyRaw repr kids b.2.kids)))

/-- The conditions on the objects of a tree for the IETF round trip. -/
def IetfReady (repr : J → Str) (m : Meta) : Schema → Inst → Prop
  | .leaf L, .leaf v ch => ch = true → LeafBack repr m.module_ L v
  | .leafList L, .leafList vs ch => vs ≠ [] → ch = true ∧ LeafListBack repr m.module_ L vs
  | .cont pres kids, .cont _ pr ns => OneCase kids ns ∧ GoodNames kids ∧
      (pres = true → pr = false → ∀ n ∈ ns, Untouched n)
  | .list info kids, .list _ es => GoodNames kids ∧ (∀ q ∈ es, OneCase kids q.2.kids) ∧
      GoodKeys repr m.ns info kids es
  | _, _ => False

/-- `uuid.uuid1()` never returns the same value twice. -/
def FreshUuid (uuid : List PyVal → Str) : Prop := ∀ ks, ∀ k ∈ ks, pyEq k (.str (uuid ks)) = false

/-- The operations considered in histories: all but `_set_present(present=False)` and
adding entries to lists without key. -/
def Plain (op : Op) : Prop := op ≠ .present false ∧ ∀ u, op ≠ .addAnon u

end Spec
