import Verif.Lemmas.Written
import Verif.Props.Dumps

/-! # C47, C48: the trees are those of the documents -/

namespace Pyb
open Py Spec

/-- The document of `dumps(obj, mode="ietf")` is the encoding of the tree that
`skip_subtrees` and `select` work on (C47, C48). -/
theorem C47_written_ietf (o : DumpOpt) (kids : List (Meta × Schema)) (ns : List Inst) (j : J) (h : ietfDump o kids ns = .ok j) :
    ∃ ms, j = .obj ms ∧ WrittenItems true none kids (ietfItems o none kids ns) ms := by
  rw [ietfDump] at h
  cases hk : ietfKids o none kids ns with
  | error e => rw [hk] at h; cases h
  | ok ms =>
    rw [hk] at h
    cases h
    exact ⟨ms, rfl, (ietf_items (fun k _ => ietf_written k.2 k.1) hk).1⟩

/-- The same for native JSON, whose tree is that of `get(filter=True)`. -/
theorem C47_written_native (kids : List (Meta × Schema)) (ns : List Inst) (j : J) (h : nativeDump kids ns = .ok j) :
    ∃ items ms, treeOf (getRoot true kids ns) = .dict items ∧ j = .obj ms ∧ WrittenItems false none kids items ms := by
  rw [nativeDump] at h
  cases hk : nativeKids kids ns with
  | error e => rw [hk] at h; cases h
  | ok ms =>
    rw [hk] at h
    cases h
    exact ⟨_, ms, rfl, rfl, (native_items (fun k _ => native_written k.2 k.1) hk).1⟩

/-- The documents of the example. -/
example : ∃ j, ietfDump {} owKids owTree = .ok j := ⟨_, rfl⟩
example : ∃ j, nativeDump owKids owTree = .ok j := ⟨_, rfl⟩

/-- C48: in IETF mode `select` on a container removes nothing. -/
theorem C48_ietf_container_refuted (P : PyOps) (opath : List Str) (items : List (PyVal × PTree)) (sel : List (Str × Str)) (t : PTree)
    (h : dumpTree P true opath (.dict items) [] sel = .ok t) : t = .dict items := by
  simp only [dumpTree, skipAll, Except.bind] at h
  split at h
  · cases h; rfl
  · simp only [selectTree] at h
    cases hd : dropKeys P.repr sel items with
    | error e => rw [hd] at h; cases h
    | ok ks => rw [hd] at h; cases h; rfl

/-- Here `select` is false of `c` and of nothing else, but `c` is written. -/
example : dumpTree pyOps true [] (.dict [(.str py!"m:c", .dict [(.str py!"a", .leaf (.int 2))])]) [] [(py!"a", py!"3")] =
    .ok (.dict [(.str py!"m:c", .dict [(.str py!"a", .leaf (.int 2))])]) ∧
    dumpTree pyOps false [] (.dict [(.str py!"c", .dict [(.str py!"a", .leaf (.int 2))])]) [] [(py!"a", py!"3")] = .ok (.dict []) := ⟨by rfl, by rfl⟩

end Pyb
