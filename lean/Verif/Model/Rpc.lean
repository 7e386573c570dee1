import Verif.Model.Reg

/-! # Rpcs and notifications, and the path helper

With `--build-rpcs` and `--build-notifications` classes are made for rpcs, their input and output,
and for notifications, with `register_paths=False` (pyangbind/plugin/pybind.py:415-437, 995), which
keeps their objects from registering (pyangbind/lib/yangtypes.py:1072-1079).  `YANGList` however
makes its entries without that argument (pyangbind/lib/yangtypes.py:684-708), which is `True` by
default (942), and unregisters what it deletes (822-842).

`input` and `output` are containers here; the object may be that of the rpc, or of a class that was
imported by itself.  Its path is that of the class: `/<module>_rpc/<rpc>` and so on
(pyangbind/plugin/pybind.py:420-422, 1087-1097).  Deleting entries of lists without key, which raises
`TypeError`, is in `Verif.Model.RegAnon`. -/

namespace Pyb
open Py
open Spec (PStep RegOp)

/-- Is the call made although `register_paths` is `False`?  The path of an entry ends in its keys. -/
def entryCall : RegOp → Bool
  | .register p _ => (p.getLast?.map fun s => !s.keys.isEmpty).getD false
  | .unregister _ => true

/-- The calls of the helper an operation makes, as `rootCalls`. -/
def rpcCalls (loc : List PStep) (kids : List (Meta × Schema)) (ns : List Inst) (p : Path) (op : Op) : List RegOp :=
  match p with
  | .field i :: p =>
    match kids[i]?, ns[i]? with
    | some k, some c => (callsOf (runEvs loc k.1.name k.2 k.1.choice c p op)).filter entryCall
    | _, _ => []
  | _ => []

/-- The object after a call of the helper raised: an entry registers before it is put into the list
and before its keys are set (pyangbind/lib/yangtypes.py:684-720); what is deleted is gone by then
(838-841). -/
def rpcFailed (kids : List (Meta × Schema)) (ns : List Inst) (p : Path) (op : Op) : List Inst :=
  match op with
  | .delete _ => (runRoot kids ns p op).1
  | _ => ns

/-- An operation on an object of an rpc or notification at `loc`, with a helper: the helper, the
object and the exception, if any. -/
def rpcRun (eqv : XObj → XObj → Bool) (loc : List PStep) (kids : List (Meta × Schema)) (h : Helper) (ns : List Inst) (p : Path) (op : Op) :
    Helper × List Inst × Option Err :=
  match rpcCalls loc kids ns p op with
  | [] => (h, runRoot kids ns p op)
  | c :: cs =>
    match (doCall eqv h c).2 with
    | .error e => ((doCall eqv h c).1, rpcFailed kids ns p op, some e)
    | .ok _ => (cs.foldl (fun h c => (doCall eqv h c).1) (doCall eqv h c).1, runRoot kids ns p op)

/-- A history, as `history`. -/
def rpcHistory (eqv : XObj → XObj → Bool) (loc : List PStep) (kids : List (Meta × Schema)) : Helper × List Inst → List (Path × Op) → Helper × List Inst
  | s, [] => s
  | s, (p, op) :: ops => rpcHistory eqv loc kids ((rpcRun eqv loc kids s.1 s.2 p op).1, (rpcRun eqv loc kids s.1 s.2 p op).2.1) ops

end Pyb
