import Verif.Props.Dumps

/-! # Lists anywhere in a tree (C68) -/

namespace Pyb
open Py Spec

/-- C68: in any history of operations on a module's tree, the entries of each list at any
depth have different keys. -/
theorem C68_distinct_keys (kids : List (Meta × Schema)) (ops : List (Path × Op)) (p : Path) (info : ListInfo) (lk : List (Meta × Schema))
    (ch : Bool) (es : List (PyVal × Inst)) (hS : clsAt kids p = some (.list info lk))
    (hn : objAt (history kids (freshKids kids) ops) p = some (.list ch es)) :
    (es.map Prod.fst).Pairwise fun a b => pyEq a b = false := by
  have ho := history_at hS hn
  cases ho with
  | list _ _ _ _ _ h => exact h

theorem find_own {es : List (PyVal × Inst)} (h : (es.map Prod.fst).Pairwise fun a b => pyEq a b = false) {q : PyVal × Inst} (hq : q ∈ es) :
    es.find? (fun x => pyEq x.1 q.1) = some q := by
  induction es with
  | nil => simp at hq
  | cons x es ih =>
    simp only [List.map_cons, List.pairwise_cons] at h
    rcases List.mem_cons.1 hq with rfl | hq
    · simp [pyEq_refl]
    · rw [List.find?_cons, h.1 q.1 (List.mem_map.2 ⟨q, hq, rfl⟩)]
      exact ih h.2 hq

/-- So each entry is the one found under its key. -/
theorem C68_found (kids : List (Meta × Schema)) (ops : List (Path × Op)) (p : Path) (info : ListInfo) (lk : List (Meta × Schema))
    (ch : Bool) (es : List (PyVal × Inst)) (hS : clsAt kids p = some (.list info lk))
    (hn : objAt (history kids (freshKids kids) ops) p = some (.list ch es)) (q : PyVal × Inst) (hq : q ∈ es) :
    objAt (history kids (freshKids kids) ops) (p ++ [.key q.1]) = some q.2 := by
  have hf := find_own (C68_distinct_keys kids ops p info lk ch es hS hn) hq
  have : ∀ (p : Path) (n m : Inst), nodeAt n p = some m → nodeAt n (p ++ [.key q.1]) = nodeAt m [.key q.1] := by
    intro p
    induction p with
    | nil => intro n m h; simp at h; subst h; rfl
    | cons s p ih =>
      intro n m h
      cases n with
      | leaf v c => simp [nodeAt_leaf] at h
      | leafList v c => simp [nodeAt_leafList] at h
      | cont c pr ns =>
        cases s with
        | key k => simp [nodeAt_cont_key] at h
        | field i =>
          rw [List.cons_append, nodeAt_cont]
          rw [nodeAt_cont] at h
          cases hc : ns[i]? with
          | none => simp [hc] at h
          | some c => simp only [hc, Option.bind_some] at h ⊢; exact ih c m h
      | list c es =>
        cases s with
        | field k => simp [nodeAt_list_field] at h
        | key k =>
          simp only [List.cons_append, nodeAt] at h ⊢
          cases hc : es.find? fun x => pyEq x.1 k with
          | none => simp [hc] at h
          | some c => simp only [hc] at h ⊢; exact ih c.2 m h
  unfold objAt at hn ⊢
  rw [this p _ _ hn]
  simp [nodeAt, hf]

/-- The list of Props/Dumps after adding the same key twice. -/
def twiceOps : List (Path × Op) := selOps ++ [([.field 0], .add (.str py!"x")), ([.field 0], .add (.str py!"z"))]

example : objAt (history selKids (freshKids selKids) twiceOps) ([.field 0] ++ [.key (.str py!"x")]) = some (selEntry py!"x" 1).2 :=
  C68_found selKids twiceOps [.field 0] { keys := [0] } selL false
    [selEntry py!"x" 1, selEntry py!"y" 2, (.str py!"z", .cont true false [.leaf (.str py!"z") true, .cont false false [.leaf (.int 0) false]])]
    rfl rfl (selEntry py!"x" 1) (by simp)

end Pyb
