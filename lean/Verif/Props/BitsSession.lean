import Verif.Lemmas.BitsSession
import Verif.Props.BitsTree

/-! # C102: sessions in which bits leaves are changed in place -/

namespace Pyb
open Py Spec

/-- C102: after any session on a new binding (assignments and other operations, documents loaded,
and `add`, `discard`, `clear`, `remove` and `pop` called on bits leaves, with any arguments, the
exceptions caught), every bits leaf has a value of its type: different declared bits, in the order of
their positions.  Missing: `update`, which is `set`'s own, see `C102_update_refuted`. -/
theorem C102_session_partial (rx : Str → Str → Bool) (kids : List (Meta × Schema)) (helper : Bool) (acts : List BitAct)
    (ha : ∀ p allowed c, BitAct.call p allowed c ∈ acts → BitsAt rx kids p allowed ∧ ∀ bs, c ≠ .update bs)
    (q : Path) (allowed : List (Str × Str)) (hq : BitsAt rx kids q allowed) (m : Inst)
    (hm : objAt (bitSession kids helper (freshKids kids) acts) q = some m) :
    ∃ s ch, m = .leaf (.obj (.bits s)) ch ∧ ExtValue (.bits allowed) (.bits s) := by
  have h := bitSession_obj (helper := helper) acts ha (rootObj_fresh (bitsInv_stable rx) kids)
  obtain ⟨hd, name, d, hT⟩ := hq
  cases q with
  | nil => simp [clsAt] at hT
  | cons st q =>
    cases st with
    | key k => simp [clsAt, schemaAt] at hT
    | field i =>
      rw [clsAt_field] at hT
      obtain ⟨k, hk, hT⟩ := Option.bind_eq_some_iff.1 hT
      rw [objAt_field] at hm
      obtain ⟨n, hn, hm⟩ := Option.bind_eq_some_iff.1 hm
      cases obj_at (h.2 i k n hk hn) hT hm with
      | leaf _ v ch hv =>
        obtain ⟨s, rfl, hs⟩ := hv name allowed d rfl hd
        exact ⟨s, ch, rfl, hs⟩

/-- C102: with `C102_in_place_partial`, at any time of such a session: the call has the effect on the
set of bits that it should have, whatever was done before. -/
theorem C102_then_partial (rx : Str → Str → Bool) (kids : List (Meta × Schema)) (helper : Bool) (acts : List BitAct)
    (ha : ∀ p allowed c, BitAct.call p allowed c ∈ acts → BitsAt rx kids p allowed ∧ ∀ bs, c ≠ .update bs)
    (p : Path) (allowed : List (Str × Str)) (hp : BitsAt rx kids p allowed) (c : BitCall) (hc : OwnMethod allowed c)
    (hk : ∀ k, Step.key k ∈ p → hashable k = true)
    (m : Inst) (hm : objAt (bitSession kids helper (freshKids kids) acts) p = some m) :
    ∃ s s' ch, m = .leaf (.obj (.bits s)) ch ∧ (∀ b, b ∈ s' ↔ After s c b) ∧
      objAt (bitSession kids helper (freshKids kids) (acts ++ [.call p allowed c])) p = some (.leaf (.obj (.bits s')) true) := by
  obtain ⟨s, ch, rfl, hs⟩ := C102_session_partial rx kids helper acts ha p allowed hp m hm
  obtain ⟨hd, name, d, hT⟩ := hp
  obtain ⟨ns', s', h1, h2, _, h4, _⟩ := C102_in_place_partial rx kids _ p name allowed d s ch helper c hd hT hm hs hk hc
  refine ⟨s, s', ch, rfl, h4, ?_⟩
  simp only [bitSession, List.foldl_append, List.foldl_cons, List.foldl_nil, bitAct]
  simp only [bitSession] at h1
  rw [h1]; exact h2

theorem abc_at : BitsAt noRx bitKids [.field 0, .field 2] abc := ⟨abc_decl, py!"flags", none, rfl⟩

/-- Two assignments of which one fails, and three calls of which one fails. -/
def abcActs : List BitAct :=
  [.act (.api [.field 0, .field 2] (.set (.str py!"c") false)), .call [.field 0, .field 2] abc (.add py!"a"),
   .act (.api [.field 0, .field 2] (.set (.str py!"z") false)), .call [.field 0, .field 2] abc (.remove py!"z"),
   .call [.field 0, .field 2] abc (.add py!"b")]

theorem abcActs_ok : ∀ p allowed c, BitAct.call p allowed c ∈ abcActs → BitsAt noRx bitKids p allowed ∧ ∀ bs, c ≠ .update bs := by
  intro p al c h
  simp only [abcActs, List.mem_cons, BitAct.call.injEq, reduceCtorEq, List.not_mem_nil, or_false, false_or] at h
  rcases h with ⟨rfl, rfl, rfl⟩ | ⟨rfl, rfl, rfl⟩ | ⟨rfl, rfl, rfl⟩ <;> exact ⟨abc_at, by simp⟩

/-- The session. -/
example : objAt (bitSession bitKids false (freshKids bitKids) abcActs) [.field 0, .field 2] =
      some (.leaf (.obj (.bits [py!"a", py!"b", py!"c"])) true) ∧
    ExtValue (.bits abc) (.bits [py!"a", py!"b", py!"c"]) := by
  have e : objAt (bitSession bitKids false (freshKids bitKids) abcActs) [.field 0, .field 2] =
    some (.leaf (.obj (.bits [py!"a", py!"b", py!"c"])) true) := rfl
  obtain ⟨s, ch, h1, h2⟩ := C102_session_partial noRx bitKids false abcActs abcActs_ok [.field 0, .field 2] abc abc_at _ e
  cases h1
  exact ⟨e, h2⟩

/-- One more call. -/
example : ∃ s', (∀ b, b ∈ s' ↔ b ∈ [py!"a", py!"b", py!"c"] ∧ b ≠ py!"c") ∧
    objAt (bitSession bitKids false (freshKids bitKids) (abcActs ++ [.call [.field 0, .field 2] abc (.discard py!"c")])) [.field 0, .field 2] =
      some (.leaf (.obj (.bits s')) true) := by
  obtain ⟨s, s', ch, h1, h2, h3⟩ := C102_then_partial noRx bitKids false abcActs abcActs_ok [.field 0, .field 2] abc abc_at (.discard py!"c")
    (by simp [OwnMethod, abc]) (by simp) (.leaf (.obj (.bits [py!"a", py!"b", py!"c"])) true) rfl
  cases h1
  exact ⟨s', h2, h3⟩

end Pyb
