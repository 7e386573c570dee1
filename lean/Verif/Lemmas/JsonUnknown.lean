import Verif.Spec.JsonUnknown
import Verif.Lemmas.IetfList

namespace Pyb
open Py Spec

/-- Induction over documents. -/
theorem J.ind {P : J → Prop} (hnull : P .null) (hbool : ∀ b, P (.bool b)) (hnum : ∀ n, P (.num n)) (hfloat : ∀ f, P (.float f)) (hstr : ∀ s, P (.str s))
    (harr : ∀ xs, (∀ x ∈ xs, P x) → P (.arr xs)) (hobj : ∀ ms : List (Str × J), (∀ m ∈ ms, P m.2) → P (.obj ms)) : ∀ j, P j
  | .null => hnull
  | .bool b => hbool b
  | .num n => hnum n
  | .float f => hfloat f
  | .str s => hstr s
  | .arr xs => harr xs fun x _ => J.ind hnull hbool hnum hfloat hstr harr hobj x
  | .obj ms => hobj ms fun m _ => J.ind hnull hbool hnum hfloat hstr harr hobj m.2
termination_by j => sizeOf j
decreasing_by
  · rename_i h; have := List.sizeOf_lt_of_mem h; simp; omega
  · rename_i h
    have h1 := List.sizeOf_lt_of_mem h
    have : sizeOf m.2 < sizeOf m := by cases m; simp; omega
    simp; omega

theorem not_mem_takeWhile (c : Char) (s : Str) : c ∉ s.takeWhile (· ≠ c) := by
  induction s with
  | nil => simp
  | cons a s ih =>
    by_cases h : a = c
    · simp [h]
    · simp only [List.takeWhile_cons, ne_eq, h, not_false_eq_true, decide_true, if_true, List.mem_cons, not_or]
      exact ⟨fun e => h e.symm, ih⟩

theorem takeWhile_every (c : Char) (s : Str) (h : c ∉ s) : s.takeWhile (· ≠ c) = s := by
  induction s with
  | nil => rfl
  | cons a s ih =>
    simp only [List.mem_cons, not_or] at h
    have : a ≠ c := fun e => h.1 e.symm
    rw [List.takeWhile_cons, if_pos (by simpa using this), ih h.2]

theorem localKey_eq (s : Str) : localKey s = localName s := by
  unfold localKey localName
  have hs : s.reverse = s.reverse.takeWhile (· ≠ ':') ++ s.reverse.dropWhile (· ≠ ':') := List.takeWhile_append_dropWhile.symm
  have hn : ':' ∉ s.reverse.takeWhile (· ≠ ':') := not_mem_takeWhile _ _
  by_cases h : ':' ∈ s
  · rw [if_pos h]
    cases hd : s.reverse.dropWhile (· ≠ ':') with
    | nil =>
      rw [hd, List.append_nil] at hs
      exact absurd (by rw [← hs]; simpa using h) hn
    | cons c r =>
      have hc : c = ':' := by
        have := List.head?_dropWhile_not (fun c : Char => decide (c ≠ ':')) s.reverse
        rw [hd] at this
        simpa using this
      subst hc
      rw [hd] at hs
      have := congrArg List.reverse hs
      rw [List.reverse_reverse, List.reverse_append, List.reverse_cons, List.append_assoc, List.singleton_append] at this
      conv => lhs; rw [this]
      exact splitOn_last _ _ _ (by simpa using hn)
  · rw [if_neg h]
    have : s.reverse.takeWhile (· ≠ ':') = s.reverse := takeWhile_every _ _ (by simpa using h)
    rw [this, List.reverse_reverse]

/-- The two ways to find a child agree. -/
theorem kidIdx_memberOf (kids : List (Meta × Schema)) (key : Str) :
    (kidIdx kids (localKey key) = none ∧ memberOf kids key = none) ∨
    ∃ i k, kidIdx kids (localKey key) = some i ∧ kids[i]? = some k ∧ memberOf kids key = some k := by
  rw [localKey_eq]
  induction kids with
  | nil => exact .inl ⟨rfl, rfl⟩
  | cons a ks ih =>
    simp only [kidIdx, memberOf, List.findIdx?_cons, List.find?_cons] at ih ⊢
    by_cases h : (safeName a.1.name == safeName (localName key)) = true
    · rw [if_pos h]
      simp only [h]
      exact .inr ⟨0, a, rfl, rfl, rfl⟩
    · rw [if_neg h]
      simp only [h]
      rcases ih with ⟨h1, h2⟩ | ⟨i, k, h1, h2, h3⟩
      · exact .inl ⟨by rw [h1]; rfl, h2⟩
      · exact .inr ⟨i + 1, k, by rw [h1]; rfl, by simpa using h2, h3⟩

/-! ## Without and with `skip_unknown` -/

/-- How the results relate; `U` says there is an unknown member. -/
def SkipRel (o0 o1 : Out) (U : Prop) : Prop :=
  (¬ U → o0 = o1) ∧ (o0 = o1 ∨ o0.err = some .attributeError) ∧ (U → o0.err ≠ none)

theorem skipRel_same (o : Out) (U : Prop) (h : U → False) : SkipRel o o U := ⟨fun _ => rfl, .inl rfl, fun u => (h u).elim⟩

theorem skipRel_err {o : Out} {U : Prop} (h : o.err ≠ none) : SkipRel o o U := ⟨fun _ => rfl, .inl rfl, fun _ => h⟩

theorem skipRel_then {o0 o1 : Out} {f0 f1 : Inst → Out} {U V : Prop} (h : SkipRel o0 o1 U) (hf : ∀ n, SkipRel (f0 n) (f1 n) V) :
    SkipRel (o0.andThen f0) (o1.andThen f1) (U ∨ V) := by
  obtain ⟨h1, h2, h3⟩ := h
  refine ⟨?_, ?_, ?_⟩
  · intro hu
    simp only [not_or] at hu
    rw [h1 hu.1]
    simp only [Out.andThen]
    rw [(hf o1.inst).1 hu.2]
  · rcases h2 with rfl | h2
    · cases he : o0.err with
      | some e => left; simp [Out.andThen, he]
      | none =>
        rcases (hf o0.inst).2.1 with h | h
        · left; simp only [Out.andThen, he, h]
        · right; simp [Out.andThen, he, h]
    · right
      simp [Out.andThen, h2]
  · intro hu
    cases he : o0.err with
    | some e => simp [Out.andThen, he]
    | none =>
      simp only [Out.andThen, he]
      rcases hu with hu | hu
      · exact absurd he (h3 hu)
      · exact (hf o0.inst).2.2 hu

theorem holdPut_err {wrapped pres : Bool} {own : Option Choice} {kids : List (Meta × Schema)} {ch pr : Bool} {ns : List Inst} {i : Nat}
    {o : Out} : (holdPut wrapped pres own kids ch pr ns i o).err = o.err := by
  cases wrapped <;> rfl

theorem skipRel_holdPut {o0 o1 : Out} {U : Prop} (h : SkipRel o0 o1 U) {wrapped pres : Bool} {own : Option Choice}
    {kids : List (Meta × Schema)} {ch pr : Bool} {ns : List Inst} {i : Nat} :
    SkipRel (holdPut wrapped pres own kids ch pr ns i o0) (holdPut wrapped pres own kids ch pr ns i o1) U := by
  obtain ⟨h1, h2, h3⟩ := h
  refine ⟨fun hu => by rw [h1 hu], ?_, fun hu => by rw [holdPut_err]; exact h3 hu⟩
  rcases h2 with rfl | h2
  · exact .inl rfl
  · exact .inr (by rw [holdPut_err]; exact h2)

theorem skipRel_withEntry {n : Inst} {k : PyVal} {f0 f1 : Inst → Out} {U : Prop} (h : ∀ c, SkipRel (f0 c) (f1 c) U) :
    SkipRel (withEntry n k f0) (withEntry n k f1) U := by
  unfold withEntry
  cases n with
  | list ch es =>
    simp only
    cases hq : es.find? fun q => pyEq q.1 k with
    | none => exact skipRel_err (by simp [fail])
    | some q =>
      obtain ⟨h1, h2, h3⟩ := h q.2
      refine ⟨fun hu => by simp only [h1 hu], ?_, fun hu => h3 hu⟩
      rcases h2 with h2 | h2
      · exact .inl (by simp only [h2])
      · exact .inr h2
  | _ => exact skipRel_err (by simp [fail])

def noSkip (g : LoadOpt) : LoadOpt := { g with skip := false }
def doSkip (g : LoadOpt) : LoadOpt := { g with skip := true }

/-- One member is unknown, or has something unknown below. -/
def UnknownAt (S : Schema) (x : Str × J) : Prop :=
  '@' ∉ x.1 ∧ ((memberOf (kidsOf S) x.1 = none ∧ x.2 ≠ .arr []) ∨ ∃ k, memberOf (kidsOf S) x.1 = some k ∧ HasUnknown k.2 x.2)

theorem hasUnknown_obj {S : Schema} {ms : List (Str × J)} : HasUnknown S (.obj ms) ↔ ∃ x ∈ ms, UnknownAt S x := by
  constructor
  · intro h
    cases h with
    | here h1 h2 h3 h4 => exact ⟨_, h1, h2, .inl ⟨h3, h4⟩⟩
    | inside h1 h2 h3 h4 => exact ⟨_, h1, h2, .inr ⟨_, h3, h4⟩⟩
  · rintro ⟨x, h1, h2, ⟨h3, h4⟩ | ⟨k, h3, h4⟩⟩
    · exact .here h1 h2 h3 h4
    · exact .inside h1 h2 h3 h4

theorem unknown_rel (n : Inst) (j : J) : SkipRel (ietfUnknown false n j) (ietfUnknown true n j) (j ≠ .arr []) := by
  cases j with
  | arr xs =>
    cases xs with
    | nil => exact skipRel_same _ _ (by simp)
    | cons x xs => exact skipRel_err (by simp [ietfUnknown, fail])
  | _ => exact ⟨fun h => absurd (by simp) h, .inr (by simp [ietfUnknown, fail]), fun _ => by simp [ietfUnknown, fail]⟩

theorem SkipRel.mono {o0 o1 : Out} {U V : Prop} (h : SkipRel o0 o1 U) (e : U ↔ V) : SkipRel o0 o1 V := by
  rw [← propext e]; exact h

theorem withKid_rel {g : LoadOpt} {wrapped : Bool} {S : Schema} {own : Option Choice} {n : Inst} {x : Str × J} {keys : List Nat}
    (hx : '@' ∉ x.1)
    (ih : ∀ S own isKey c, SkipRel (ietfChild (noSkip g) S own isKey c x.2) (ietfChild (doSkip g) S own isKey c x.2) (HasUnknown S x.2)) :
    SkipRel (withKid wrapped S own n (localKey x.1) (ietfUnknown false n x.2) fun i k c =>
        ietfChild (noSkip g) k.2 k.1.choice (keys.contains i) c x.2)
      (withKid wrapped S own n (localKey x.1) (ietfUnknown true n x.2) fun i k c =>
        ietfChild (doSkip g) k.2 k.1.choice (keys.contains i) c x.2) (UnknownAt S x) := by
  have hne : memberOf (kidsOf S) x.1 = none → (x.2 ≠ .arr [] ↔ UnknownAt S x) := by
    intro h
    simp [UnknownAt, hx, h]
  cases S with
  | cont pres kids =>
    simp only [withKid]
    rcases kidIdx_memberOf kids x.1 with ⟨h1, h2⟩ | ⟨i, k, h1, h2, h3⟩
    · simp only [h1]
      exact (unknown_rel n x.2).mono (hne h2)
    · simp only [h1, h2]
      cases n with
      | cont ch pr ns =>
        simp only
        cases hc : ns[i]? with
        | none => exact skipRel_err (by simp [fail])
        | some c =>
          refine (skipRel_holdPut (ih k.2 k.1.choice (keys.contains i) c)).mono ?_
          simp [UnknownAt, hx, kidsOf, h3]
      | _ => exact skipRel_err (by simp [fail])
  | _ => exact (unknown_rel n x.2).mono (hne rfl)

theorem members_rel {g : LoadOpt} {wrapped : Bool} {S : Schema} {keys : List Nat} {own : Option Choice} {ms : List (Str × J)}
    (ih : ∀ x ∈ ms, ∀ S own isKey c,
      SkipRel (ietfChild (noSkip g) S own isKey c x.2) (ietfChild (doSkip g) S own isKey c x.2) (HasUnknown S x.2)) :
    ∀ n, SkipRel (ietfMembers (noSkip g) wrapped S keys own n ms) (ietfMembers (doSkip g) wrapped S keys own n ms) (HasUnknown S (.obj ms)) := by
  induction ms with
  | nil =>
    intro n
    rw [members_nil, members_nil]
    exact skipRel_same _ _ (by rw [hasUnknown_obj]; simp)
  | cons x ms ihm =>
    intro n
    rw [members_cons, members_cons]
    have hU : (UnknownAt S x ∨ HasUnknown S (.obj ms)) ↔ HasUnknown S (.obj (x :: ms)) := by
      simp [hasUnknown_obj]
    refine SkipRel.mono (skipRel_then ?_ (ihm fun y hy => ih y (by simp [hy]))) hU
    by_cases hx : '@' ∈ x.1
    · rw [if_pos hx, if_pos hx]
      exact skipRel_same _ _ (fun h => h.1 hx)
    · rw [if_neg hx, if_neg hx]
      exact withKid_rel hx (ih x (by simp))

theorem elem_rel {g : LoadOpt} {kids : List (Meta × Schema)} {keys : List Nat} {x : J}
    (ih : ∀ ms, x = .obj ms → ∀ y ∈ ms, ∀ S own isKey c,
      SkipRel (ietfChild (noSkip g) S own isKey c y.2) (ietfChild (doSkip g) S own isKey c y.2) (HasUnknown S y.2)) (c : Inst) :
    SkipRel (ietfElem (noSkip g) kids keys c x) (ietfElem (doSkip g) kids keys c x) (HasUnknown (.cont false kids) x) := by
  cases x with
  | obj ms =>
    unfold ietfElem
    exact members_rel (ih ms rfl) c
  | _ =>
    unfold ietfElem
    exact skipRel_err (by simp [fail])

theorem elems_rel {g : LoadOpt} {info : ListInfo} {kids : List (Meta × Schema)} {xs : List J}
    (ih : ∀ x ∈ xs, ∀ ms, x = .obj ms → ∀ y ∈ ms, ∀ S own isKey c,
      SkipRel (ietfChild (noSkip g) S own isKey c y.2) (ietfChild (doSkip g) S own isKey c y.2) (HasUnknown S y.2)) :
    ∀ n, SkipRel (ietfElems (noSkip g) info kids n xs) (ietfElems (doSkip g) info kids n xs) (HasUnknown (.list info kids) (.arr xs)) := by
  induction xs with
  | nil =>
    intro n
    unfold ietfElems
    exact skipRel_same _ _ (by intro h; cases h; simp at *)
  | cons x xs ihx =>
    intro n
    unfold ietfElems
    have hU : (HasUnknown (.cont false kids) x ∨ HasUnknown (.list info kids) (.arr xs)) ↔
        HasUnknown (.list info kids) (.arr (x :: xs)) := by
      constructor
      · rintro (h | h)
        · exact .elem (by simp) h
        · cases h with
          | elem h1 h2 => exact .elem (by simp [h1]) h2
      · intro h
        cases h with
        | elem h1 h2 =>
          rcases List.mem_cons.1 h1 with rfl | h1
          · exact .inl h2
          · exact .inr (.elem h1 h2)
    refine SkipRel.mono (skipRel_then ?_ (ihx fun y hy => ih y (by simp [hy]))) hU
    refine SkipRel.mono (skipRel_then (U := False) (V := HasUnknown (.cont false kids) x) (skipRel_same _ _ id) ?_) (by simp)
    intro n
    cases n with
    | list ch es =>
      simp only
      refine SkipRel.mono (skipRel_then (U := False) (V := HasUnknown (.cont false kids) x) (skipRel_same _ _ id) ?_) (by simp)
      intro n
      exact skipRel_withEntry fun c => elem_rel (ih x (by simp)) c
    | _ => exact skipRel_err (by simp [fail])

theorem child_rel {g : LoadOpt} : ∀ (j : J) S own isKey c,
    SkipRel (ietfChild (noSkip g) S own isKey c j) (ietfChild (doSkip g) S own isKey c j) (HasUnknown S j) := by
  intro j
  have main : (∀ S own isKey c,
      SkipRel (ietfChild (noSkip g) S own isKey c j) (ietfChild (doSkip g) S own isKey c j) (HasUnknown S j)) ∧
      (∀ ms, j = .obj ms → ∀ y ∈ ms, ∀ S own isKey c,
        SkipRel (ietfChild (noSkip g) S own isKey c y.2) (ietfChild (doSkip g) S own isKey c y.2) (HasUnknown S y.2)) := by
    induction j using J.ind with
    | harr xs ih =>
      refine ⟨?_, by simp⟩
      intro S own isKey c
      cases S with
      | list info kids =>
        unfold ietfChild
        exact elems_rel (fun x hx ms e y hy => (ih x hx).2 ms e y hy) c
      | _ =>
        unfold ietfChild
        simp only
        split
        · exact skipRel_same _ _ (by intro h; cases h)
        · exact skipRel_same _ _ (by intro h; cases h)
    | hobj ms ih =>
      refine ⟨?_, ?_⟩
      · intro S own isKey c
        unfold ietfChild
        refine SkipRel.mono (skipRel_then (U := False) (skipRel_same _ _ id) (members_rel fun x hx => (ih x hx).1)) (by simp)
      · intro ms' e y hy
        simp only [J.obj.injEq] at e
        subst e
        exact (ih y hy).1
    | _ =>
      refine ⟨?_, by simp⟩
      intro S own isKey c
      unfold ietfChild
      exact skipRel_same _ _ (by intro h; cases h)
  exact main.1


/-! ## Leaving out the unknown members -/

theorem same_then (n : Inst) (f : Inst → Out) : (Out.same n).andThen f = f n := by
  simp [Out.andThen, Out.same]

theorem orderly_kid {kids : List (Meta × Schema)} (h : OrderlyKids kids) {k : Meta × Schema} (hk : k ∈ kids) : Orderly k.2 := by
  induction kids with
  | nil => simp at hk
  | cons a ks ih =>
    rw [OrderlyKids] at h
    rcases List.mem_cons.1 hk with rfl | hk
    · exact h.1
    · exact ih h.2 hk

theorem pruneMembers_cons (kids : List (Meta × Schema)) (m : Str × J) (ms : List (Str × J)) :
    pruneMembers kids (m :: ms) =
      if '@' ∈ m.1 then m :: pruneMembers kids ms
      else match memberOf kids m.1 with
        | some k => (m.1, prune k.2 m.2) :: pruneMembers kids ms
        | none => pruneMembers kids ms := by
  rw [pruneMembers]
  cases memberOf kids m.1 <;> rfl

theorem memberOf_mem {kids : List (Meta × Schema)} {key : Str} {k : Meta × Schema} (h : memberOf kids key = some k) : k ∈ kids :=
  List.mem_of_find?_eq_some h

/-- The values of key leaves stay. -/
theorem jget_prune {kids : List (Meta × Schema)} (hn : GoodNames kids) {i : Nat} {m : Meta} {L : LeafCls}
    (hk : kids[i]? = some (m, .leaf L)) (ms : List (Str × J)) : jget (pruneMembers kids ms) m.name = jget ms m.name := by
  have hg := hn.1 _ (List.mem_of_getElem? hk)
  have hm : memberOf kids m.name = some (m, .leaf L) := by
    rcases kidIdx_memberOf kids m.name with ⟨h1, _⟩ | ⟨i', k, h1, h2, h3⟩
    · rw [localKey_plain hg.1, kidIdx_self hn.2 hk] at h1; simp at h1
    · rw [localKey_plain hg.1, kidIdx_self hn.2 hk] at h1
      simp only [Option.some.injEq] at h1; subst h1
      rw [h3, ← h2, hk]
  unfold jget
  induction ms with
  | nil => simp [pruneMembers]
  | cons x ms ih =>
    obtain ⟨a, j⟩ := x
    rw [pruneMembers_cons]
    by_cases ha : a = m.name
    · subst ha
      rw [if_neg hg.2.1, hm]
      simp [prune]
    · have hb : (m.name == a) = false := by simpa using fun e : m.name = a => ha e.symm
      split
      · simp only [List.lookup_cons, hb]; exact ih
      · split
        · simp only [List.lookup_cons, hb]; exact ih
        · simp only [List.lookup_cons, hb]; exact ih

theorem elemKeys_prune {info : ListInfo} {kids : List (Meta × Schema)} (hn : GoodNames kids)
    (hk : ∀ i ∈ info.keys, ∃ m L, kids[i]? = some (m, .leaf L)) (ms : List (Str × J)) :
    elemKeys (keyNames info kids) (pruneMembers kids ms) = elemKeys (keyNames info kids) ms := by
  unfold elemKeys keyNames
  generalize info.keys = l at hk
  induction l with
  | nil => rfl
  | cons i is ih =>
    obtain ⟨m, L, h⟩ := hk i (by simp)
    simp only [List.map_cons, h, List.mapM_cons, jget_prune hn h]
    rw [ih fun j hj => hk j (by simp [hj])]

theorem prune_obj (pres : Bool) (kids : List (Meta × Schema)) (ms : List (Str × J)) :
    prune (.cont pres kids) (.obj ms) = .obj (pruneMembers kids ms) := by rw [prune]

theorem prune_other (pres : Bool) (kids : List (Meta × Schema)) (j : J) (h : ∀ ms, j ≠ .obj ms) : prune (.cont pres kids) j = j := by
  cases j with
  | obj ms => exact absurd rfl (h ms)
  | _ => simp [prune]

theorem ietfEntry_prune {g : LoadOpt} {info : ListInfo} {kids : List (Meta × Schema)} (hn : GoodNames kids)
    (hk : ∀ i ∈ info.keys, ∃ m L, kids[i]? = some (m, .leaf L)) (ch : Bool) (es : Members Inst) (x : J) :
    ietfEntry g info kids ch es (prune (.cont false kids) x) = ietfEntry g info kids ch es x := by
  by_cases h : ∃ ms, x = .obj ms
  · obtain ⟨ms, rfl⟩ := h
    rw [prune_obj]
    unfold ietfEntry
    cases info.keys with
    | nil => rfl
    | cons i is => simp only [elemKeys_prune hn hk]
  · rw [prune_other _ _ _ fun ms e => h ⟨ms, e⟩]

theorem unknown_skip {n : Inst} {j : J} (h : ∀ y ys, j ≠ .arr (y :: ys)) : ietfUnknown true n j = Out.same n := by
  cases j with
  | arr xs =>
    cases xs with
    | nil => rfl
    | cons y ys => exact absurd rfl (h y ys)
  | _ => rfl

def PruneOk (g : LoadOpt) (j : J) : Prop := ∀ S, Orderly S → ¬ Odd S j → ∀ own isKey c,
  ietfChild (doSkip g) S own isKey c (prune S j) = ietfChild (doSkip g) S own isKey c j

theorem members_prune {g : LoadOpt} {wrapped pres : Bool} {kids : List (Meta × Schema)} {keys : List Nat} {own : Option Choice}
    {ms : List (Str × J)} (ih : ∀ x ∈ ms, PruneOk g x.2) (hS : OrderlyKids kids) (hodd : ¬ Odd (.cont pres kids) (.obj ms)) :
    ∀ n, ietfMembers (doSkip g) wrapped (.cont pres kids) keys own n (pruneMembers kids ms) =
      ietfMembers (doSkip g) wrapped (.cont pres kids) keys own n ms := by
  induction ms with
  | nil => intro n; rw [pruneMembers]
  | cons x ms ihm =>
    have hodd' : ¬ Odd (.cont pres kids) (.obj ms) := by
      intro h
      apply hodd
      cases h with
      | array h1 h2 h3 h4 => exact .array (by simp [h1]) h2 h3 h4
      | object h => exact absurd rfl (h pres kids)
      | inside h1 h2 h3 h4 => exact .inside (by simp [h1]) h2 h3 h4
    have next := ihm (fun y hy => ih y (by simp [hy])) hodd'
    intro n
    rw [pruneMembers_cons, members_cons]
    by_cases hx : '@' ∈ x.1
    · rw [if_pos hx, if_pos hx, members_cons, if_pos hx, same_then, same_then, next]
    · rw [if_neg hx, if_neg hx]
      rcases kidIdx_memberOf kids x.1 with ⟨h1, h2⟩ | ⟨i, k, h1, h2, h3⟩
      · simp only [h2, withKid, h1]
        have : ∀ y ys, x.2 ≠ .arr (y :: ys) := fun y ys e => hodd (.array (by simp) hx h2 e)
        show _ = (ietfUnknown true n x.2).andThen _
        rw [unknown_skip this, same_then, next]
      · have hc : ∀ own isKey c, ietfChild (doSkip g) k.2 own isKey c (prune k.2 x.2) = ietfChild (doSkip g) k.2 own isKey c x.2 :=
          ih x (by simp) k.2 (orderly_kid hS (memberOf_mem h3)) fun h => hodd (.inside (by simp) hx h3 h)
        simp only [h3]
        rw [members_cons, if_neg hx]
        simp only [withKid, h1, h2]
        cases n with
        | cont ch pr ns =>
          simp only
          cases ns[i]? with
          | none => simp only [next]
          | some c => simp only [hc, next]
        | _ => simp only [next]

theorem elem_prune {g : LoadOpt} {kids : List (Meta × Schema)} {keys : List Nat} {x : J}
    (ih : ∀ ms, x = .obj ms → ∀ y ∈ ms, PruneOk g y.2) (hS : OrderlyKids kids) (hodd : ¬ Odd (.cont false kids) x) (c : Inst) :
    ietfElem (doSkip g) kids keys c (prune (.cont false kids) x) = ietfElem (doSkip g) kids keys c x := by
  by_cases h : ∃ ms, x = .obj ms
  · obtain ⟨ms, rfl⟩ := h
    rw [prune_obj]
    unfold ietfElem
    exact members_prune (ih ms rfl) hS hodd c
  · rw [prune_other _ _ _ fun ms e => h ⟨ms, e⟩]

theorem elems_prune {g : LoadOpt} {info : ListInfo} {kids : List (Meta × Schema)} {xs : List J}
    (ih : ∀ x ∈ xs, ∀ ms, x = .obj ms → ∀ y ∈ ms, PruneOk g y.2) (hS : Orderly (.list info kids))
    (hodd : ¬ Odd (.list info kids) (.arr xs)) :
    ∀ n, ietfElems (doSkip g) info kids n (pruneElems kids xs) = ietfElems (doSkip g) info kids n xs := by
  rw [Orderly] at hS
  induction xs with
  | nil => intro n; rw [pruneElems]
  | cons x xs ihx =>
    have next := ihx (fun y hy => ih y (by simp [hy])) (by intro h; cases h with
      | elem h1 h2 => exact hodd (.elem (by simp [h1]) h2))
    intro n
    rw [pruneElems]
    conv => lhs; unfold ietfElems
    conv => rhs; unfold ietfElems
    simp only [next, ietfEntry_prune hS.1 hS.2.1, elem_prune (ih x (by simp)) hS.2.2 fun h => hodd (.elem (by simp) h)]

theorem child_prune {g : LoadOpt} (j : J) : PruneOk g j := by
  have main : PruneOk g j ∧ ∀ ms, j = .obj ms → ∀ y ∈ ms, PruneOk g y.2 := by
    induction j using J.ind with
    | harr xs ih =>
      refine ⟨?_, by simp⟩
      intro S hS hodd own isKey c
      cases S with
      | list info kids =>
        rw [prune]
        unfold ietfChild
        exact elems_prune (fun x hx => (ih x hx).2) hS hodd c
      | _ => simp [prune]
    | hobj ms ih =>
      refine ⟨?_, ?_⟩
      · intro S hS hodd own isKey c
        cases S with
        | cont pres kids =>
          rw [prune_obj]
          unfold ietfChild
          congr 1
          funext n
          rw [Orderly] at hS
          exact members_prune (fun x hx => (ih x hx).1) hS.2 hodd n
        | _ => exact absurd (.object (by simp)) hodd
      · intro ms' e y hy
        simp only [J.obj.injEq] at e
        subst e
        exact (ih y hy).1
    | _ =>
      refine ⟨?_, by simp⟩
      intro S hS hodd own isKey c
      cases S <;> simp [prune]
  exact main.1

/-- Nothing unknown is left. -/
theorem prune_known {pres : Bool} {kids : List (Meta × Schema)} {ms : List (Str × J)}
    (ih : ∀ x ∈ ms, ∀ S, ¬ Odd S x.2 → ¬ HasUnknown S (prune S x.2)) (hodd : ¬ Odd (.cont pres kids) (.obj ms)) :
    ∀ y ∈ pruneMembers kids ms, ¬ UnknownAt (.cont pres kids) y := by
  induction ms with
  | nil => simp [pruneMembers]
  | cons x ms ihm =>
    have hodd' : ¬ Odd (.cont pres kids) (.obj ms) := by
      intro h
      apply hodd
      cases h with
      | array h1 h2 h3 h4 => exact .array (by simp [h1]) h2 h3 h4
      | object h => exact absurd rfl (h pres kids)
      | inside h1 h2 h3 h4 => exact .inside (by simp [h1]) h2 h3 h4
    have next := ihm (fun y hy => ih y (by simp [hy])) hodd'
    intro y hy
    rw [pruneMembers_cons] at hy
    split at hy
    · rename_i hx
      rcases List.mem_cons.1 hy with rfl | hy
      · exact fun h => h.1 hx
      · exact next y hy
    · rename_i hx
      split at hy
      · rename_i k hk
        rcases List.mem_cons.1 hy with rfl | hy
        · rintro ⟨_, ⟨h, _⟩ | ⟨k', h, h'⟩⟩
          · simp only [kidsOf, hk] at h; simp at h
          · simp only [kidsOf, hk, Option.some.injEq] at h; subst h
            exact ih x (by simp) k.2 (fun h => hodd (.inside (by simp) hx hk h)) h'
        · exact next y hy
      · exact next y hy

theorem mem_pruneElems {kids : List (Meta × Schema)} {xs : List J} {y : J} (h : y ∈ pruneElems kids xs) :
    ∃ x ∈ xs, y = prune (.cont false kids) x := by
  induction xs with
  | nil => simp [pruneElems] at h
  | cons x xs ih =>
    rw [pruneElems] at h
    rcases List.mem_cons.1 h with rfl | h
    · exact ⟨x, by simp, rfl⟩
    · obtain ⟨x', h1, h2⟩ := ih h
      exact ⟨x', by simp [h1], h2⟩

theorem prune_clean (j : J) : ∀ S, ¬ Odd S j → ¬ HasUnknown S (prune S j) := by
  induction j using J.ind with
  | harr xs ih =>
    intro S hodd
    cases S with
    | list info kids =>
      rw [prune]
      intro h
      cases h with
      | elem h1 h2 =>
        obtain ⟨x, hx, rfl⟩ := mem_pruneElems h1
        exact ih x hx _ (fun h => hodd (.elem hx h)) h2
    | _ => simp only [prune]; intro h; cases h
  | hobj ms ih =>
    intro S hodd
    cases S with
    | cont pres kids =>
      rw [prune_obj, hasUnknown_obj]
      rintro ⟨y, hy, h⟩
      exact prune_known ih hodd y hy h
    | _ => exact absurd (.object (by simp)) hodd
  | _ => intro S _; cases S <;> simp only [prune] <;> intro h <;> cases h

end Pyb
