import Verif.Lemmas.Restricted

/-! # C07-C12: restricted leaves

Every theorem is about `setLeaf`, assigning a value to a leaf, for the class that
the generator emits for the leaf's YANG type.  `rx p s` stands for
`regex.match(p, s)` succeeding; the theorems hold for every such function. -/

namespace Pyb
open Py Spec

/-- The range argument a built-in type amounts to. -/
def builtinPart (t : IntTy) : WrittenPart :=
  match t with
  | .int8 => ⟨.span (some (-128)) (some 127), 0, 0, 0, 0⟩
  | .int16 => ⟨.span (some (-32768)) (some 32767), 0, 0, 0, 0⟩
  | .int32 => ⟨.span (some (-2147483648)) (some 2147483647), 0, 0, 0, 0⟩
  | .int64 => ⟨.span (some (-9223372036854775808)) (some 9223372036854775807), 0, 0, 0, 0⟩
  | .uint8 => ⟨.span (some 0) (some 255), 0, 0, 0, 0⟩
  | .uint16 => ⟨.span (some 0) (some 65535), 0, 0, 0, 0⟩
  | .uint32 => ⟨.span (some 0) (some 4294967295), 0, 0, 0, 0⟩
  | .uint64 => ⟨.span (some 0) (some 18446744073709551615), 0, 0, 0, 0⟩

theorem builtin_tower (t : IntTy) : t.rty = towerOf [[builtinPart t]] := by
  cases t <;> simp only [IntTy.rty, towerOf] <;> congr 3 <;> decide

theorem builtin_legal (t : IntTy) : LegalChain [[builtinPart t]] := by
  refine ⟨by simp, ?_, ?_, trivial⟩
  · intro w _ b _ x hx; simp at hx
  · intro w hw m hm
    simp only [List.mem_singleton] at hw
    subst hw; cases t <;> simp [builtinPart] at hm

theorem builtin_allowed {t : IntTy} {lo hi : Int} (hb : builtinBounds t.name = some (lo, hi)) (n : Int) :
    Allowed [builtinPart t] n ↔ lo ≤ n ∧ n ≤ hi := by
  have : ∀ a b, Allowed [⟨.span (some a) (some b), 0, 0, 0, 0⟩] n ↔ a ≤ n ∧ n ≤ b := by
    intro a b; simp [Allowed, RangePart.Contains]
  cases t <;> simp only [builtinPart, this] <;>
    simp [builtinBounds, IntTy.name] at hb <;> omega

/-- A value that Python's `int()` reads as `n`: the integer itself or a text. -/
def Denotes (v : PyVal) (n : Int) : Prop := v = .int n ∨ ∃ s, v = .str s ∧ intOfStr s = .ok n

theorem Denotes.isNum {v n} (h : Denotes v n) : IsNum v n := by
  rcases h with rfl | ⟨s, rfl, hs⟩
  · exact isNum_int n
  · exact isNum_str hs

theorem genRTy_range (inner : RTy) (arg : Str) :
    genRTy inner [] none (some arg) = .restr inner [.range (genSpecs arg)] := by
  simp [genRTy, genRestrs]

/-! ## C09: built-in integer types -/

/-- C09: a leaf of a built-in integer type takes exactly the integers between the
type's bounds, given as integers or as text, and then holds that integer. -/
theorem C09_builtin_int_exact (rx : Str → Str → Bool) (t : IntTy) (lo hi : Int)
    (hb : builtinBounds t.name = some (lo, hi)) (v : PyVal) (n : Int) (hv : Denotes v n) :
    setLeaf rx t.rty v = if lo ≤ n ∧ n ≤ hi then .ok (.int n) else .error .valueError := by
  rw [builtin_tower]
  have hin : InType [[builtinPart t]] n ↔ lo ≤ n ∧ n ≤ hi := by
    rw [← builtin_allowed hb]; simp [InType]
  split
  · next h => exact setLeaf_tower_ok rx _ (builtin_legal t) v n hv.isNum (hin.2 h)
  · next h =>
    exact setLeaf_tower_reject rx _ (builtin_legal t) v n hv.isNum (fun h' => h (hin.1 h'))
      (fun x hx => by simp at hx)

/-- Every type has bounds, so the hypothesis of C09 is met. -/
theorem C09_every_type_has_bounds (t : IntTy) : ∃ lo hi, builtinBounds t.name = some (lo, hi) := by
  cases t <;> exact ⟨_, _, rfl⟩

/-- The decimal text of every integer denotes it. -/
theorem C09_decimal_text_denotes (n : Int) : Denotes (.str (intStr n)) n :=
  .inr ⟨_, rfl, intOfStr_intStr n⟩

example : setLeaf (fun _ _ => true) IntTy.int8.rty (.str py!" -128 ") = .ok (.int (-128)) := by decide
example : setLeaf (fun _ _ => true) IntTy.uint16.rty (.int 65536) = .error .valueError := by decide

/-! ## C07, C08: ranges -/

theorem range_chain (t : IntTy) (lo hi : Int)
    (hb : builtinBounds t.name = some (lo, hi)) (ws : List WrittenPart) (hne : ws ≠ [])
    (hw : BoundsWithin lo hi ws) (hs : ∀ w ∈ ws, ∀ m, w.part = .single m → m.natAbs < 2 ^ 53) :
    genRTy t.rty [] none (some (rangeText ws)) = towerOf [ws, [builtinPart t]] ∧
    LegalChain [ws, [builtinPart t]] := by
  refine ⟨by rw [genRTy_range, builtin_tower]; rfl, hne, ?_, hs, builtin_legal t⟩
  intro w hmem b hbm x hx
  simp only [List.mem_singleton] at hx; subst hx
  rw [builtin_allowed hb]
  have := hw w hmem
  cases hp : w.part with
  | single m =>
    rw [hp] at this hbm; simp [RangePart.bounds] at hbm; subst hbm; exact this
  | span l h =>
    rw [hp] at this hbm
    simp only [RangePart.bounds, List.mem_append, Option.mem_toList] at hbm
    rcases hbm with h' | h'
    · exact this.1 b h'
    · exact this.2 b h'

theorem range_over_builtin (rx : Str → Str → Bool) (t : IntTy) (lo hi : Int)
    (hb : builtinBounds t.name = some (lo, hi)) (ws : List WrittenPart) (hne : ws ≠ [])
    (hw : BoundsWithin lo hi ws) (hs : ∀ w ∈ ws, ∀ m, w.part = .single m → m.natAbs < 2 ^ 53)
    (v : PyVal) (n : Int) (hv : Denotes v n) :
    setLeaf rx (genRTy t.rty [] none (some (rangeText ws))) v =
      if (lo ≤ n ∧ n ≤ hi) ∧ Allowed ws n then .ok (.int n) else .error .valueError := by
  obtain ⟨e, hl⟩ := range_chain t lo hi hb ws hne hw hs
  have hin : InType [ws, [builtinPart t]] n ↔ (lo ≤ n ∧ n ≤ hi) ∧ Allowed ws n := by
    rw [← builtin_allowed hb]; simp [InType, and_comm]
  rw [e]
  split
  · next h => exact setLeaf_tower_ok rx _ hl v n hv.isNum (hin.2 h)
  · next h =>
    exact setLeaf_tower_reject rx _ hl v n hv.isNum (fun h' => h (hin.1 h'))
      (fun x hx => by simp at hx)

/-- C07: for every built-in integer type and every range argument made of
`low..high` parts (any number of parts, any spacing, `min` and `max`), a leaf takes
exactly the integers of the type that one of the parts contains. -/
theorem C07_range_exact (rx : Str → Str → Bool) (t : IntTy) (lo hi : Int)
    (hb : builtinBounds t.name = some (lo, hi)) (ws : List WrittenPart) (hne : ws ≠ [])
    (hw : BoundsWithin lo hi ws) (hspan : ∀ w ∈ ws, ∃ l h, w.part = .span l h)
    (v : PyVal) (n : Int) (hv : Denotes v n) :
    setLeaf rx (genRTy t.rty [] none (some (rangeText ws))) v =
      if (lo ≤ n ∧ n ≤ hi) ∧ Allowed ws n then .ok (.int n) else .error .valueError := by
  apply range_over_builtin rx t lo hi hb ws hne hw ?_ v n hv
  intro w hmem m hm
  obtain ⟨l, h, e⟩ := hspan w hmem
  rw [e] at hm; simp at hm

example : rangeText [⟨.span none (some 10), 0, 1, 1, 1⟩, ⟨.span (some 20) none, 2, 0, 0, 0⟩] =
    py!"min .. 10 |  20..max" := by decide
example : BoundsWithin 0 255 [⟨.span none (some 10), 0, 1, 1, 1⟩, ⟨.span (some 20) none, 2, 0, 0, 0⟩] := by
  intro w hw; simp at hw; rcases hw with rfl | rfl <;> simp
example : setLeaf (fun _ _ => true) (genRTy IntTy.uint8.rty [] none (some py!"min .. 10 |  20..max")) (.int 15)
    = .error .valueError := by decide

/-- C08: range arguments with single values below 2^53 in magnitude mean exactly
those values.  Missing: larger single values, see `C08_single_value_refuted`. -/
theorem C08_single_value_partial (rx : Str → Str → Bool) (t : IntTy) (lo hi : Int)
    (hb : builtinBounds t.name = some (lo, hi)) (ws : List WrittenPart) (hne : ws ≠ [])
    (hw : BoundsWithin lo hi ws) (hs : ∀ w ∈ ws, ∀ m, w.part = .single m → m.natAbs < 2 ^ 53)
    (v : PyVal) (n : Int) (hv : Denotes v n) :
    setLeaf rx (genRTy t.rty [] none (some (rangeText ws))) v =
      if (lo ≤ n ∧ n ≤ hi) ∧ Allowed ws n then .ok (.int n) else .error .valueError :=
  range_over_builtin rx t lo hi hb ws hne hw hs v n hv

example : setLeaf (fun _ _ => true) (genRTy IntTy.uint64.rty [] none (some py!"3 | 5..6")) (.int 3)
    = .ok (.int 3) := by decide

set_option maxRecDepth 4000 in
set_option exponentiation.threshold 2000 in
/-- C08 is false in general: with `range "9007199254740993"` the leaf rejects
9007199254740993 and takes 9007199254740992 instead. -/
theorem C08_single_value_refuted :
    setLeaf (fun _ _ => true) (genRTy IntTy.uint64.rty [] none (some py!"9007199254740993"))
      (.int 9007199254740993) = .error .valueError ∧
    setLeaf (fun _ _ => true) (genRTy IntTy.uint64.rty [] none (some py!"9007199254740993"))
      (.int 9007199254740992) = .ok (.int 9007199254740992) := by
  decide

/-! ## C10: string lengths -/

/-- C10: for every legal length argument and every string (shorter than 2^53
characters), a `string` leaf takes the string iff its length is one of the written
ones, and then holds it unchanged. -/
theorem C10_length_exact (rx : Str → Str → Bool) (ws : List WrittenPart) (hl : LegalLength ws)
    (s : Str) (hs : s.length < 2 ^ 53) :
    setLeaf rx (genRTy (.base .str) [] (some (rangeText ws)) none) (.str s) =
      if Allowed ws s.length then .ok (.str s) else .error .valueError := by
  have := dyn_str rx [⟨[], some ws⟩] (by
    intro l h; simp only [List.mem_singleton] at h; subst h
    exact ⟨by simp, fun ws' h => by simp at h; subst h; exact hl⟩) s hs
  simp only [strTower, Option.map_some] at this
  rw [this]
  simp only [anyEach, kept, allInner]
  by_cases h : Allowed ws s.length <;> simp [h]

example : LegalLength [⟨.span (some 1) (some 5), 0, 0, 0, 0⟩, ⟨.single 8, 0, 0, 0, 0⟩] := by
  refine ⟨by simp, ?_⟩
  intro w hw m hm
  simp at hw; rcases hw with rfl | rfl <;> simp at hm
  omega
example : setLeaf (fun _ _ => true) (genRTy (.base .str) [] (some py!"1..5|8") none) (.str py!"abcdefgh")
    = .ok (.str py!"abcdefgh") := by decide
example : setLeaf (fun _ _ => true) (genRTy (.base .str) [] (some py!"1..5|8") none) (.str [])
    = .error .valueError := by decide

/-! ## C11: restrictions together -/

theorem kept_all {rx : Str → Str → Bool} {l : StrLayer} {s : Str} (h : l.SinglePattern) :
    (kept rx l s).all id = true ↔ l.Allows (fun p s => patTest rx p s = true) s := by
  obtain ⟨pats, len⟩ := l
  match pats, h with
  | [], _ => cases len <;> simp [kept, StrLayer.Allows]
  | [p], _ => cases len <;> simp [kept, StrLayer.Allows]
  | _ :: _ :: _, h => simp [StrLayer.SinglePattern] at h

theorem kept_any {rx : Str → Str → Bool} {l : StrLayer} {s : Str} (h : l.AtMostOne) :
    ((kept rx l s).isEmpty || (kept rx l s).contains true) = (kept rx l s).all id := by
  obtain ⟨pats, len⟩ := l
  match pats, len, h with
  | [], none, _ => simp [kept]
  | [], some ws, _ => by_cases h : Allowed ws s.length <;> simp [kept, h]
  | [p], none, _ => cases h : patTest rx p s <;> simp [kept, h]
  | [p], some ws, h => simp [StrLayer.AtMostOne] at h
  | _ :: _ :: _, _, h => simp [StrLayer.AtMostOne] at h; omega

/-- C11 for one `type` statement: with one pattern and one length, a string is
taken iff both hold.  Several patterns: see `C11_second_pattern_refuted`. -/
theorem C11_pattern_and_length_partial (rx : Str → Str → Bool) (l : StrLayer) (hl : LegalLayer l)
    (hp : l.SinglePattern) (s : Str) (hs : s.length < 2 ^ 53) :
    setLeaf rx (genRTy (.base .str) l.patterns (l.length.map rangeText) none) (.str s) = .ok (.str s) ↔
      l.Allows (fun p s => patTest rx p s = true) s := by
  have := dyn_str rx [l] (by simpa using hl) s hs
  simp only [strTower] at this
  rw [this, ← kept_all hp]
  simp only [anyEach, allInner, List.all_cons, List.all_nil, Bool.and_true, if_true]
  by_cases h : (kept rx l s).all id = true
  · have h2 : ((kept rx l s).isEmpty || (kept rx l s).contains true) = true := by
      cases hk : kept rx l s with
      | nil => rfl
      | cons b bs => rw [hk] at h; simp at h; simp [h.1]
    rw [h2, h]; simp
  · simp [h]

example : setLeaf (fun p s => p = py!"^ab*$" ∧ s = py!"abb") (genRTy (.base .str) [py!"ab*"] (some py!"3") none)
    (.str py!"abb") = .ok (.str py!"abb") := by decide

/-- C11 for a chain of derivations of a string type, outermost first: if every
`type` statement but the innermost carries at most one restriction and the
innermost at most one pattern, a string is taken iff every statement allows it. -/
theorem C11_string_chain_partial (rx : Str → Str → Bool) (outer : List StrLayer) (l : StrLayer)
    (hl : ∀ x ∈ outer ++ [l], LegalLayer x) (hone : ∀ x ∈ outer, x.AtMostOne)
    (hp : l.SinglePattern) (s : Str) (hs : s.length < 2 ^ 53) :
    setLeaf rx (strTower (outer ++ [l])) (.str s) = .ok (.str s) ↔
      ∀ x ∈ outer ++ [l], x.Allows (fun p s => patTest rx p s = true) s := by
  rw [dyn_str rx _ hl s hs]
  have hsp : ∀ x ∈ outer ++ [l], x.SinglePattern := by
    intro x hx
    simp only [List.mem_append, List.mem_singleton] at hx
    rcases hx with hx | rfl
    · have := hone x hx; simp only [StrLayer.AtMostOne] at this
      simp only [StrLayer.SinglePattern]; omega
    · exact hp
  have key : (anyEach rx (outer ++ [l]) s && allInner rx s (outer ++ [l])) =
      (outer ++ [l]).all fun x => (kept rx x s).all id := by
    clear hl hsp
    induction outer with
    | nil =>
      simp only [anyEach, allInner, List.nil_append, List.all_cons, List.all_nil, Bool.and_true, if_true]
      cases hk : kept rx l s with
      | nil => rfl
      | cons b bs => cases b <;> simp
    | cons x xs ih =>
      have ih' := ih (fun y hy => hone y (by simp [hy]))
      have hx := kept_any (rx := rx) (s := s) (hone x (by simp))
      simp only [List.cons_append, anyEach_cons, List.all_cons, hx]
      rw [← ih']
      simp only [allInner]
      by_cases he : (xs ++ [l]).all (fun l => (kept rx l s).isEmpty) = true
      · simp only [he, if_true]
        have hi : allInner rx s (xs ++ [l]) = true := by
          clear ih ih' hone hx
          induction xs with
          | nil =>
            simp at he
            simp [allInner, he]
          | cons y ys ihy =>
            simp only [List.cons_append, List.all_cons, Bool.and_eq_true] at he
            simp only [List.cons_append, allInner]
            rw [if_pos he.2]
            have := he.1; rw [List.isEmpty_iff] at this; simp [this]
        rw [hi]
        cases (kept rx x s).all id <;> simp
      · rw [if_neg he, Bool.and_assoc]
  rw [key]
  constructor
  · intro h x hx
    by_cases hh : ((outer ++ [l]).all fun x => (kept rx x s).all id) = true
    · rw [List.all_eq_true] at hh
      exact (kept_all (hsp x hx)).1 (hh x hx)
    · rw [if_neg hh] at h; simp at h
  · intro h
    rw [if_pos]
    rw [List.all_eq_true]
    intro x hx
    exact (kept_all (hsp x hx)).2 (h x hx)

/-- What the code does for every chain of string derivations: some kept restriction
of each statement, and all kept restrictions of the innermost restricted one. -/
theorem C11_string_chain_characterised (rx : Str → Str → Bool) (chain : List StrLayer)
    (hl : ∀ l ∈ chain, LegalLayer l) (s : Str) (hs : s.length < 2 ^ 53) :
    setLeaf rx (strTower chain) (.str s) =
      if anyEach rx chain s && allInner rx s chain then .ok (.str s) else .error .valueError :=
  dyn_str rx chain hl s hs

/-- C11 is false for two restrictions on a derived string type: `typedef t { type
string { length "1..10"; } } leaf x { type t { length "1..5"; pattern "a"; } }`
takes "bbb". -/
theorem C11_derived_refuted :
    setLeaf (fun p s => p = py!"^a$" ∧ s = py!"a")
      (genRTy (genRTy (.base .str) [] (some py!"1..10") none) [py!"a"] (some py!"1..5") none)
      (.str py!"bbb") = .ok (.str py!"bbb") := by decide

/-- C11 is false for two patterns: only the first is enforced. -/
theorem C11_second_pattern_refuted :
    setLeaf (fun p s => p = py!"^a$" ∧ s = py!"a" ∨ p = py!"^b$" ∧ s = py!"b")
      (genRTy (.base .str) [py!"a", py!"b"] none none) (.str py!"a") = .ok (.str py!"a") := by decide

/-- C11 for a chain of integer ranges, outermost first, of any depth: a value in
the type is stored, and one outside the two outermost ranges is rejected.  Missing:
values outside a deeper range, see `C11_deep_range_refuted`. -/
theorem C11_range_chain_partial (rx : Str → Str → Bool) (chain : List (List WrittenPart))
    (hl : LegalChain chain) (v : PyVal) (n : Int) (hv : Denotes v n) (hdeep : InType (chain.drop 2) n) :
    setLeaf rx (towerOf chain) v = if InType chain n then .ok (.int n) else .error .valueError := by
  split
  · next h => exact setLeaf_tower_ok rx chain hl v n hv.isNum h
  · next h => exact setLeaf_tower_reject rx chain hl v n hv.isNum h hdeep

/-- C11, the other values: a non-zero value outside a range below the second one is
silently replaced by 0, whatever the ranges say about 0. -/
theorem C11_range_chain_deep (rx : Str → Str → Bool) (chain : List (List WrittenPart))
    (hl : LegalChain chain) (n : Int) (hn : n ≠ 0) (hout : ¬ InType (chain.drop 2) n) :
    setLeaf rx (towerOf chain) (.int n) = .ok (.int 0) :=
  setLeaf_tower_silent rx chain hl _ n (isNum_int n) (by simpa [PyVal.truthy] using hn) hout

example : LegalChain [[⟨.span (some 1) (some 50), 0, 0, 0, 0⟩], [⟨.span (some 1) (some 100), 0, 0, 0, 0⟩],
    [builtinPart .uint8]] := by
  refine ⟨by simp, ?_, by simp, by simp, ?_, by simp, builtin_legal _⟩ <;>
    simp [RangePart.bounds, InType, builtinPart, Allowed, RangePart.Contains]

/-- C11 is false for three ranges: `typedef percent { type uint8 { range "1..100"; } }
leaf x { type percent { range "1..50"; } }` silently becomes 0 when assigned 300. -/
theorem C11_deep_range_refuted :
    setLeaf (fun _ _ => true)
      (genRTy (genRTy IntTy.uint8.rty [] none (some py!"1..100")) [] none (some py!"1..50"))
      (.int 300) = .ok (.int 0) := by decide

/-! ## C12: what a leaf holds after a successful assignment -/

theorem intOfStr_error {s : Str} {e : Err} (h : intOfStr s = .error e) : e = .valueError := by
  unfold intOfStr at h; split at h
  · simp at h
  · simpa using h.symm

theorem single_tower_str_new (rx) (ws : List WrittenPart) (hl : LegalChain [ws]) (s : Str) (hne : s ≠ [])
    (h : intOfStr s = .error .valueError) :
    ((towerOf [ws]).cls rx).new (some (.str s)) = .error .typeError := by
  have hm : (genSpecs (rangeText ws)).mapM
      (buildChk fun v => ((towerOf []).cls rx).call (some v)) = .ok (ws.map fun w => chkOf w.part) :=
    build_layer _ ws hl.1 (fun w hw b hbm =>
      (towerFacts rx [] trivial).callOk _ _ (isNum_intStr b) (fun x hx => by simp at hx))
  simp only [towerOf, RTy.cls, Option.getD_some]
  simp only [towerOf, RTy.cls] at hm
  rw [buildTests_range_fail _ ws (.str s) .valueError hm (by simpa [PyVal.truthy] using hne)
    (by simp [BaseTy.conv, PyVal.toInt, h, Except.map])]
  rfl

theorem single_tower_str_error (rx) (ws : List WrittenPart) (hl : LegalChain [ws]) (s : Str) (hne : s ≠ [])
    (h : intOfStr s = .error .valueError) : setLeaf rx (towerOf [ws]) (.str s) = .error .valueError := by
  have F := towerFacts rx [ws] hl
  simp only [setLeaf, dynLeaf, single_tower_str_new rx ws hl s hne h, F.newNone]
  simp only [towerOf, RTy.init, initCheck, RTy.cls, BaseTy.conv, PyVal.toInt, h, Except.map, bind,
    Except.bind]

/-- C12 for built-in integer types and texts and integers: if the assignment does
not raise, the leaf holds the integer the value denotes, within the bounds.
Missing: other Python values (`C12_none_refuted`) and types with a further range
(`C12_text_refuted`). -/
theorem C12_builtin_int_partial (rx : Str → Str → Bool) (t : IntTy) (lo hi : Int)
    (hb : builtinBounds t.name = some (lo, hi)) (v x : PyVal)
    (hv : (∃ n, v = .int n) ∨ (∃ s, v = .str s)) (h : setLeaf rx t.rty v = .ok x) :
    ∃ n, v.toInt = .ok n ∧ x = .int n ∧ lo ≤ n ∧ n ≤ hi := by
  have num : ∀ n, Denotes v n → ∃ n, v.toInt = .ok n ∧ x = .int n ∧ lo ≤ n ∧ n ≤ hi := by
    intro n hd
    rw [C09_builtin_int_exact rx t lo hi hb v n hd] at h
    split at h
    · next hc => exact ⟨n, hd.isNum.conv, by simpa using h.symm, hc⟩
    · simp at h
  rcases hv with ⟨n, rfl⟩ | ⟨s, rfl⟩
  · exact num n (.inl rfl)
  · cases hs : intOfStr s with
    | ok n => exact num n (.inr ⟨s, rfl, hs⟩)
    | error e =>
      cases intOfStr_error hs
      by_cases hne : s = []
      · subst hne
        revert h
        cases t <;> intro h <;> exact absurd h (by
          rw [show setLeaf rx _ (.str []) = .error .valueError from rfl]; simp)
      · rw [builtin_tower, single_tower_str_error rx _ (builtin_legal t) s hne hs] at h
        simp at h

/-- C12 for string types: a string that is not rejected is stored unchanged and
every restriction of a one-statement type holds of it. -/
theorem C12_string_partial (rx : Str → Str → Bool) (l : StrLayer) (hl : LegalLayer l)
    (hp : l.SinglePattern) (s : Str) (hs : s.length < 2 ^ 53) (x : PyVal)
    (h : setLeaf rx (genRTy (.base .str) l.patterns (l.length.map rangeText) none) (.str s) = .ok x) :
    x = .str s ∧ l.Allows (fun p s => patTest rx p s = true) s := by
  have e := dyn_str rx [l] (by simpa using hl) s hs
  simp only [strTower] at e
  have hx : x = .str s := by
    rw [e] at h; split at h
    · simpa using h.symm
    · simp at h
  subst hx
  exact ⟨rfl, (C11_pattern_and_length_partial rx l hl hp s hs).1 h⟩

example : ∃ x, setLeaf (fun _ _ => true) IntTy.uint8.rty (.str py!"7") = .ok x := ⟨_, rfl⟩

/-- C12 is false: `None` assigned to a `uint8 { range "1..10" }` leaf stores 0. -/
theorem C12_none_refuted :
    setLeaf (fun _ _ => true) (genRTy IntTy.uint8.rty [] none (some py!"1..10")) .none = .ok (.int 0) := by
  decide

/-- C12 is false: so does any text that is not a number, for every integer type with
a range of its own. -/
theorem C12_text_refuted (rx : Str → Str → Bool) (t : IntTy) (lo hi : Int)
    (hb : builtinBounds t.name = some (lo, hi)) (ws : List WrittenPart) (hne : ws ≠ [])
    (hw : BoundsWithin lo hi ws) (hs : ∀ w ∈ ws, ∀ m, w.part = .single m → m.natAbs < 2 ^ 53)
    (s : Str) (hs0 : s ≠ []) (hbad : intOfStr s = .error .valueError) :
    setLeaf rx (genRTy t.rty [] none (some (rangeText ws))) (.str s) = .ok (.int 0) := by
  obtain ⟨e, hl⟩ := range_chain t lo hi hb ws hne hw hs
  rw [e]
  have F := towerFacts rx _ hl
  have Fr := towerFacts rx _ hl.2.2.2
  have hnew1 := single_tower_str_new rx _ (builtin_legal t) s hs0 hbad
  have hm : (genSpecs (rangeText ws)).mapM
      (buildChk fun v => ((towerOf [[builtinPart t]]).cls rx).call (some v)) =
        .ok (ws.map fun w => chkOf w.part) :=
    build_layer _ ws hne (fun w hw' b hbm => Fr.callOk _ _ (isNum_intStr b) (hl.2.1 w hw' b hbm))
  have hnew : ((towerOf [ws, [builtinPart t]]).cls rx).new (some (.str s)) = .error .typeError := by
    rw [towerOf]
    simp only [RTy.cls, Option.getD_some]
    rw [buildTests_range_fail _ ws (.str s) .typeError hm (by simpa [PyVal.truthy] using hs0)
      (call_of_new_error hnew1)]
    rfl
  have hc := call_of_new_error hnew1
  simp only [setLeaf, dynLeaf, hnew, F.newNone]
  rw [towerOf]
  simp only [RTy.init, initCheck, bind, Except.bind, hc]
  rfl

example : intOfStr py!"ten" = .error .valueError := by decide

/-- C12 is false: the integer 5 assigned to a `string { length "1..5" }` leaf stores
the empty string. -/
theorem C12_length_refuted :
    setLeaf (fun _ _ => true) (genRTy (.base .str) [] (some py!"1..5") none) (.int 5) = .ok (.str []) := by
  decide

end Pyb
