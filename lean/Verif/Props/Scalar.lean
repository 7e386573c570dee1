import Verif.Lemmas.Scalar

/-! # C14-C20, C62, C63: scalar types -/

namespace Pyb
open Py Spec

/-! ## C14, C62: enumeration values -/

/-- C14: for every enumeration with distinct explicit values (names not starting
with '@'), in any mixture of explicit and implicit values: the enums keep their
names and order, an explicit value is the one reported, and no two values are equal. -/
theorem C14_enum_values (es : List (Str × Option Int))
    (hat : ∀ e ∈ es, startsWith e.1 py!"@" = false)
    (hd : (es.filterMap fun e => e.2).Nodup) :
    (enumValues es).map Prod.fst = es.map Prod.fst ∧
    (∀ k v, (k, some v) ∈ es → (k, v) ∈ enumValues es) ∧
    ((enumValues es).map Prod.snd).Nodup := by
  have hf : (es.filter fun e => !startsWith e.1 py!"@") = es := by
    rw [List.filter_eq_self]; intro e he; simp [hat e he]
  simp only [enumValues, hf]
  exact ⟨fillLoop_names _ _ _, fun k v h => fillLoop_explicit _ _ _ h,
    fillLoop_nodup _ _ _ (fun v h => h) hd⟩

example : enumValues [(py!"a", none), (py!"b", some 1), (py!"c", none), (py!"d", some (-4)), (py!"e", none)]
    = [(py!"a", 0), (py!"b", 1), (py!"c", 3), (py!"d", -4), (py!"e", 5)] := by decide

/-- C62: an enumeration without explicit values is numbered 0, 1, 2, ... as the RFC
says.  Missing: lists with explicit values, see `C62_rfc_numbering_refuted`. -/
theorem C62_rfc_numbering_partial (names : List Str) (hat : ∀ n ∈ names, startsWith n py!"@" = false) :
    enumValues (names.map fun n => (n, none)) = rfcEnumValues none (names.map fun n => (n, none)) := by
  have hf : ((names.map fun n => (n, (none : Option Int))).filter fun e => !startsWith e.1 py!"@") =
      names.map fun n => (n, none) := by
    rw [List.filter_eq_self]; intro e he
    rw [List.mem_map] at he; obtain ⟨n, hn, rfl⟩ := he
    simp [hat n hn]
  simp only [enumValues, hf]
  have hu : ((names.map fun n => (n, (none : Option Int))).filterMap fun e => e.2) = [] := by
    clear hat hf; induction names with
    | nil => rfl
    | cons a b ih => simp
  rw [hu]
  clear hat hf hu
  cases names with
  | nil => rfl
  | cons a b =>
    simp only [List.map_cons, fillLoop, List.length_nil, skipUsed, rfcEnumValues, Option.getD_none]
    congr 1
    have gen : ∀ (l : List Str) (h : Int), fillLoop [] (h + 1) (l.map fun n => (n, none)) =
        rfcEnumValues (some h) (l.map fun n => (n, none)) := by
      intro l
      induction l with
      | nil => intro h; rfl
      | cons x xs ih =>
        intro h
        simp only [List.map_cons, fillLoop, List.length_nil, skipUsed, rfcEnumValues, Option.getD_none]
        rw [ih (h + 1), show max h (h + 1) = h + 1 by omega]
    exact gen b 0

/-- C62 is false with explicit values: `enum a { value 5; } enum b;` gives b the value
1 where the RFC says 6. -/
theorem C62_rfc_numbering_refuted :
    enumValues [(py!"a", some 5), (py!"b", none)] = [(py!"a", 5), (py!"b", 1)] ∧
    rfcEnumValues none [(py!"a", some 5), (py!"b", none)] = [(py!"a", 5), (py!"b", 6)] := by decide

/-! ## C15: members of enumerations and identityrefs -/

theorem enum_call (rx : Str → Str → Bool) (names : List Str) (v : PyVal) :
    setLeaf rx (enumTy names) v =
      if (names.filter fun k => !startsWith k py!"@").contains v.toStr = true
      then .ok (.str v.toStr) else .error .valueError := by
  have hb : ∀ w, buildTests (fun v => ((RTy.base .str).cls rx).call (some v)) [.dictKey names] w =
      .ok ([.dictKey (names.filter fun k => !startsWith k py!"@")], w) := fun w => rfl
  generalize hk : names.filter (fun k => !startsWith k py!"@") = keys at *
  have hinit : ∀ w : PyVal, initCheck rx ((RTy.base .str).cls rx).call [.dictKey keys] (some w) =
      if keys.contains w.toStr = true then .ok () else .error .valueError := by
    intro w
    simp only [initCheck, RTy.cls, BaseTy.conv, bind, Except.bind, allOf, Test.run, pure, Except.pure]
    rfl
  have hnew : ((enumTy names).cls rx).new (some v) =
      if v = .bool false then .ok (.str v.toStr, some [.dictKey keys])
      else if keys.contains v.toStr = true then .ok (.str v.toStr, some [.dictKey keys])
      else .error .valueError := by
    simp only [enumTy, RTy.cls, Option.getD_some] at hb ⊢
    rw [hb]
    simp only [bind, Except.bind, anyOf, Test.run, pure, Except.pure, BaseTy.conv, Except.map]
    by_cases h1 : v = .bool false
    · simp [h1]
    · by_cases h2 : keys.contains v.toStr = true
      · simp only [ne_eq, h1, not_false_eq_true, if_true, if_false, h2, Option.getD_none]
      · simp only [ne_eq, h1, not_false_eq_true, if_true, if_false, h2, Bool.not_eq_true] at *
        simp
  simp only [setLeaf, dynLeaf, hnew]
  by_cases h1 : v = .bool false
  · rw [if_pos h1]
    simp only [bind, Except.bind, enumTy, RTy.init, Option.getD_some, hinit]
    by_cases h2 : keys.contains v.toStr = true
    · simp only [h2, if_true]; rfl
    · simp only [h2]; rfl
  · rw [if_neg h1]
    by_cases h2 : keys.contains v.toStr = true
    · simp only [h2, if_true, bind, Except.bind, enumTy, RTy.init, Option.getD_some, hinit]; rfl
    · simp only [h2]; rfl

/-- C15: for every member table (no name starting with '@') and every value, the
assignment succeeds iff the text of the value is a member, and stores that text. -/
theorem C15_members_exact (rx : Str → Str → Bool) (names : List Str)
    (hat : ∀ n ∈ names, startsWith n py!"@" = false) (v : PyVal) :
    setLeaf rx (enumTy names) v =
      if v.toStr ∈ names then .ok (.str v.toStr) else .error .valueError := by
  rw [enum_call]
  have hf : (names.filter fun k => !startsWith k py!"@") = names := by
    rw [List.filter_eq_self]; intro e he; simp [hat e he]
  rw [hf]
  by_cases h : v.toStr ∈ names
  · rw [if_pos h, if_pos (by simpa using h)]
  · rw [if_neg h, if_neg (by simpa using h)]

example : setLeaf (fun _ _ => true) (enumTy [py!"up", py!"down"]) (.str py!"down") = .ok (.str py!"down") := by
  decide
example : setLeaf (fun _ _ => true) (enumTy [py!"up", py!"down"]) (.str py!"dow") = .error .valueError := by
  decide

/-- A legal enum whose name starts with '@' can never be assigned. -/
theorem C15_at_sign_refuted (rx : Str → Str → Bool) :
    setLeaf rx (enumTy [py!"@home", py!"away"]) (.str py!"@home") = .error .valueError := by
  rw [enum_call]; decide

/-! ## C16: booleans -/

theorem pyEq_int_int (a b : Int) : pyEq (.int a) (.int b) = decide (a = b) := rfl
theorem pyEq_int_bool (a : Int) (b : Bool) : pyEq (.int a) (.bool b) = decide (a = if b then 1 else 0) := rfl
theorem pyEq_int_str (a : Int) (s : Str) : pyEq (.int a) (.str s) = false := rfl
theorem pyEq_str_int (a : Int) (s : Str) : pyEq (.str s) (.int a) = false := rfl
theorem pyEq_str_bool (a : Bool) (s : Str) : pyEq (.str s) (.bool a) = false := rfl
theorem pyEq_str_str (s t : Str) : pyEq (.str s) (.str t) = decide (PyVal.str s = .str t) := rfl
theorem pyEq_seq (r n v) : pyEq (.seq r n) v = decide (PyVal.seq r n = v) := by
  cases v with
  | obj o => cases h : o.num? <;> simp [pyEq, PyVal.num?, PyVal.norm, h]
  | _ => simp [pyEq, PyVal.num?, PyVal.norm]

theorem pyEq_obj (o : PyObj) (v : PyVal) : pyEq (.obj o) v =
    match o.num?, v.num? with
    | some x, some y => decide (x = y)
    | some _, none => false
    | none, some _ => false
    | none, none => decide (PyVal.obj o.norm = v.norm) := rfl

theorem decInt_iff (x : Dec) (n : Int) : x.int? = some n ↔ DecIs x n := by
  unfold Dec.int? DecIs
  by_cases h : 0 ≤ x.exp
  · have e : (-x.exp).toNat = 0 := by omega
    simp only [h, if_true, Option.some.injEq, e, Int.pow_zero, Int.mul_one]
  · have e : x.exp.toNat = 0 := by omega
    have hp : (0 : Int) < 10 ^ (-x.exp).toNat := Int.pow_pos (by decide)
    simp only [h, if_false, e, Int.pow_zero, Int.mul_one]
    generalize (10 : Int) ^ (-x.exp).toNat = d at *
    by_cases hm : x.coef % d = 0
    · simp only [hm, if_true, Option.some.injEq]
      have := Int.mul_ediv_add_emod x.coef d
      rw [hm, Int.add_zero] at this
      constructor
      · rintro rfl; rw [Int.mul_comm]; exact this.symm
      · intro h; rw [h]; exact Int.mul_ediv_cancel _ (by omega)
    · simp only [hm, if_false]
      constructor
      · intro h; cases h
      · intro h; exact absurd (by rw [h]; exact Int.mul_emod_left _ _) hm

theorem objNum_iff (o : PyObj) (n : Int) : o.num? = some n ↔ IsInt (.obj o) n := by
  cases o with
  | dec x =>
    simp only [PyObj.num?, decInt_iff, IsInt]
  | float f r =>
    simp only [PyObj.num?, decInt_iff, IsInt]
  | bytes b => simp [PyObj.num?, IsInt]
  | bits ns => simp [PyObj.num?, IsInt]

/-- C16: a boolean leaf stores false exactly for `"false"`, `"False"`, `False`, `0`
(as an integer, a decimal or a float), `"0"`, true exactly for the counterparts, and rejects
every other value. -/
theorem C16_boolean_exact (v : PyVal) :
    (setBool v = .ok false ↔
      v = .str py!"false" ∨ v = .str py!"False" ∨ v = .bool false ∨ IsInt v 0 ∨ v = .str py!"0") ∧
    (setBool v = .ok true ↔
      v = .str py!"true" ∨ v = .str py!"True" ∨ v = .bool true ∨ IsInt v 1 ∨ v = .str py!"1") ∧
    (setBool v = .ok false ∨ setBool v = .ok true ∨ setBool v = .error .valueError) := by
  cases v with
  | none => simp only [IsInt]; decide
  | bool b => simp only [IsInt]; cases b <;> decide
  | int n =>
    simp only [setBool, yangBool, falseArgs, trueArgs, IsInt]
    by_cases h0 : n = 0
    · subst h0; decide
    · by_cases h1 : n = 1
      · subst h1; decide
      · simp [h0, h1, pyEq_int_int, pyEq_int_bool, pyEq_int_str]
  | str s =>
    simp only [setBool, yangBool, falseArgs, trueArgs, IsInt]
    by_cases h1 : s = py!"false"
    · subst h1; decide
    by_cases h2 : s = py!"False"
    · subst h2; decide
    by_cases h3 : s = py!"0"
    · subst h3; decide
    by_cases h4 : s = py!"true"
    · subst h4; decide
    by_cases h5 : s = py!"True"
    · subst h5; decide
    by_cases h6 : s = py!"1"
    · subst h6; decide
    simp [h1, h2, h3, h4, h5, h6, pyEq_str_int, pyEq_str_bool, pyEq_str_str]
  | seq r n => simp [setBool, yangBool, falseArgs, trueArgs, pyEq_seq, IsInt]
  | obj o =>
    simp only [← objNum_iff]
    cases h : o.num? with
    | none => simp [setBool, yangBool, falseArgs, trueArgs, pyEq_obj, h, PyVal.num?, PyVal.norm]
    | some n =>
      simp only [setBool, yangBool, falseArgs, trueArgs]
      by_cases h0 : n = 0
      · subst h0; simp [pyEq_obj, h, PyVal.num?]
      · by_cases h1 : n = 1
        · subst h1; simp [pyEq_obj, h, PyVal.num?]
        · simp [h0, h1, pyEq_obj, h, PyVal.num?]

/-! ## C17, C63: decimal64 -/

theorem quantize_result (x : Dec) (fd : Nat) :
    ∃ k, NearestEven k fd x.coef x.exp ∧
      quantize x fd = if k.natAbs < 10 ^ 28 then .ok ⟨k, -fd⟩ else .error .invalidOperation := by
  unfold quantize
  by_cases h : -(fd : Int) ≤ x.exp
  · refine ⟨x.coef * 10 ^ (x.exp + fd).toNat, ⟨fd, Nat.le_refl _, by omega, ?_⟩, ?_⟩
    · simp only [Nat.sub_self, Int.pow_zero, Int.mul_one, Int.sub_self, Int.natAbs_zero]
      exact ⟨by decide, by intro h; simp at h⟩
    · simp only [h, if_true]
  · refine ⟨divHalfEven x.coef (10 ^ (-(fd : Int) - x.exp).toNat), ?_, ?_⟩
    · refine ⟨(-x.exp).toNat, by omega, by omega, ?_⟩
      have e1 : (x.exp + ((-x.exp).toNat : Int)).toNat = 0 := by omega
      have e2 : (-x.exp).toNat - fd = (-(fd : Int) - x.exp).toNat := by omega
      have := divHalfEven_spec x.coef (10 ^ (-(fd : Int) - x.exp).toNat) (Nat.pow_pos (by decide))
      simp only [e1, e2, Int.pow_zero, Int.mul_one]
      simpa using this
    · simp only [h, if_false]

/-- C17: for every number of fraction digits and every decimal value, a `decimal64`
leaf without a range stores a nearest multiple of the unit, ties to even, with
exactly that many decimals; or the result would need more than 28 digits and the
assignment raises.  Missing: types with a range, see `C17_range_refuted`. -/
theorem C17_rounding_partial (fd : Nat) (x : Dec) :
    (∃ k, setDecimal fd none x = .ok ⟨k, -fd⟩ ∧ NearestEven k fd x.coef x.exp) ∨
    (setDecimal fd none x = .error .invalidOperation ∧
      ∃ k, NearestEven k fd x.coef x.exp ∧ 10 ^ 28 ≤ k.natAbs) := by
  obtain ⟨k, hk, hq⟩ := quantize_result x fd
  simp only [setDecimal]
  by_cases h : k.natAbs < 10 ^ 28
  · left; exact ⟨k, by rw [hq, if_pos h], hk⟩
  · right; exact ⟨by rw [hq, if_neg h], k, hk, by omega⟩

/-- C17: a value that already is a multiple of the unit is stored unchanged. -/
theorem C17_representable_unchanged_partial (fd : Nat) (k : Int) (hk : k.natAbs < 10 ^ 28) (s : Nat) :
    -- `k` units, written with `s` further zeros
    setDecimal fd none ⟨k * 10 ^ s, -(fd : Int) - s⟩ = .ok ⟨k, -fd⟩ := by
  simp only [setDecimal, quantize]
  have key : (if -(fd : Int) ≤ -(fd : Int) - s then k * 10 ^ s * 10 ^ (-(fd : Int) - s + fd).toNat
      else divHalfEven (k * 10 ^ s) (10 ^ (-(fd : Int) - (-(fd : Int) - s)).toNat)) = k := by
    by_cases h : s = 0
    · subst h; simp [Int.add_left_neg]
    · rw [if_neg (by omega), show (-(fd : Int) - (-(fd : Int) - s)).toNat = s by omega]
      have hp : (0 : Int) < 10 ^ s := Int.pow_pos (by decide)
      simp only [divHalfEven, Int.natCast_pow]
      rw [show ((10 : Nat) : Int) = 10 from rfl]
      rw [Int.mul_ediv_cancel _ (by omega), Int.mul_emod_left]
      rw [if_pos (by omega)]
  rw [key, if_pos hk]

example : setDecimal 2 none ⟨12345, -3⟩ = .ok ⟨1234, -2⟩ := by decide
example : setDecimal 2 none ⟨12355, -3⟩ = .ok ⟨1236, -2⟩ := by decide
example : setDecimal 2 none ⟨-1, 1⟩ = .ok ⟨-1000, -2⟩ := by decide

/-- C17 is false for a `decimal64` with a range: no rounding takes place. -/
theorem C17_range_refuted :
    setDecimal 2 (some fun _ => true) ⟨123456, -5⟩ = .ok ⟨123456, -5⟩ := by decide

/-- C63 is false: a `decimal64` leaf takes values outside the 64-bit range. -/
theorem C63_decimal64_bounds_refuted :
    setDecimal 1 none ⟨2 ^ 63, -1⟩ = .ok ⟨2 ^ 63, -1⟩ := by decide

/-- C63: what holds is a bound of 28 digits. -/
theorem C63_decimal64_bounds_partial (fd : Nat) (x y : Dec) (h : setDecimal fd none x = .ok y) :
    y.coef.natAbs < 10 ^ 28 ∧ y.exp = -fd := by
  obtain ⟨k, _, hq⟩ := quantize_result x fd
  simp only [setDecimal] at h
  rw [hq] at h
  split at h
  · next hk => simp only [Except.ok.injEq] at h; subst h; exact ⟨hk, rfl⟩
  · simp at h

/-! ## C18: binary -/

/-- C18: for every byte string, assigning its serialised text to a binary leaf gives
the same bytes. -/
theorem C18_base64_roundtrip (bs : List Nat) (h : ∀ b ∈ bs, b < 256) :
    yangBinary (.text (dumpBinary bs)) = .ok bs := b64_roundtrip bs h

example : dumpBinary [77, 97, 110, 33] = py!"TWFuIQ==" := by decide

/-! ## C19: bits -/

/-- C19: whatever the history of assignments, additions and removals, a bits value
holds only declared bits, each at most once. -/
theorem C19_only_declared (allowed : List (Str × Str)) (ops : List BitOp) :
    (∀ b ∈ bitRun allowed [] ops, b ∈ allowed.map Prod.fst) ∧ (bitRun allowed [] ops).Nodup := by
  suffices h : ∀ s, BitInv allowed s → BitInv allowed (bitRun allowed s ops) by
    have := h [] ⟨by simp, by simp⟩
    exact ⟨this.declared, this.nodup⟩
  induction ops with
  | nil => intro s h; exact h
  | cons op ops ih =>
    intro s h
    simp only [bitRun]
    apply ih
    cases hs : bitStep allowed s op with
    | ok s' => exact bitStep_inv h hs
    | error e => exact h

/-- C19: adding or assigning an undeclared bit raises `ValueError`. -/
theorem C19_undeclared_rejected (allowed : List (Str × Str)) (s : BitSet) (b : Str)
    (hb : b ∉ allowed.map Prod.fst) :
    bitStep allowed s (.add b) = .error .valueError ∧
    (∀ t, b ∈ words t → bitStep allowed s (.assign t) = .error .valueError) := by
  refine ⟨by simp [bitStep, bitAdd, hb], ?_⟩
  intro t ht
  simp only [bitStep]
  generalize words t = ws at ht
  generalize ([] : BitSet) = s0
  induction ws generalizing s0 with
  | nil => simp at ht
  | cons w ws ih =>
    simp only [bitAddAll, bind, Except.bind, bitAdd]
    by_cases hw : w ∈ allowed.map Prod.fst
    · simp only [List.mem_cons] at ht
      rcases ht with rfl | ht
      · exact absurd hw hb
      · simp only [hw, if_true]; exact ih ht _
    · simp [hw]

/-- C19: assigning the text of a value gives a value with the same bits.  `order` is
any order in which Python may iterate over the set. -/
theorem C19_text_roundtrip (allowed : List (Str × Str))
    (hnames : ∀ a ∈ allowed, a.1 ≠ [] ∧ ∀ c ∈ a.1, isSpace c = false)
    (order : List Str) (hd : ∀ b ∈ order, b ∈ allowed.map Prod.fst) (hn : order.Nodup) (s : BitSet) :
    ∃ s', bitStep allowed s (.assign (bitText allowed order)) = .ok s' ∧ s'.Perm order := by
  have hp := sortBy_perm (fun b => (allowed.lookup b).getD []) order
  refine ⟨sortBy (fun b => (allowed.lookup b).getD []) order, ?_, hp⟩
  have hmem : ∀ b ∈ sortBy (fun b => (allowed.lookup b).getD []) order, b ∈ allowed.map Prod.fst :=
    fun b hb => hd b (hp.mem_iff.1 hb)
  simp only [bitStep, bitText]
  rw [words_join]
  · rw [bitAddAll_ok allowed _ [] hmem (by simpa using hp.nodup_iff.2 hn)]; simp
  · intro w hw
    have := hmem w hw
    rw [List.mem_map] at this
    obtain ⟨a, ha, rfl⟩ := this
    exact hnames a ha

/-- C19: the text does not depend on the iteration order of the set. -/
theorem C19_text_deterministic (allowed : List (Str × Str)) (o o' : List Str) (hp : o.Perm o')
    (hinj : ∀ a ∈ o, ∀ b ∈ o, (allowed.lookup a).getD [] = (allowed.lookup b).getD [] → a = b) :
    bitText allowed o = bitText allowed o' := by
  simp only [bitText]
  congr 1
  apply sorted_unique (fun b => (allowed.lookup b).getD [])
  · exact (sortBy_perm _ o).trans (hp.trans (sortBy_perm _ o').symm)
  · exact sortBy_sorted _ _
  · exact sortBy_sorted _ _
  · intro a ha b hb
    exact hinj a ((sortBy_perm _ o).mem_iff.1 ha) b ((sortBy_perm _ o).mem_iff.1 hb)

theorem lookup_positions (decl : List (Str × Nat)) (hn : (decl.map Prod.fst).Nodup) {b p}
    (h : (b, p) ∈ decl) : (decl.map fun d => (d.1, natStr d.2)).lookup b = some (natStr p) := by
  induction decl with
  | nil => simp at h
  | cons d ds ih =>
    simp only [List.map_cons, List.nodup_cons] at hn
    simp only [List.mem_cons] at h
    simp only [List.map_cons, List.lookup_cons]
    rcases h with rfl | h
    · simp
    · have : b ≠ d.1 := by
        intro he; apply hn.1; rw [← he]; exact List.mem_map.2 ⟨_, h, rfl⟩
      have hbeq : (b == d.1) = false := by simpa using this
      rw [hbeq]; exact ih hn.2 h

/-- C19: when all positions have the same number of digits (for instance at most ten
bits), the bits are listed in order of their positions.  Missing: other positions,
see `C19_position_order_refuted`. -/
theorem C19_position_order_partial (decl : List (Str × Nat)) (hn : (decl.map Prod.fst).Nodup)
    (len : Nat) (hlen : ∀ d ∈ decl, (natStr d.2).length = len)
    (hpos : ∀ d ∈ decl, ∀ e ∈ decl, d.2 = e.2 → d.1 = e.1)
    (pos : Str → Nat) (hp : ∀ d ∈ decl, pos d.1 = d.2)
    (order : List Str) (ho : ∀ b ∈ order, b ∈ decl.map Prod.fst) (hno : order.Nodup) :
    ∃ l, bitText (decl.map fun d => (d.1, natStr d.2)) order = join py!" " l ∧ l.Perm order ∧
      ByPosition pos l := by
  refine ⟨_, rfl, sortBy_perm _ _, ?_⟩
  have hs := sortBy_sorted (fun b => ((decl.map fun d => (d.1, natStr d.2)).lookup b).getD []) order
  have hperm := sortBy_perm (fun b => ((decl.map fun d => (d.1, natStr d.2)).lookup b).getD []) order
  have hnod := hperm.nodup_iff.2 hno
  have hmem : ∀ b ∈ sortBy (fun b => ((decl.map fun d => (d.1, natStr d.2)).lookup b).getD []) order,
      (b, pos b) ∈ decl := by
    intro b hb
    have := ho b (hperm.mem_iff.1 hb)
    rw [List.mem_map] at this
    obtain ⟨d, hd, rfl⟩ := this
    rw [hp d hd]; exact hd
  revert hs hnod hmem
  generalize sortBy (fun b => ((decl.map fun d => (d.1, natStr d.2)).lookup b).getD []) order = l
  intro hs hnod hmem
  induction l with
  | nil => trivial
  | cons a as ih =>
    cases as with
    | nil => trivial
    | cons b bs =>
      simp only [SortedBy, List.pairwise_cons] at hs
      refine ⟨?_, ih (by simpa [SortedBy] using hs.2) (List.nodup_cons.1 hnod).2 (fun x hx => hmem x (by simp [hx]))⟩
      have hab := hs.1 b (by simp)
      have ha := hmem a (by simp)
      have hb := hmem b (by simp)
      rw [lookup_positions decl hn ha, lookup_positions decl hn hb] at hab
      have hle := strLe_digits (by rw [hlen _ ha, hlen _ hb]) (natStr_digits _) (natStr_digits _) hab
      simp only [digitsVal, natStr_value] at hle
      have hne : pos a ≠ pos b := by
        intro he
        have : a = b := hpos _ ha _ hb he
        subst this
        exact (List.nodup_cons.1 hnod).1 (by simp)
      omega

example : bitText [(py!"b0", py!"0"), (py!"b2", py!"2"), (py!"b1", py!"1")] [py!"b2", py!"b0", py!"b1"]
    = py!"b0 b1 b2" := by decide

/-- C19's position order is false in general: positions are compared as texts, so
position 10 comes before position 2. -/
theorem C19_position_order_refuted :
    genBits [(py!"two", some py!"2"), (py!"ten", some py!"10")] [] =
      .ok [(py!"two", py!"2"), (py!"ten", py!"10")] ∧
    bitText [(py!"two", py!"2"), (py!"ten", py!"10")] [py!"two", py!"ten"] = py!"ten two" := by decide

/-- A `bits` type with a bit that has no `position` statement cannot be generated. -/
theorem C19_missing_position_refuted (pre : List (Str × Str)) (n : Str) (rest : List (Str × Option Str)) :
    ∃ e, genBits (pre.map (fun p => (p.1, some p.2)) ++ (n, none) :: rest) [] = .error e := by
  have : ∀ (pre : List (Str × Str)) acc,
      ∃ e, genBits (pre.map (fun p => (p.1, some p.2)) ++ (n, none) :: rest) acc = .error e := by
    intro pre
    induction pre with
    | nil => intro acc; exact ⟨_, rfl⟩
    | cons p ps ih => intro acc; simp only [List.map_cons, List.cons_append, genBits]; exact ih _
  exact this pre []

/-! ## C20: unions -/

theorem dyn_of_call (rx : Str → Str → Bool) (t : LeafTy) (v x : PyVal) (h : t.call rx v = .ok x) :
    t.dyn rx v = .ok x := by
  cases t with
  | bool => exact h
  | ext y =>
    simp only [LeafTy.call] at h
    simp only [LeafTy.dyn, ExtTy.dyn, h]
  | restr T =>
    simp only [LeafTy.call] at h
    simp only [LeafTy.dyn]
    have hnew : ∃ tt, (T.cls rx).new (some v) = .ok (x, tt) := by
      cases T with
      | base b =>
        simp only [RTy.cls] at h ⊢
        exact ⟨none, by rw [h]; rfl⟩
      | restr inner rs =>
        have h : (do
            let (o, t) ← (RTy.cls rx (.restr inner rs)).new (some v)
            initCheck rx (inner.cls rx).call (t.getD []) (some v)
            pure o) = Except.ok x := h
        revert h
        generalize (RTy.cls rx (.restr inner rs)).new (some v) = r
        intro h
        cases r with
        | error e => simp [bind, Except.bind] at h
        | ok p =>
          obtain ⟨o, tt⟩ := p
          simp only [bind, Except.bind] at h
          split at h
          · simp at h
          · simp only [pure, Except.pure, Except.ok.injEq] at h
            subst h; exact ⟨tt, rfl⟩
    obtain ⟨tt, hnew⟩ := hnew
    have := setLeaf_of_new rx T v hnew
    rw [h] at this
    simp only [setLeaf] at this
    split at this
    · simp at this
    · exact this

/-- C20: for every list of member types and every value: either some member accepts
the value, all earlier ones reject it, and the leaf stores what that member makes of
it; or all reject it and the assignment raises `ValueError`. -/
theorem C20_union_first_match (rx : Str → Str → Bool) (ts : List LeafTy) (v : PyVal) :
    (∃ pre t post x, ts = pre ++ t :: post ∧ (∀ u ∈ pre, ∃ e, u.call rx v = .error e) ∧
      t.call rx v = .ok x ∧ setUnion rx ts v = .ok x) ∨
    ((∀ u ∈ ts, ∃ e, u.call rx v = .error e) ∧ setUnion rx ts v = .error .valueError) := by
  have key : ∀ ts : List LeafTy,
      (∃ pre t post x, ts = pre ++ t :: post ∧ (∀ u ∈ pre, ∃ e, u.call rx v = .error e) ∧
        t.call rx v = .ok x ∧
        ts.find? (fun t => (t.call rx v).toBool) = some t) ∨
      ((∀ u ∈ ts, ∃ e, u.call rx v = .error e) ∧
        ts.find? (fun t => (t.call rx v).toBool) = none) := by
    intro ts
    induction ts with
    | nil => right; simp
    | cons t ts ih =>
      cases ht : t.call rx v with
      | ok x => left; exact ⟨[], t, ts, x, rfl, by simp, ht, by rw [List.find?_cons, ht]; rfl⟩
      | error e =>
        rcases ih with ⟨pre, u, post, x, h1, h2, h3, h4⟩ | ⟨h1, h2⟩
        · left
          refine ⟨t :: pre, u, post, x, by simp [h1], ?_, h3, by rw [List.find?_cons, ht]; exact h4⟩
          intro w hw; simp only [List.mem_cons] at hw
          rcases hw with rfl | hw
          · exact ⟨e, ht⟩
          · exact h2 w hw
        · right
          refine ⟨?_, by rw [List.find?_cons, ht]; exact h2⟩
          intro w hw; simp only [List.mem_cons] at hw
          rcases hw with rfl | hw
          · exact ⟨e, ht⟩
          · exact h1 w hw
  rcases key ts with ⟨pre, t, post, x, h1, h2, h3, h4⟩ | ⟨h1, h2⟩
  · left
    refine ⟨pre, t, post, x, h1, h2, h3, ?_⟩
    unfold setUnion
    rw [h4]
    simp only [dyn_of_call rx t v x h3]
  · right
    exact ⟨h1, by unfold setUnion; rw [h2]⟩

example : setUnion (fun _ _ => true) [.restr IntTy.uint8.rty, .restr (enumTy [py!"auto"]), .bool] (.str py!"auto")
    = .ok (.str py!"auto") := by decide
example : setUnion (fun _ _ => true) [.restr IntTy.uint8.rty, .restr (enumTy [py!"auto"]), .bool] (.str py!"1")
    = .ok (.int 1) := by decide
example : setUnion (fun _ _ => true) [.restr IntTy.uint8.rty, .bool] (.int 256) = .error .valueError := by decide

end Pyb
