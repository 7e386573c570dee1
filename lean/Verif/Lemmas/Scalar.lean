import Verif.Model.Scalar
import Verif.Spec.Scalar
import Verif.Lemmas.Restricted

namespace Pyb
open Py Spec

/-! ## Enumerations -/

theorem skipUsed_ge (used : List Int) : ∀ f c, c ≤ skipUsed used f c
  | 0, c => by simp [skipUsed]
  | f + 1, c => by
    simp only [skipUsed]
    split
    · have := skipUsed_ge used f (c + 1); omega
    · omega

theorem skipUsed_not_mem (used : List Int) :
    ∀ f c, (used.filter fun x => decide (c ≤ x)).length ≤ f → skipUsed used f c ∉ used
  | 0, c, h => by
    simp only [skipUsed]
    intro hm
    have : c ∈ used.filter fun x => decide (c ≤ x) := by simp [hm]
    have := List.length_pos_of_mem this
    omega
  | f + 1, c, h => by
    simp only [skipUsed]
    split
    · next hm =>
      apply skipUsed_not_mem
      have hlt : (used.filter fun x => decide (c + 1 ≤ x)).length <
          (used.filter fun x => decide (c ≤ x)).length := by
        clear h
        induction used with
        | nil => simp at hm
        | cons y ys ih =>
          have hle : (ys.filter fun x => decide (c + 1 ≤ x)).length ≤
              (ys.filter fun x => decide (c ≤ x)).length := by
            clear ih hm
            induction ys with
            | nil => simp
            | cons z zs ihz =>
              simp only [List.filter_cons]
              by_cases h1 : c + 1 ≤ z
              · have h2 : c ≤ z := by omega
                simp [h1, h2, ihz]
              · by_cases h2 : c ≤ z
                · simp only [h1, h2, decide_false, decide_true, Bool.false_eq_true, if_false, if_true,
                    List.length_cons]; omega
                · simp [h1, h2, ihz]
          simp only [List.mem_cons] at hm
          simp only [List.filter_cons]
          by_cases hy : y = c
          · subst hy
            have h1 : ¬ (y + 1 ≤ y) := by omega
            simp only [h1, decide_false, Bool.false_eq_true, if_false, Int.le_refl, decide_true,
              if_true, List.length_cons]
            omega
          · have hm' : c ∈ ys := by
              rcases hm with h | h
              · exact absurd h.symm hy
              · exact h
            have := ih hm'
            by_cases h1 : c + 1 ≤ y
            · have h2 : c ≤ y := by omega
              simp only [h1, h2, decide_true, if_true, List.length_cons]; omega
            · have h2 : ¬ c ≤ y := by omega
              simp only [h1, h2, decide_false, Bool.false_eq_true, if_false]; omega
      omega
    · next hm => exact hm

theorem skipUsed_fresh (used : List Int) (c : Int) : skipUsed used used.length c ∉ used :=
  skipUsed_not_mem used _ c (List.length_filter_le _ _)

/-- Facts about the loop: names kept in order, explicit values kept, fresh values
not used and increasing. -/
theorem fillLoop_names (used c) (es : List (Str × Option Int)) :
    (fillLoop used c es).map Prod.fst = es.map Prod.fst := by
  induction es generalizing c with
  | nil => rfl
  | cons e es ih => obtain ⟨k, v⟩ := e; simp [fillLoop, ih]

theorem fillLoop_explicit (used c) (es : List (Str × Option Int)) {k v}
    (h : (k, some v) ∈ es) : (k, v) ∈ fillLoop used c es := by
  induction es generalizing c with
  | nil => simp at h
  | cons e es ih =>
    obtain ⟨k', v'⟩ := e
    simp only [List.mem_cons, Prod.mk.injEq] at h
    simp only [fillLoop, List.mem_cons, Prod.mk.injEq]
    rcases h with ⟨rfl, h⟩ | h
    · left; refine ⟨rfl, ?_⟩; rw [← h]; rfl
    · right; exact ih _ h

/-- Every value of the result is explicit in the list or fresh and at least `c`. -/
theorem fillLoop_values (used c) (es : List (Str × Option Int)) {x}
    (h : x ∈ (fillLoop used c es).map Prod.snd) :
    x ∈ es.filterMap (fun e => e.2) ∨ (x ∉ used ∧ c ≤ x) := by
  induction es generalizing c with
  | nil => simp [fillLoop] at h
  | cons e es ih =>
    obtain ⟨k, v⟩ := e
    simp only [fillLoop, List.map_cons, List.mem_cons] at h
    rcases h with h | h
    · cases v with
      | some v => left; simp at h; simp [h]
      | none =>
        right
        simp only [Option.getD_none] at h
        subst h
        exact ⟨skipUsed_fresh _ _, skipUsed_ge _ _ _⟩
    · rcases ih _ h with h | ⟨h1, h2⟩
      · left
        cases v with
        | none => simpa using h
        | some v => simp only [List.filterMap_cons]; exact List.mem_cons_of_mem _ h
      · right
        refine ⟨h1, ?_⟩
        have := skipUsed_ge used used.length c
        omega

theorem fillLoop_nodup (used c) (es : List (Str × Option Int))
    (hu : ∀ v, v ∈ es.filterMap (fun e => e.2) → v ∈ used)
    (hn : (es.filterMap fun e => e.2).Nodup) : ((fillLoop used c es).map Prod.snd).Nodup := by
  induction es generalizing c with
  | nil => simp [fillLoop]
  | cons e es ih =>
    obtain ⟨k, v⟩ := e
    simp only [fillLoop, List.map_cons, List.nodup_cons]
    constructor
    · intro h
      rcases fillLoop_values used _ es h with h | ⟨h1, h2⟩
      · cases v with
        | some v =>
          simp only [Option.getD_some] at h
          simp only [List.filterMap_cons, List.nodup_cons] at hn
          exact hn.1 h
        | none =>
          simp only [Option.getD_none] at h
          exact skipUsed_fresh used c (hu _ (by simpa using h))
      · cases v with
        | some v =>
          simp only [Option.getD_some] at h1
          exact h1 (hu v (by simp))
        | none =>
          simp only [Option.getD_none] at h2
          omega
    · apply ih
      · intro v' hv'; apply hu; cases v with
        | none => simpa using hv'
        | some v => simp only [List.filterMap_cons]; exact List.mem_cons_of_mem _ hv'
      · cases v with
        | none => simpa using hn
        | some v => simp only [List.filterMap_cons, List.nodup_cons] at hn; exact hn.2

/-! ## Base64 -/

theorem b64Val_char : ∀ n : Fin 64, b64Val (b64Char n.val) = some n.val := by decide
theorem b64Char_ne_pad : ∀ n : Fin 64, b64Char n.val ≠ '=' := by decide

theorem b64loop_char {n : Nat} (h : n < 64) (q left pads : Nat) (cs : Str) :
    b64loop q left pads (b64Char n :: cs) =
      if q = 0 then b64loop 1 n 0 cs
      else if q = 1 then (b64loop 2 (n % 16) 0 cs).map ((left * 4 + n / 16) % 256 :: ·)
      else if q = 2 then (b64loop 3 (n % 4) 0 cs).map ((left * 16 + n / 4) % 256 :: ·)
      else (b64loop 0 0 0 cs).map ((left * 64 + n) % 256 :: ·) := by
  have h1 := b64Val_char ⟨n, h⟩
  have h2 := b64Char_ne_pad ⟨n, h⟩
  simp only at h1 h2
  rw [b64loop, if_neg h2, h1]

theorem b64loop_roundtrip : ∀ bs : List Nat, (∀ b ∈ bs, b < 256) → b64loop 0 0 0 (b64encode bs) = .ok bs
  | [], _ => rfl
  | [a], h => by
    have ha : a < 256 := h a (by simp)
    simp only [b64encode]
    rw [b64loop_char (by omega), if_pos rfl, b64loop_char (by omega), if_neg (by omega), if_pos rfl]
    have : b64loop 2 (a % 4 * 16 % 16) 0 ['=', '='] = .ok [] := by
      simp [b64loop]
    rw [this]
    simp only [Except.map]
    congr 2; omega
  | [a, b], h => by
    have ha : a < 256 := h a (by simp)
    have hb : b < 256 := h b (by simp)
    simp only [b64encode]
    rw [b64loop_char (by omega), if_pos rfl, b64loop_char (by omega), if_neg (by omega), if_pos rfl,
      b64loop_char (by omega), if_neg (by omega), if_neg (by omega), if_pos rfl]
    have : b64loop 3 (b % 16 * 4 % 4) 0 ['='] = .ok [] := by simp [b64loop]
    rw [this]
    simp only [Except.map]
    congr 2
    · omega
    · congr 1; omega
  | a :: b :: c :: rest, h => by
    have ha : a < 256 := h a (by simp)
    have hb : b < 256 := h b (by simp)
    have hc : c < 256 := h c (by simp)
    have ih := b64loop_roundtrip rest (fun x hx => h x (by simp [hx]))
    simp only [b64encode]
    rw [b64loop_char (by omega), if_pos rfl, b64loop_char (by omega), if_neg (by omega), if_pos rfl,
      b64loop_char (by omega), if_neg (by omega), if_neg (by omega), if_pos rfl,
      b64loop_char (by omega), if_neg (by omega), if_neg (by omega), if_neg (by omega), ih]
    simp only [Except.map]
    congr 2
    · omega
    · congr 1
      · omega
      · congr 1; omega

theorem b64Char_ascii (n : Nat) : (b64Char n).toNat < 128 := by
  have h1 : ∀ c ∈ b64Alphabet, c.toNat < 128 := by decide
  simp only [b64Char, List.getD_eq_getElem?_getD]
  cases h : b64Alphabet[n]? with
  | none => decide
  | some c => exact h1 c (List.mem_of_getElem? h)

theorem b64encode_ascii : ∀ bs : List Nat, (b64encode bs).all (fun c => decide (c.toNat < 128)) = true
  | [] => rfl
  | [a] => by simp [b64encode, b64Char_ascii]
  | [a, b] => by simp [b64encode, b64Char_ascii]
  | a :: b :: c :: rest => by
    have := b64encode_ascii rest
    simp only [b64encode, List.all_cons, b64Char_ascii, decide_true, Bool.true_and, this]

theorem b64encode_length : ∀ bs : List Nat, (b64encode bs).length = 4 * ((bs.length + 2) / 3)
  | [] => rfl
  | [a] => by simp [b64encode]
  | [a, b] => by simp [b64encode]
  | a :: b :: c :: rest => by
    have := b64encode_length rest
    simp only [b64encode, List.length_cons, this]
    omega

theorem b64_roundtrip (bs : List Nat) (h : ∀ b ∈ bs, b < 256) : b64decode (b64encode bs) = .ok bs := by
  simp only [b64decode, b64encode_ascii, if_true, b64loop_roundtrip bs h]

/-! ## Decimals -/

theorem divHalfEven_spec (m : Int) (d : Nat) (hd : 0 < d) :
    2 * ((m - divHalfEven m d * d).natAbs : Int) ≤ d ∧
    (2 * ((m - divHalfEven m d * d).natAbs : Int) = d → divHalfEven m d % 2 = 0) := by
  have h0 : (0 : Int) ≤ m % d := Int.emod_nonneg _ (by omega)
  have h1 : m % (d : Int) < d := Int.emod_lt_of_pos _ (by omega)
  have h2 : m = (d : Int) * (m / d) + m % d := (Int.mul_ediv_add_emod m d).symm
  simp only [divHalfEven]
  generalize hq : m / (d : Int) = q at *
  generalize hr : m % (d : Int) = r at *
  have e1 : m - q * d = r := by rw [h2, Int.mul_comm]; omega
  have e2 : m - (q + 1) * d = r - d := by rw [Int.add_mul]; omega
  split
  · rw [e1]; omega
  · split
    · rw [e2]; omega
    · split
      · rw [e1]; omega
      · rw [e2]; omega

/-! ## Bits -/

theorem strLe_total : ∀ a b : Str, strLe a b = true ∨ strLe b a = true
  | [], _ => .inl (by simp [strLe])
  | _ :: _, [] => .inr (by simp [strLe])
  | a :: as, b :: bs => by
    simp only [strLe, Bool.or_eq_true, decide_eq_true_eq, Bool.and_eq_true, beq_iff_eq]
    rcases strLe_total as bs with h | h <;> simp [h] <;> omega

theorem strLe_trans : ∀ {a b c : Str}, strLe a b = true → strLe b c = true → strLe a c = true
  | [], _, _, _, _ => by simp [strLe]
  | _ :: _, [], _, h, _ => by simp [strLe] at h
  | _ :: _, _ :: _, [], _, h => by simp [strLe] at h
  | a :: as, b :: bs, c :: cs, h1, h2 => by
    simp only [strLe, Bool.or_eq_true, decide_eq_true_eq, Bool.and_eq_true, beq_iff_eq] at *
    rcases h1 with h1 | ⟨h1, h1'⟩ <;> rcases h2 with h2 | ⟨h2, h2'⟩
    · left; omega
    · left; omega
    · left; omega
    · right; exact ⟨by omega, strLe_trans h1' h2'⟩

theorem toNat_inj {a b : Char} (h : a.toNat = b.toNat) : a = b := by
  apply Char.ext; exact UInt32.toNat_inj.1 h

theorem strLe_antisymm : ∀ {a b : Str}, strLe a b = true → strLe b a = true → a = b
  | [], [], _, _ => rfl
  | [], _ :: _, _, h => by simp [strLe] at h
  | _ :: _, [], h, _ => by simp [strLe] at h
  | a :: as, b :: bs, h1, h2 => by
    simp only [strLe, Bool.or_eq_true, decide_eq_true_eq, Bool.and_eq_true, beq_iff_eq] at *
    rcases h1 with h1 | ⟨h1, h1'⟩ <;> rcases h2 with h2 | ⟨h2, h2'⟩
    · omega
    · omega
    · omega
    · rw [toNat_inj h1, strLe_antisymm h1' h2']

theorem insertBy_perm {α : Type} (key : α → Str) (x : α) (l : List α) : (insertBy key x l).Perm (x :: l) := by
  induction l with
  | nil => exact .refl _
  | cons y ys ih =>
    simp only [insertBy]
    split
    · exact .refl _
    · exact (ih.cons y).trans (.swap x y ys)

theorem sortBy_perm {α : Type} (key : α → Str) (l : List α) : (sortBy key l).Perm l := by
  induction l with
  | nil => exact .refl _
  | cons x xs ih => exact (insertBy_perm key x _).trans (ih.cons x)

def SortedBy {α : Type} (key : α → Str) (l : List α) : Prop :=
  l.Pairwise fun a b => strLe (key a) (key b) = true

theorem insertBy_sorted {α : Type} (key : α → Str) (x : α) (l : List α) (h : SortedBy key l) :
    SortedBy key (insertBy key x l) := by
  induction l with
  | nil => simp [insertBy, SortedBy]
  | cons y ys ih =>
    simp only [SortedBy, List.pairwise_cons] at h
    simp only [insertBy]
    split
    · next hle =>
      simp only [SortedBy, List.pairwise_cons, List.mem_cons]
      refine ⟨?_, h⟩
      rintro z (rfl | hz)
      · exact hle
      · exact strLe_trans hle (h.1 z hz)
    · next hle =>
      have hyx : strLe (key y) (key x) = true := by
        rcases strLe_total (key x) (key y) with h' | h'
        · exact absurd h' hle
        · exact h'
      simp only [SortedBy, List.pairwise_cons]
      refine ⟨?_, ih h.2⟩
      intro z hz
      have := (insertBy_perm key x ys).mem_iff.1 hz
      simp only [List.mem_cons] at this
      rcases this with rfl | hz
      · exact hyx
      · exact h.1 z hz

theorem sortBy_sorted {α : Type} (key : α → Str) (l : List α) : SortedBy key (sortBy key l) := by
  induction l with
  | nil => simp [sortBy, SortedBy]
  | cons x xs ih => exact insertBy_sorted key x _ ih

/-- Two sorted lists with the same elements and injective keys are equal. -/
theorem sorted_unique {α : Type} (key : α → Str) {l l' : List α} (hp : l.Perm l')
    (hs : SortedBy key l) (hs' : SortedBy key l')
    (hinj : ∀ a ∈ l, ∀ b ∈ l, key a = key b → a = b) : l = l' := by
  induction l generalizing l' with
  | nil => exact (List.Perm.nil_eq hp)
  | cons x xs ih =>
    cases l' with
    | nil => exact absurd hp.symm.nil_eq (by simp)
    | cons y ys =>
      have hxy : x = y := by
        have hx : x ∈ y :: ys := hp.mem_iff.1 (by simp)
        have hy : y ∈ x :: xs := hp.mem_iff.2 (by simp)
        simp only [SortedBy, List.pairwise_cons] at hs hs'
        simp only [List.mem_cons] at hx hy
        rcases hx with h | hx
        · exact h
        · rcases hy with h | hy
          · exact h.symm
          · exact hinj x (by simp) y (by simp [hy]) (strLe_antisymm (hs.1 y hy) (hs'.1 x hx))
      subst hxy
      have hp' := List.Perm.cons_inv hp
      simp only [SortedBy, List.pairwise_cons] at hs hs'
      rw [ih hp' hs.2 hs'.2 (fun a ha b hb => hinj a (by simp [ha]) b (by simp [hb]))]

theorem wordsFrom_word {w : Str} (hw : ∀ c ∈ w, isSpace c = false) (cur rest : Str) :
    wordsFrom cur (w ++ rest) = wordsFrom (cur ++ w) rest := by
  induction w generalizing cur with
  | nil => simp
  | cons c cs ih =>
    have hc := hw c (by simp)
    simp only [List.cons_append, wordsFrom, hc, Bool.false_eq_true, if_false]
    rw [ih (fun x hx => hw x (by simp [hx]))]
    simp

theorem words_join (l : List Str) (h : ∀ w ∈ l, w ≠ [] ∧ ∀ c ∈ w, isSpace c = false) :
    words (join py!" " l) = l := by
  unfold words
  induction l with
  | nil => rfl
  | cons w ws ih =>
    obtain ⟨h1, h2⟩ := h w (by simp)
    have ih' := ih (fun x hx => h x (by simp [hx]))
    cases ws with
    | nil =>
      have := wordsFrom_word h2 [] []
      simp only [List.append_nil, List.nil_append] at this
      simp only [join]
      rw [this]; simp [wordsFrom, h1]
    | cons v vs =>
      have e : join py!" " (w :: v :: vs) = w ++ (' ' :: join py!" " (v :: vs)) := by simp [join]
      rw [e, wordsFrom_word h2, List.nil_append, wordsFrom, if_pos (by decide), if_neg h1, ih']

theorem bitAddAll_ok (allowed : List (Str × Str)) : ∀ (l : List Str) (s : BitSet),
    (∀ b ∈ l, b ∈ allowed.map Prod.fst) → (s ++ l).Nodup → bitAddAll allowed s l = .ok (s ++ l)
  | [], s, _, _ => by simp [bitAddAll]
  | b :: bs, s, h, hn => by
    have hb : b ∉ s := by
      rw [List.nodup_append] at hn
      intro hbs; exact hn.2.2 b hbs b (by simp) rfl
    simp only [bitAddAll, bitAdd, h b (by simp), if_true, hb, if_false, bind, Except.bind]
    rw [bitAddAll_ok allowed bs (s ++ [b]) (fun x hx => h x (by simp [hx])) (by simpa using hn)]
    simp

structure BitInv (allowed : List (Str × Str)) (s : BitSet) : Prop where
  declared : ∀ b ∈ s, b ∈ allowed.map Prod.fst
  nodup : s.Nodup

theorem bitAdd_inv {allowed s b s'} (hi : BitInv allowed s) (h : bitAdd allowed s b = .ok s') :
    BitInv allowed s' := by
  simp only [bitAdd] at h
  split at h
  · next hm =>
    split at h
    · simp at h; subst h; exact hi
    · next hns =>
      simp at h; subst h
      refine ⟨?_, ?_⟩
      · intro x hx
        simp only [List.mem_append, List.mem_singleton] at hx
        rcases hx with hx | rfl
        · exact hi.declared x hx
        · exact hm
      · rw [List.nodup_append]
        refine ⟨hi.nodup, by simp, ?_⟩
        intro a ha c hc
        simp at hc; subst hc
        rintro rfl; exact hns ha
  · simp at h

theorem bitAddAll_inv {allowed} : ∀ {l s s'}, BitInv allowed s → bitAddAll allowed s l = .ok s' →
    BitInv allowed s'
  | [], s, s', hi, h => by simp [bitAddAll] at h; subst h; exact hi
  | b :: bs, s, s', hi, h => by
    simp only [bitAddAll, bind, Except.bind] at h
    cases hb : bitAdd allowed s b with
    | error e => simp [hb] at h
    | ok t => rw [hb] at h; exact bitAddAll_inv (bitAdd_inv hi hb) h

theorem bitStep_inv {allowed s op s'} (hi : BitInv allowed s) (h : bitStep allowed s op = .ok s') :
    BitInv allowed s' := by
  have hf : ∀ b, BitInv allowed (s.filter (· ≠ b)) := fun b =>
    ⟨fun x hx => hi.declared x (List.mem_filter.1 hx).1, hi.nodup.filter _⟩
  cases op with
  | assign t => exact bitAddAll_inv ⟨by simp, by simp⟩ h
  | add b => exact bitAdd_inv hi h
  | discard b =>
    simp only [bitStep] at h; split at h
    · simp only [Except.ok.injEq] at h; rw [← h]; exact hf b
    · simp at h
  | remove b =>
    simp only [bitStep] at h; split at h
    · simp only [Except.ok.injEq] at h; rw [← h]; exact hf b
    · simp at h
  | pop b =>
    simp only [bitStep] at h; split at h
    · simp only [Except.ok.injEq] at h; rw [← h]; exact hf b
    · simp at h
  | clear => simp only [bitStep, Except.ok.injEq] at h; rw [← h]; exact ⟨by simp, by simp⟩

/-- The number a text of digits denotes. -/
def digitsVal (acc : Nat) (s : Str) : Nat := s.foldl (fun n c => n * 10 + (c.toNat - 48)) acc

theorem digitsVal_acc (s : Str) (acc : Nat) :
    digitsVal acc s = acc * 10 ^ s.length + digitsVal 0 s := by
  induction s generalizing acc with
  | nil => simp [digitsVal]
  | cons c cs ih =>
    have h1 := ih (acc * 10 + (c.toNat - 48))
    have h2 := ih (0 * 10 + (c.toNat - 48))
    simp only [digitsVal, List.foldl_cons] at *
    rw [h1, h2, List.length_cons, Nat.pow_succ, Nat.add_mul, Nat.zero_mul, Nat.zero_add]
    rw [Nat.mul_assoc, Nat.mul_comm (10 ^ cs.length) 10]
    omega

theorem digitsVal_lt (s : Str) (h : ∀ c ∈ s, isDigit c = true) : digitsVal 0 s < 10 ^ s.length := by
  induction s with
  | nil => simp [digitsVal]
  | cons c cs ih =>
    have ih' := ih (fun x hx => h x (by simp [hx]))
    have hc := h c (by simp)
    simp only [isDigit, Bool.and_eq_true, decide_eq_true_eq] at hc
    have e : digitsVal 0 (c :: cs) = digitsVal (c.toNat - 48) cs := by simp [digitsVal]
    have hc2 : c.toNat - 48 ≤ 9 := by
      have := hc.2
      have h9 : c.toNat ≤ 57 := hc.2
      omega
    rw [e, digitsVal_acc, List.length_cons, Nat.pow_succ]
    have := Nat.mul_le_mul_right (10 ^ cs.length) hc2
    omega

/-- Texts of digits of the same length compare like the numbers they denote. -/
theorem strLe_digits : ∀ {a b : Str}, a.length = b.length →
    (∀ c ∈ a, isDigit c = true) → (∀ c ∈ b, isDigit c = true) → strLe a b = true →
    digitsVal 0 a ≤ digitsVal 0 b
  | [], [], _, _, _, _ => by simp
  | [], _ :: _, hl, _, _, _ => by simp at hl
  | _ :: _, [], hl, _, _, _ => by simp at hl
  | a :: as, b :: bs, hl, ha, hb, hle => by
    have hl' : as.length = bs.length := by simpa using hl
    have ea : digitsVal 0 (a :: as) = digitsVal (a.toNat - 48) as := by simp [digitsVal]
    have eb : digitsVal 0 (b :: bs) = digitsVal (b.toNat - 48) bs := by simp [digitsVal]
    rw [ea, eb, digitsVal_acc, digitsVal_acc bs, hl']
    have hda := ha a (by simp)
    simp only [isDigit, Bool.and_eq_true, decide_eq_true_eq] at hda
    have h48 : 48 ≤ a.toNat := hda.1
    simp only [strLe, Bool.or_eq_true, decide_eq_true_eq, Bool.and_eq_true, beq_iff_eq] at hle
    rcases hle with h | ⟨h, h'⟩
    · have hlt := digitsVal_lt as (fun x hx => ha x (by simp [hx]))
      rw [hl'] at hlt
      have h1 : (a.toNat - 48) + 1 ≤ b.toNat - 48 := by omega
      have h2 := Nat.mul_le_mul_right (10 ^ bs.length) h1
      rw [Nat.add_mul] at h2
      omega
    · rw [h]
      have := strLe_digits hl' (fun x hx => ha x (by simp [hx])) (fun x hx => hb x (by simp [hx])) h'
      omega

end Pyb
