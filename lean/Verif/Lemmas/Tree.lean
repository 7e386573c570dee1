import Verif.Spec.Tree
import Verif.Lemmas.YList

namespace Pyb
open Py Spec

/-! ## Paths -/

@[simp] theorem nodeAt_nil (n : Inst) : nodeAt n [] = some n := by cases n <;> rfl

theorem nodeAt_cont (ch pr : Bool) (ns : List Inst) (i : Nat) (p : Path) :
    nodeAt (.cont ch pr ns) (.field i :: p) = ns[i]?.bind (nodeAt · p) := by
  simp only [nodeAt]; cases ns[i]? <;> rfl

theorem nodeAt_list (ch : Bool) (es : Members Inst) (k : PyVal) (p : Path) :
    nodeAt (.list ch es) (.key k :: p) = (es.find? fun q => pyEq q.1 k).bind (fun q => nodeAt q.2 p) := by
  simp only [nodeAt]; cases es.find? (fun q => pyEq q.1 k) <;> rfl

theorem schemaAt_cont (pres : Bool) (kids : List (Meta × Schema)) (i : Nat) (p : Path) :
    schemaAt (.cont pres kids) (.field i :: p) = kids[i]?.bind (fun k => schemaAt k.2 p) := by
  simp only [schemaAt]; cases kids[i]? <;> rfl

@[simp] theorem schemaAt_nil (S : Schema) : schemaAt S [] = some S := by cases S <;> rfl

theorem nodeAt_cont_key (ch pr : Bool) (ns : List Inst) (k : PyVal) (p : Path) :
    nodeAt (.cont ch pr ns) (.key k :: p) = none := rfl
theorem nodeAt_list_field (ch : Bool) (es : Members Inst) (i : Nat) (p : Path) :
    nodeAt (.list ch es) (.field i :: p) = none := rfl
theorem nodeAt_leaf (v : PyVal) (ch : Bool) (s : Step) (p : Path) : nodeAt (.leaf v ch) (s :: p) = none := by
  cases s <;> rfl
theorem nodeAt_leafList (v : List PyVal) (ch : Bool) (s : Step) (p : Path) :
    nodeAt (.leafList v ch) (s :: p) = none := by
  cases s <;> rfl

/-! ## New objects hold no data -/

theorem freshKids_get (kids : List (Meta × Schema)) (i : Nat) :
    (freshKids kids)[i]? = (kids[i]?).map fun k => fresh k.2 := by
  induction kids generalizing i with
  | nil => simp [freshKids]
  | cons k ks ih => cases i <;> simp [freshKids, ih]

theorem freshKids_length (kids : List (Meta × Schema)) : (freshKids kids).length = kids.length := by
  induction kids with
  | nil => rfl
  | cons k ks ih => simp [freshKids, ih]

theorem freshKids_mem {kids : List (Meta × Schema)} {c : Inst} (h : c ∈ freshKids kids) : ∃ T, c = fresh T := by
  induction kids with
  | nil => simp [freshKids] at h
  | cons k ks ih =>
    simp only [freshKids, List.mem_cons] at h
    rcases h with h | h
    · exact ⟨_, h⟩
    · exact ih h

/-- Every object in a new tree is new. -/
theorem within_fresh {m n : Inst} (h : Within m n) : ∀ S, n = fresh S → ∃ T, m = fresh T := by
  induction h with
  | here => intro S h; exact ⟨S, h⟩
  | field hc _ ih =>
    intro S h
    cases S <;> simp [fresh] at h
    obtain ⟨_, _, rfl⟩ := h
    obtain ⟨T, rfl⟩ := freshKids_mem hc
    exact ih T rfl
  | entry hc _ ih =>
    intro S h
    cases S <;> simp [fresh] at h
    simp [h.2] at hc

theorem nodeAt_within {n m : Inst} {p : Path} (h : nodeAt n p = some m) : Within m n := by
  induction p generalizing n with
  | nil => simp at h; subst h; exact .here
  | cons s p ih =>
    cases n with
    | leaf v ch => simp [nodeAt_leaf] at h
    | leafList v ch => simp [nodeAt_leafList] at h
    | cont ch pr ns =>
      cases s with
      | key k => simp [nodeAt_cont_key] at h
      | field i =>
        rw [nodeAt_cont] at h
        cases hc : ns[i]? with
        | none => simp [hc] at h
        | some c =>
          simp only [hc, Option.bind_some] at h
          exact .field (List.mem_of_getElem? hc) (ih h)
    | list ch es =>
      cases s with
      | field k => simp [nodeAt_list_field] at h
      | key k =>
        rw [nodeAt_list] at h
        cases hc : es.find? (fun q => pyEq q.1 k) with
        | none => simp [hc] at h
        | some q =>
          simp only [hc, Option.bind_some] at h
          exact .entry (k := q.1) (e := q.2) (List.mem_of_find?_eq_some hc) (ih h)

/-! ## Data: both notions at once -/

/-- `b = false`: set leaves; `b = true`: all data. -/
def Datum (b : Bool) : Inst → Prop
  | .leaf _ ch => ch = true
  | .leafList vs _ => b = true ∧ vs ≠ []
  | .cont _ pr _ => b = true ∧ pr = true
  | .list _ es => b = true ∧ es ≠ []

def Has (b : Bool) (n : Inst) : Prop := ∃ m, Within m n ∧ Datum b m

theorem hasSet_iff (n : Inst) : HasSet n ↔ Has false n := by
  constructor
  · rintro ⟨v, h⟩; exact ⟨_, h, rfl⟩
  · rintro ⟨m, h, hd⟩
    cases m <;> simp [Datum] at hd
    subst hd; exact ⟨_, h⟩

theorem hasData_iff (n : Inst) : HasData n ↔ Has true n := by
  constructor
  · rintro ⟨m, h, hd⟩; exact ⟨m, h, by cases m <;> simpa [Datum, IsDatum] using hd⟩
  · rintro ⟨m, h, hd⟩; exact ⟨m, h, by cases m <;> simpa [Datum, IsDatum] using hd⟩

theorem has_fresh (b : Bool) (S : Schema) : ¬ Has b (fresh S) := by
  rintro ⟨m, h, hd⟩
  obtain ⟨T, rfl⟩ := within_fresh h S rfl
  cases T <;> simp [fresh, Datum] at hd

theorem has_leaf (b : Bool) (v : PyVal) (ch : Bool) : Has b (.leaf v ch) ↔ ch = true := by
  constructor
  · rintro ⟨m, h, hd⟩; cases h; exact hd
  · intro h; exact ⟨_, .here, h⟩

theorem has_leafList (b : Bool) (vs : List PyVal) (ch : Bool) : Has b (.leafList vs ch) ↔ b = true ∧ vs ≠ [] := by
  constructor
  · rintro ⟨m, h, hd⟩; cases h; exact hd
  · intro h; exact ⟨_, .here, h⟩

theorem has_cont (b ch pr : Bool) (ns : List Inst) :
    Has b (.cont ch pr ns) ↔ (b = true ∧ pr = true) ∨ ∃ c ∈ ns, Has b c := by
  constructor
  · rintro ⟨m, h, hd⟩
    cases h with
    | here => exact .inl hd
    | field hc h => exact .inr ⟨_, hc, m, h, hd⟩
  · rintro (h | ⟨c, hc, m, h, hd⟩)
    · exact ⟨_, .here, h⟩
    · exact ⟨m, .field hc h, hd⟩

theorem has_list (b ch : Bool) (es : Members Inst) :
    Has b (.list ch es) ↔ (b = true ∧ es ≠ []) ∨ ∃ q ∈ es, Has b q.2 := by
  constructor
  · rintro ⟨m, h, hd⟩
    cases h with
    | here => exact .inl hd
    | entry hc h => exact .inr ⟨_, hc, m, h, hd⟩
  · rintro (h | ⟨c, hc, m, h, hd⟩)
    · exact ⟨_, .here, h⟩
    · exact ⟨m, .entry (k := c.1) hc h, hd⟩

theorem has_freshEntry (b : Bool) (kids : List (Meta × Schema)) : ¬ Has b (.cont false false (freshKids kids)) :=
  has_fresh b (.cont false kids)

/-! ## Clearing and `_set` -/

/-- The child at one position after clearing. -/
def clr (b : Option Choice → Bool) : Option (Meta × Schema) → Option Inst → Option Inst
  | some k, some n => some (if b k.1.choice then fresh k.2 else n)
  | _, r => r

theorem clearKids_get (c : Choice) (kids : List (Meta × Schema)) (ns : List Inst) (j : Nat) :
    (clearKids c kids ns)[j]? = clr (competes c) kids[j]? ns[j]? := by
  induction kids generalizing ns j with
  | nil => cases ns <;> simp [clearKids, clr]
  | cons k ks ih =>
    cases ns with
    | nil => simp [clearKids]; cases (k :: ks)[j]? <;> rfl
    | cons n ns =>
      cases j with
      | zero => simp [clearKids, clr]
      | succ j => simp [clearKids, ih]

/-- Some call clears the children of this choice. -/
def clearsBy (sigs : List (Option Choice)) (ch : Option Choice) : Bool :=
  sigs.any fun s => s.any fun c => competes c ch

/-- What `_set` calls do to a container: mark it, and replace the competing children. -/
theorem recvAll_cont (pres : Bool) (kids : List (Meta × Schema)) (sigs : List (Option Choice)) :
    ∀ (ch pr : Bool) (ns : List Inst), ∃ ns' : List Inst,
      recvAll pres kids (.cont ch pr ns) sigs
        = .cont (ch || !sigs.isEmpty) (pr || (pres && !sigs.isEmpty)) ns' ∧
      ∀ j : Nat, ns'[j]? = clr (clearsBy sigs) kids[j]? ns[j]? := by
  induction sigs with
  | nil =>
    intro ch pr ns
    refine ⟨ns, by simp [recvAll], fun j => ?_⟩
    cases kids[j]? <;> cases ns[j]? <;> simp [clearsBy, clr]
  | cons s sigs ih =>
    intro ch pr ns
    have hstep : recvAll pres kids (.cont ch pr ns) (s :: sigs) =
        recvAll pres kids (recv pres kids (.cont ch pr ns) s) sigs := rfl
    rw [hstep]
    cases s with
    | none =>
      simp only [recv]
      obtain ⟨ns', h1, h2⟩ := ih true (pr || pres) ns
      refine ⟨ns', by rw [h1]; cases pr <;> cases pres <;> simp, fun j => ?_⟩
      rw [h2 j]
      cases kids[j]? <;> cases ns[j]? <;> simp [clearsBy, clr]
    | some c =>
      simp only [recv]
      obtain ⟨ns', h1, h2⟩ := ih true (pr || pres) (clearKids c kids ns)
      refine ⟨ns', by rw [h1]; cases pr <;> cases pres <;> simp, fun j => ?_⟩
      rw [h2 j, clearKids_get]
      cases kids[j]? with
      | none => cases ns[j]? <;> simp [clr]
      | some k =>
        cases ns[j]? with
        | none => simp [clr]
        | some n => simp only [clr, clearsBy, List.any_cons]; by_cases h : competes c k.1.choice = true <;> simp [h]

/-- What an operation on child `i` does to its container. -/
theorem contPut_spec (pres : Bool) (own : Option Choice) (kids : List (Meta × Schema)) (ch pr : Bool)
    (ns : List Inst) (i : Nat) (o : Out) : ∃ ns' : List Inst,
      (contPut pres own kids ch pr ns i o).inst
        = .cont (ch || !o.sigs.isEmpty) (pr || (pres && !o.sigs.isEmpty)) ns' ∧
      ∀ j : Nat, ns'[j]? = clr (clearsBy o.sigs) kids[j]? (ns.set i o.inst)[j]? :=
  recvAll_cont pres kids o.sigs ch pr (ns.set i o.inst)

/-- A quiet operation on a child only changes the child. -/
theorem contPut_quiet (pres : Bool) (own : Option Choice) (kids : List (Meta × Schema)) (ch pr : Bool)
    (ns : List Inst) (i : Nat) (o : Out) (h : o.sigs = []) :
    contPut pres own kids ch pr ns i o = ⟨.cont ch pr (ns.set i o.inst), [], o.err⟩ := by
  simp [contPut, h, recvAll]

/-! ## Quiet operations: those that call no `_set` -/

theorem leafSet_quiet {L : LeafCls} {own : Option Choice} {n : Inst} {v : PyVal}
    (h : (leafSet L own n v).sigs = []) : (leafSet L own n v).inst = n ∧ (leafSet L own n v).err ≠ none := by
  simp only [leafSet] at h ⊢
  cases hs : L.set v <;> simp [hs] at h ⊢

theorem copyKids_sigs (pres : Bool) (own : Option Choice) (all : List (Meta × Schema)) :
    ∀ (ks : List (Meta × Schema)) (vs : List Inst) (i : Nat) (o : Out),
      ∃ rest, (copyKids pres own all ks vs i o).sigs = o.sigs ++ rest := by
  intro ks
  induction ks with
  | nil => intro vs i o; exact ⟨[], by simp [copyKids]⟩
  | cons k ks ih =>
    intro vs i o
    cases vs with
    | nil => exact ⟨[], by simp [copyKids]⟩
    | cons v vs =>
      simp only [copyKids]
      split
      · split
        · rename_i ch pr ns _
          split
          · exact ⟨_, rfl⟩
          · obtain ⟨rest, h⟩ := ih vs (i + 1)
              ⟨(contPut pres own all ch pr ns i (copyNode k.2 k.1.choice (fresh k.2) v)).inst,
               o.sigs ++ (contPut pres own all ch pr ns i (copyNode k.2 k.1.choice (fresh k.2) v)).sigs, none⟩
            exact ⟨_, by rw [h]; simp; rfl⟩
        · exact ⟨[], by simp⟩
      · exact ih vs (i + 1) o

theorem copyNode_quiet {S : Schema} {own : Option Choice} {n v : Inst} (h : (copyNode S own n v).sigs = []) :
    (copyNode S own n v).inst = n ∧ (copyNode S own n v).err ≠ none := by
  cases S <;> cases v <;> simp only [copyNode] at h ⊢
  case leaf.leaf => exact leafSet_quiet h
  case leafList.leafList => split at h <;> simp_all
  case cont.cont pres kids _ _ ns =>
    obtain ⟨rest, hr⟩ := copyKids_sigs pres own kids kids ns 0 ⟨.cont true pres (freshKids kids), [own], none⟩
    split at h <;> simp_all
  case list.list => simp at h
  all_goals simp [fail]

theorem keySet_quiet {kids : List (Meta × Schema)} {e : Inst} {j : Nat} {v : PyVal}
    (h : (keySet kids e j v).sigs = []) : (keySet kids e j v).err ≠ none := by
  simp only [keySet] at h ⊢
  split at h
  · rename_i m L ch pr ns _
    simp only [contPut, List.map_eq_nil_iff] at h ⊢
    exact (leafSet_quiet h).2
  · simp [fail]

theorem toExcept_ok {o : Out} {n : Inst} (h : o.toExcept = .ok n) : o.err = none ∧ o.inst = n := by
  simp only [Out.toExcept] at h
  split at h <;> simp_all

/-- If the key leaves of a new entry could be set, `_set` was called. -/
theorem keySigs_loud {info : ListInfo} {kids : List (Meta × Schema)} {raws : List PyVal} {e e' : Inst}
    (hk : info.keys ≠ []) (hl : raws.length = info.keys.length)
    (h : setKeys (entryCls info kids) 0 raws e = .ok e') : keySigs kids e (info.keys.zip raws) ≠ [] := by
  cases hks : info.keys with
  | nil => exact absurd hks hk
  | cons j js =>
    cases raws with
    | nil => simp [hks] at hl
    | cons r rs =>
      simp only [setKeys, bind_ok] at h
      obtain ⟨e1, h1, _⟩ := h
      simp only [entryCls, hks, List.length_cons, Nat.zero_lt_succ, getElem?_pos, List.getElem_cons_zero] at h1
      obtain ⟨h2, h3⟩ := toExcept_ok h1
      intro hn
      simp only [List.zip_cons_cons, keySigs, h2, List.append_eq_nil_iff] at hn
      exact keySet_quiet hn.1 h2

/-! ## The shape of what list operations do -/

/-- An entry as made by the list: new, or new/copied with its key leaves set. -/
def Made (info : ListInfo) (kids : List (Meta × Schema)) (e : Inst) : Prop :=
  e = .cont false false (freshKids kids) ∨
  ∃ u v raws, raws.length = info.keys.length ∧ mkEntry (entryCls info kids) u v raws = .ok e

/-- The four outcomes of an operation on a list: refused, an entry stored, an entry
removed, an entry of a list without key added. -/
inductive ListShape (info : ListInfo) (kids : List (Meta × Schema)) (ch : Bool) (es : Members Inst) (op : Op) :
    Out → Prop where
  | refused (ch' sg e) : ListShape info kids ch es op ⟨.list ch' es, sg, some e⟩
  | stored (ch' k e sg) : Made info kids e → sg ≠ [] →
      ListShape info kids ch es op ⟨.list ch' (store es k e), sg, none⟩
  | removed (k es') : erase es k = .ok es' → ListShape info kids ch es op ⟨.list ch es', [], none⟩
  | anon (u) : op = .addAnon u →
      ListShape info kids ch es op ⟨.list ch (store es (.str u) (.cont false false (freshKids kids))), [], none⟩

theorem mkEntry_made {info : ListInfo} {kids : List (Meta × Schema)} {u : Bool} {v : Option Inst}
    {raws : List PyVal} {e : Inst} (hl : raws.length = info.keys.length)
    (h : mkEntry (entryCls info kids) u v raws = .ok e) : Made info kids e :=
  .inr ⟨u, v, raws, hl, h⟩

theorem setPos_shape {info : ListInfo} {kids : List (Meta × Schema)} {ch : Bool} {es : Members Inst} {op : Op}
    {k : PyVal} {v : Option Inst} {sg : List (Option Choice)} {ch' : Bool}
    (hs : ∀ es', ylSetPos (entryCls info kids) info.keys.length es k v = .ok es' → sg ≠ []) :
    ListShape info kids ch es op
      (listOut ch' es sg (ylSetPos (entryCls info kids) info.keys.length es k v)) := by
  cases h : ylSetPos (entryCls info kids) info.keys.length es k v with
  | error e => exact .refused ..
  | ok es' =>
    obtain ⟨_, _, raws, e, h1, h2, h3⟩ := ylSetPos_ok h
    subst h3
    exact .stored _ _ _ _ (mkEntry_made (keyParts_ok h1).1 h2) (hs _ h)

theorem nodeOp_list_shape (info : ListInfo) (kids : List (Meta × Schema)) (own : Option Choice) (ch : Bool)
    (es : Members Inst) (op : Op) (hu : op ≠ .unset) (ha : ∀ v, op ≠ .assign v) :
    ListShape info kids ch es op (nodeOp (.list info kids) own (.list ch es) op) := by
  cases op with
  | unset => exact absurd rfl hu
  | assign v => exact absurd rfl (ha v)
  | set v l => exact .refused ..
  | ll op => exact .refused ..
  | present b => cases b <;> exact .refused ..
  | add k =>
    simp only [nodeOp]
    split
    · exact .refused ..
    · rename_i hk
      cases h : ylAdd (entryCls info kids) info.keys.length es k with
      | error e => exact .refused ..
      | ok es' =>
        obtain ⟨h1, h2⟩ := ylAdd_ok h
        obtain ⟨g1, g2, raws, e, h3, h4, h5⟩ := ylSetPos_ok h2
        subst h5
        refine .stored _ _ _ _ (mkEntry_made (keyParts_ok h3).1 h4) ?_
        simp only [mkEntry, bind_ok, Option.isSome_none, h1, Bool.or_self, startEntry] at h4
        obtain ⟨e0, h6, h7⟩ := h4
        simp only [Except.ok.injEq] at h6
        subst h6
        simp only [addSigs, g2, h1, setPosSigs, g1, h3, Bool.not_true, Bool.false_eq_true, if_false]
        exact keySigs_loud hk (keyParts_ok h3).1 h7
  | addNamed raws =>
    simp only [nodeOp]
    split
    · exact .refused ..
    · rename_i hk
      simp only [not_or, Decidable.not_not] at hk
      cases h : ylAddNamed (entryCls info kids) es raws none with
      | error e => exact .refused ..
      | ok es' =>
        obtain ⟨rs, e, h1, h2, h3, h4⟩ := ylAddNamed_ok h
        have hl : rs.length = info.keys.length := by
          have := allGiven_ok.1 h1
          rw [← hk.2, this]; simp
        rw [← store_new h2] at h4
        subst h4
        refine .stored _ _ _ _ (mkEntry_made hl h3) ?_
        simp only [mkEntry, bind_ok, Option.isSome_none, startEntry] at h3
        obtain ⟨e0, h6, h7⟩ := h3
        simp only [Except.ok.injEq] at h6
        subst h6
        simp only [addNamedSigs, h1, h2, Bool.false_eq_true, if_false]
        exact keySigs_loud hk.1 hl h7
  | addAnon u =>
    simp only [nodeOp]
    split
    · exact .anon _ rfl
    · exact .refused ..
  | append v =>
    simp only [nodeOp]
    split
    · exact .refused ..
    · exact setPos_shape fun _ _ => by simp
  | setitem k v =>
    simp only [nodeOp]
    split
    · split
      · exact .stored _ _ _ _ (.inl rfl) (by simp)
      · exact .refused ..
    · exact setPos_shape fun _ _ => by simp
  | delete k =>
    simp only [nodeOp]
    cases h : ylDelete es k with
    | error e => exact .refused ..
    | ok es' =>
      refine .removed k es' ?_
      unfold ylDelete at h
      split at h
      · simp at h
      · exact h

/-! ## Quiet operations add no data -/

theorem llApply_quiet {L : LLCls} {own : Option Choice} {xs : List PyVal} {ch : Bool} {op : LLOp}
    (h : (llApply L own xs ch op).sigs = []) :
    ∃ ys, (llApply L own xs ch op).inst = .leafList ys ch ∧ (ys ≠ [] → xs ≠ []) := by
  have hdel : ∀ i, (llStep L.conv L.uniq L.show xs (.delitem i)).1 ≠ [] → xs ≠ [] := by
    intro i hd hx
    subst hx
    have : ∀ i : Int, pyDel [] i = .error .indexError := by
      intro i
      have : pyIndex 0 i = .error .indexError := by
        unfold pyIndex
        rw [if_neg]
        simp only [Int.ofNat_eq_natCast, Int.natCast_zero, Int.not_le, Int.not_lt]
        split <;> omega
      simp [pyDel, this, Except.map]
    simp [llStep, this] at hd
  cases op <;> simp only [llApply, llMarks] at h ⊢
  case assign a => split at h <;> simp at h
  case iadd a => split at h <;> simp at h
  case delitem i => exact ⟨_, rfl, hdel i⟩
  case reverse =>
    by_cases hl : 2 ≤ xs.length
    · simp [hl] at h
    · simp only [hl, decide_false, Bool.false_eq_true, if_false]
      refine ⟨_, rfl, ?_⟩
      intro hd hx
      subst hx
      simp [llStep, tlReverse] at hd
  all_goals simp at h

theorem has_store {b : Bool} {es : Members Inst} {k : PyVal} {e : Inst} {q : PyVal × Inst}
    (hq : q ∈ store es k e) (h : Has b q.2) : Has b e ∨ ∃ q ∈ es, Has b q.2 := by
  rcases store_mem hq with h1 | ⟨h1, _⟩
  · exact .inr ⟨q, h1, h⟩
  · rw [h1] at h; exact .inl h

theorem nodeOp_quiet {b : Bool} {S : Schema} {own : Option Choice} {n : Inst} {op : Op}
    (hb : b = true → ∀ u, op ≠ .addAnon u) (h : (nodeOp S own n op).sigs = [])
    (hd : Has b (nodeOp S own n op).inst) : Has b n := by
  by_cases hu : op = .unset
  · subst hu; exact absurd hd (by cases S <;> exact has_fresh b _)
  by_cases ha : ∃ v, op = .assign v
  · obtain ⟨v, rfl⟩ := ha
    have e : nodeOp S own n (.assign v) = copyNode S own n v := by cases S <;> rfl
    rw [e] at h hd
    rw [(copyNode_quiet h).1] at hd
    exact hd
  have ha : ∀ v, op ≠ .assign v := fun v hv => ha ⟨v, hv⟩
  cases S with
  | leaf L =>
    cases op with
    | set v l =>
      have := (leafSet_quiet (L := L) (own := own) (n := n) (v := v) h).1
      simp only [nodeOp, this] at hd
      exact hd
    | present x => cases x <;> exact hd
    | unset => exact absurd rfl hu
    | assign v => exact absurd rfl (ha _)
    | _ => exact hd
  | leafList L =>
    cases op with
    | ll op =>
      cases n with
      | leafList xs ch =>
        obtain ⟨ys, h1, h2⟩ := llApply_quiet (L := L) (own := own) (op := op) h
        simp only [nodeOp, h1, has_leafList] at hd ⊢
        exact ⟨hd.1, h2 hd.2⟩
      | _ => exact hd
    | present x => cases x <;> exact hd
    | unset => exact absurd rfl hu
    | assign v => exact absurd rfl (ha _)
    | _ => exact hd
  | cont pres kids =>
    cases op with
    | present x =>
      cases n with
      | cont ch pr ns =>
        cases x with
        | true => simp [nodeOp] at h
        | false =>
          simp only [nodeOp, has_cont] at hd ⊢
          exact .inr (by simpa using hd)
      | _ => cases x <;> exact hd
    | unset => exact absurd rfl hu
    | assign v => exact absurd rfl (ha _)
    | _ => exact hd
  | list info kids =>
    cases n with
    | leaf v ch =>
      cases op with
      | present x => cases x <;> exact hd
      | unset => exact absurd rfl hu
      | assign v => exact absurd rfl (ha _)
      | _ => exact hd
    | leafList v ch =>
      cases op with
      | present x => cases x <;> exact hd
      | unset => exact absurd rfl hu
      | assign v => exact absurd rfl (ha _)
      | _ => exact hd
    | cont ch pr ns =>
      cases op with
      | present x => cases x <;> exact hd
      | unset => exact absurd rfl hu
      | assign v => exact absurd rfl (ha _)
      | _ => exact hd
    | list ch es =>
      have hs := nodeOp_list_shape info kids own ch es op hu ha
      generalize nodeOp (.list info kids) own (.list ch es) op = o at h hd hs
      cases hs with
      | refused ch' sg e => simp only [has_list] at hd ⊢; exact hd
      | stored ch' k e sg hm hne => exact absurd h hne
      | removed k es' he =>
        obtain ⟨l, p, r, h1, _, _, h4⟩ := erase_ok he
        subst h1; subst h4
        simp only [has_list, List.mem_append, List.mem_cons] at hd ⊢
        rcases hd with hd | ⟨q, hq, hd⟩
        · exact .inl ⟨hd.1, by simp⟩
        · exact .inr ⟨q, by rcases hq with hq | hq <;> simp [hq], hd⟩
      | anon u hop =>
        simp only [has_list] at hd ⊢
        rcases hd with hd | ⟨q, hq, hd⟩
        · exact absurd hop (hb hd.1 u)
        · rcases has_store hq hd with h1 | h1
          · exact absurd h1 (has_freshEntry b kids)
          · exact .inr h1

/-- What an operation further down comes to: it fails at once, or goes into a child, or
into an entry. -/
inductive RunShape (own : Option Choice) (p : Path) (op : Op) : Schema → Inst → Step → Out → Prop where
  | stuck (S n s e) : RunShape own p op S n s (fail n e)
  | field (pres kids ch pr ns i k c) : kids[i]? = some k → ns[i]? = some c →
      RunShape own p op (.cont pres kids) (.cont ch pr ns) (.field i)
        (contPut pres own kids ch pr ns i (run k.2 k.1.choice c p op))
  | entry (info kids ch es k q) : hashable k = true → (es.find? fun q => pyEq q.1 k) = some q → p ≠ [] →
      keyGuard info p op = false →
      RunShape own p op (.list info kids) (.list ch es) (.key k)
        ⟨.list ch (store es k (run (.cont false kids) none q.2 p op).inst),
          (run (.cont false kids) none q.2 p op).sigs, (run (.cont false kids) none q.2 p op).err⟩

theorem run_nil (S : Schema) (own : Option Choice) (n : Inst) (op : Op) : run S own n [] op = nodeOp S own n op := by
  cases S <;> rfl

theorem run_shape (S : Schema) (own : Option Choice) (n : Inst) (s : Step) (p : Path) (op : Op) :
    RunShape own p op S n s (run S own n (s :: p) op) := by
  cases S with
  | leaf L => cases n <;> cases s <;> exact .stuck ..
  | leafList L => cases n <;> cases s <;> exact .stuck ..
  | cont pres kids =>
    cases n with
    | cont ch pr ns =>
      cases s with
      | key k => exact .stuck ..
      | field i =>
        simp only [run]
        split
        · exact .field _ _ _ _ _ _ _ _ (by assumption) (by assumption)
        · exact .stuck ..
    | _ => cases s <;> exact .stuck ..
  | list info kids =>
    cases n with
    | list ch es =>
      cases s with
      | field i => exact .stuck ..
      | key k =>
        simp only [run]
        by_cases c1 : hashable k = true
        · simp only [c1, Bool.not_true, Bool.false_eq_true, if_false]
          cases hf : es.find? (fun q => pyEq q.1 k) with
          | none => exact .stuck ..
          | some q =>
            by_cases c2 : p = []
            · simp only [c2, if_true]; exact .stuck ..
            · simp only [c2, if_false]
              by_cases c3 : keyGuard info p op = true
              · simp only [c3, if_true]; exact .stuck ..
              · simp only [c3, if_false]
                exact .entry _ _ _ _ _ _ c1 hf c2 (by simpa using c3)
        · simp only [Bool.not_eq_true] at c1
          simp only [c1, Bool.not_false, if_true]; exact .stuck ..
    | _ => cases s <;> exact .stuck ..

/-- An operation that calls no `_set` leaves no data that was not there before. -/
theorem run_quiet {b : Bool} {p : Path} : ∀ {S : Schema} {own : Option Choice} {n : Inst} {op : Op},
    (b = true → ∀ u, op ≠ .addAnon u) → (run S own n p op).sigs = [] →
    Has b (run S own n p op).inst → Has b n := by
  induction p with
  | nil =>
    intro S own n op hb h hd
    rw [run_nil] at h hd
    exact nodeOp_quiet hb h hd
  | cons s p ih =>
    intro S own n op hb h hd
    have hs := run_shape S own n s p op
    generalize run S own n (s :: p) op = o at h hd hs
    cases hs with
    | stuck => exact hd
    | field pres kids ch pr ns i k c hk hc =>
      have h' : (run k.2 k.1.choice c p op).sigs = [] := by simpa [contPut] using h
      rw [contPut_quiet _ _ _ _ _ _ _ _ h'] at hd
      simp only [has_cont] at hd ⊢
      rcases hd with hd | ⟨x, hx, hd⟩
      · exact .inl hd
      · rcases List.mem_or_eq_of_mem_set hx with hx | hx
        · exact .inr ⟨x, hx, hd⟩
        · subst hx
          exact .inr ⟨c, List.mem_of_getElem? hc, ih hb h' hd⟩
    | entry info kids ch es k q hk hf hp hg =>
      simp only [has_list] at hd ⊢
      have hmem := List.mem_of_find?_eq_some hf
      rcases hd with hd | ⟨x, hx, hd⟩
      · exact .inl ⟨hd.1, by intro e; simp [e] at hmem⟩
      · rcases has_store hx hd with h1 | h1
        · exact .inr ⟨q, hmem, ih hb h h1⟩
        · exact .inr h1

/-! ## Quiet operations mark nothing changed -/

theorem fresh_changed (S : Schema) : (fresh S).changed = false := by cases S <;> rfl

theorem nodeOp_quiet_changed {S : Schema} {own : Option Choice} {n : Inst} {op : Op}
    (h : (nodeOp S own n op).sigs = []) (hd : (nodeOp S own n op).inst.changed = true) : n.changed = true := by
  by_cases hu : op = .unset
  · subst hu
    have e : nodeOp S own n .unset = ⟨fresh S, [], none⟩ := by cases S <;> rfl
    rw [e, fresh_changed] at hd
    simp at hd
  by_cases ha : ∃ v, op = .assign v
  · obtain ⟨v, rfl⟩ := ha
    have e : nodeOp S own n (.assign v) = copyNode S own n v := by cases S <;> rfl
    rw [e] at h hd
    rw [(copyNode_quiet h).1] at hd
    exact hd
  have ha : ∀ v, op ≠ .assign v := fun v hv => ha ⟨v, hv⟩
  cases S with
  | leaf L =>
    cases op with
    | set v l =>
      have := (leafSet_quiet (L := L) (own := own) (n := n) (v := v) h).1
      simp only [nodeOp, this] at hd
      exact hd
    | present x => cases x <;> exact hd
    | unset => exact absurd rfl hu
    | assign v => exact absurd rfl (ha _)
    | _ => exact hd
  | leafList L =>
    cases op with
    | ll op =>
      cases n with
      | leafList xs ch =>
        obtain ⟨ys, h1, h2⟩ := llApply_quiet (L := L) (own := own) (op := op) h
        simp only [nodeOp, h1] at hd ⊢
        exact hd
      | _ => exact hd
    | present x => cases x <;> exact hd
    | unset => exact absurd rfl hu
    | assign v => exact absurd rfl (ha _)
    | _ => exact hd
  | cont pres kids =>
    cases op with
    | present x =>
      cases n with
      | cont ch pr ns =>
        cases x with
        | true => simp [nodeOp] at h
        | false => simp [nodeOp, Inst.changed] at hd
      | _ => cases x <;> exact hd
    | unset => exact absurd rfl hu
    | assign v => exact absurd rfl (ha _)
    | _ => exact hd
  | list info kids =>
    cases n with
    | list ch es =>
      cases op with
      | unset => exact absurd rfl hu
      | assign v => exact absurd rfl (ha _)
      | append v =>
        simp only [nodeOp] at h
        split at h
        · simp at h
        · simp only [listOut] at h; split at h <;> simp at h
      | setitem k v =>
        simp only [nodeOp] at h
        split at h
        · split at h <;> simp at h
        · simp only [listOut] at h; split at h <;> simp at h
      | add k =>
        simp only [nodeOp, listOut] at hd
        split at hd
        · exact hd
        · split at hd <;> exact hd
      | addNamed k =>
        simp only [nodeOp, listOut] at hd
        split at hd
        · exact hd
        · split at hd <;> exact hd
      | addAnon k =>
        simp only [nodeOp] at hd
        split at hd <;> exact hd
      | delete k =>
        simp only [nodeOp, listOut] at hd
        split at hd <;> exact hd
      | present x => cases x <;> exact hd
      | _ => exact hd
    | _ =>
      cases op with
      | unset => exact absurd rfl hu
      | assign v => exact absurd rfl (ha _)
      | present x => cases x <;> exact hd
      | _ => exact hd

theorem run_quiet_changed {p : Path} {S : Schema} {own : Option Choice} {n : Inst} {op : Op}
    (h : (run S own n p op).sigs = []) (hd : (run S own n p op).inst.changed = true) : n.changed = true := by
  cases p with
  | nil => rw [run_nil] at h hd; exact nodeOp_quiet_changed h hd
  | cons s p =>
    have hs := run_shape S own n s p op
    generalize run S own n (s :: p) op = o at h hd hs
    cases hs with
    | stuck => exact hd
    | field pres kids ch pr ns i k c hk hc =>
      have h' : (run k.2 k.1.choice c p op).sigs = [] := by simpa [contPut] using h
      rw [contPut_quiet _ _ _ _ _ _ _ _ h'] at hd
      exact hd
    | entry => exact hd

end Pyb
